import Verif.Reduce.Model
/-!
# Reductions of reference and hypothesis: lemmas
-/
set_option autoImplicit false
namespace Verif.Reduce
open Verif.WtokeNet

/-- The line, left out. -/
def left (t : Tok) : Tok := { t with ignore := true }

/-- What an item should become: an item none of whose words is covered is left out, all others stay as they are. -/
def reduced (segs : List Seg) (i : Item) : List Item :=
  if AllFar segs i then i.lines.map (fun t => Item.skip (left t)) else [i]

theorem lt_begin_aux (x : Rat) (segs : List Seg) : ∀ b : Rat,
    x < segs.foldl (fun bt s => if bt > s.t1 then s.t1 else bt) b ↔ x < b ∧ ∀ s ∈ segs, x < s.t1 := by
  induction segs with
  | nil => intro b; simp
  | cons s segs ih =>
    intro b
    rw [List.foldl_cons, ih]
    simp only [List.mem_cons, forall_eq_or_imp]
    by_cases h : b > s.t1
    · rw [if_pos h]
      constructor
      · intro ⟨h1, h2⟩; exact ⟨by grind, h1, h2⟩
      · intro ⟨_, h1, h2⟩; exact ⟨h1, h2⟩
    · rw [if_neg h]
      constructor
      · intro ⟨h1, h2⟩; exact ⟨h1, by grind, h2⟩
      · intro ⟨h1, _, h2⟩; exact ⟨h1, h2⟩

theorem lt_begin (x : Rat) (segs : List Seg) : x < beginTime segs ↔ x < 9999999 ∧ ∀ s ∈ segs, x < s.t1 :=
  lt_begin_aux x segs _

theorem end_lt_aux (x : Rat) (segs : List Seg) : ∀ b : Rat,
    segs.foldl (fun et s => if et < s.t2 then s.t2 else et) b < x ↔ b < x ∧ ∀ s ∈ segs, s.t2 < x := by
  induction segs with
  | nil => intro b; simp
  | cons s segs ih =>
    intro b
    rw [List.foldl_cons, ih]
    simp only [List.mem_cons, forall_eq_or_imp]
    by_cases h : b < s.t2
    · rw [if_pos h]
      constructor
      · intro ⟨h1, h2⟩; exact ⟨by grind, h1, h2⟩
      · intro ⟨_, h1, h2⟩; exact ⟨h1, h2⟩
    · rw [if_neg h]
      constructor
      · intro ⟨h1, h2⟩; exact ⟨h1, by grind, h2⟩
      · intro ⟨h1, _, h2⟩; exact ⟨h1, h2⟩

theorem end_lt (x : Rat) (segs : List Seg) : endTime segs < x ↔ -999999 < x ∧ ∀ s ∈ segs, s.t2 < x :=
  end_lt_aux x segs _

theorem isAlt_plain {t : Tok} (h : Plain t) : isAlt t = false := by
  unfold isAlt; unfold Plain at h; simpa using h

theorem isAlt_begin {t : Tok} (h : Is beginMark t.sp) : isAlt t = true := by
  unfold isAlt; unfold Is at h; rw [h]; decide
theorem isAlt_or {t : Tok} (h : Is orMark t.sp) : isAlt t = true := by
  unfold isAlt; unfold Is at h; rw [h]; decide
theorem isAlt_end {t : Tok} (h : Is endMark t.sp) : isAlt t = true := by
  unfold isAlt; unfold Is at h; rw [h]; decide

theorem is_plain {t : Tok} (h : Plain t) (m : List Nat) (hm : m.take 4 = stem) : is m t = false := by
  unfold is; unfold Plain at h
  apply decide_eq_false
  intro e
  rw [e] at h
  exact h hm

theorem is_other {t : Tok} {m m' : List Nat} (h : Is m t.sp) (hm : m ≠ m') : is m' t = false := by
  unfold is; unfold Is at h
  apply decide_eq_false
  rw [h]; exact hm

theorem is_self {t : Tok} {m : List Nat} (h : Is m t.sp) : is m t = true := by
  unfold is; unfold Is at h
  exact decide_eq_true h

theorem mark_plain {segs : List Seg} {t : Tok} (h : Plain t) (h1 : -999999 < t.t1) (h2 : t.t1 + t.dur < 9999999) :
    markWord (beginTime segs) (endTime segs) t = if Far segs t then left t else t := by
  unfold markWord
  rw [isAlt_plain h]
  have e : (t.t1 > endTime segs ∨ t.t1 + t.dur < beginTime segs) ↔ Far segs t := by
    unfold Far
    rw [show (t.t1 > endTime segs) = (endTime segs < t.t1) from rfl, end_lt, lt_begin]
    simp [h1, h2]
  simp only [e]
  rfl

theorem mark_alt {bt et : Rat} {t : Tok} (h : isAlt t = true) : markWord bt et t = t := by
  unfold markWord; rw [h]; rfl

theorem fix_pass (n : Nat) (r : List Tok) : ∀ l : List Tok, (∀ t ∈ l, is beginMark t = false) →
    fixAlts (l.length + n) (l ++ r) = l ++ fixAlts n r := by
  intro l
  induction l with
  | nil => intro _; simp
  | cons t l ih =>
    intro h
    rw [List.length_cons, show l.length + 1 + n = l.length + n + 1 from by omega, List.cons_append, fixAlts]
    rw [h t (List.mem_cons_self ..)]
    simp only [Bool.false_eq_true, if_false]
    rw [ih (fun u hu => h u (List.mem_cons_of_mem _ hu))]
    rfl

theorem setFlags_run (v : Bool) (e : Tok) (r : List Tok) (he : is endMark e = true) : ∀ l : List Tok,
    (∀ t ∈ l, is endMark t = false) → setFlags v (l ++ e :: r) = l.map (fun t => { t with ignore := v }) ++ e :: r := by
  intro l
  induction l with
  | nil => intro _; simp [setFlags, he]
  | cons t l ih =>
    intro h
    rw [List.cons_append, setFlags, h t (List.mem_cons_self ..)]
    simp only [Bool.false_eq_true, if_false]
    rw [ih (fun u hu => h u (List.mem_cons_of_mem _ hu))]
    rfl

theorem usable_run (e : Tok) (r : List Tok) (he : is endMark e = true) : ∀ l : List Tok,
    (∀ t ∈ l, is endMark t = false) → (usable (l ++ e :: r) = 0 ↔ ∀ t ∈ l, isAlt t = true ∨ t.ignore = true) := by
  intro l
  induction l with
  | nil => intro _; simp [usable, he]
  | cons t l ih =>
    intro h
    rw [List.cons_append, usable, h t (List.mem_cons_self ..)]
    simp only [Bool.false_eq_true, if_false, List.mem_cons, forall_eq_or_imp]
    rw [← ih (fun u hu => h u (List.mem_cons_of_mem _ hu))]
    cases isAlt t <;> cases t.ignore <;> simp

/-- The lines of an alternation between `<ALT_BEGIN>` and `<ALT_END>`. -/
def body (first : List Tok) (more : List (Tok × List Tok)) : List Tok := first ++ more.flatMap (fun x => x.1 :: x.2)

theorem mem_body {first : List Tok} {more : List (Tok × List Tok)} {t : Tok} (h : t ∈ body first more) :
    t ∈ first ++ more.flatMap (fun x => x.2) ∨ ∃ x ∈ more, x.1 = t := by
  unfold body at h
  rcases List.mem_append.1 h with h | h
  · exact .inl (List.mem_append.2 (.inl h))
  · obtain ⟨x, hx, h⟩ := List.mem_flatMap.1 h
    rcases List.mem_cons.1 h with h | h
    · exact .inr ⟨x, hx, h.symm⟩
    · exact .inl (List.mem_append.2 (.inr (List.mem_flatMap.2 ⟨x, hx, h⟩)))

theorem words_body {first : List Tok} {more : List (Tok × List Tok)} {t : Tok}
    (h : t ∈ first ++ more.flatMap (fun x => x.2)) : t ∈ body first more := by
  unfold body
  rcases List.mem_append.1 h with h | h
  · exact List.mem_append.2 (.inl h)
  · obtain ⟨x, hx, h⟩ := List.mem_flatMap.1 h
    exact List.mem_append.2 (.inr (List.mem_flatMap.2 ⟨x, hx, List.mem_cons_of_mem _ h⟩))

/-- The lines an item becomes: an alternation without a covered word loses all lines but `<ALT_END>`. -/
def outcome (segs : List Seg) : Item → List Tok
  | .skip t => [t]
  | .single t => [if Far segs t then left t else t]
  | .block b first more e =>
    if AllFar segs (.block b first more e) then (b :: body first more).map left ++ [e]
    else b :: body first more ++ [e]

theorem fix_item (segs : List Seg) (n : Nat) (r : List Tok) (i : Item) (h : Plainly i) :
    fixAlts (i.lines.length + n) (i.lines.map (markWord (beginTime segs) (endTime segs)) ++ r) = outcome segs i ++ fixAlts n r := by
  obtain ⟨h0, h1, h2⟩ := h
  cases i with
  | skip t => exact h2.elim
  | single t =>
    obtain ⟨p1, p2, p3⟩ := h1 t (List.mem_singleton.2 rfl)
    simp only [Item.lines, List.map_cons, List.map_nil, outcome]
    rw [mark_plain p1 p2 p3]
    refine fix_pass n r [if Far segs t then left t else t] ?_
    intro u hu
    rw [List.mem_singleton.1 hu]
    by_cases hf : Far segs t
    · rw [if_pos hf]; exact is_plain (t := left t) p1 _ (by decide)
    · rw [if_neg hf]; exact is_plain p1 _ (by decide)
  | block b first more e =>
    obtain ⟨hb, he, hm⟩ := h2
    have hl : (Item.block b first more e).lines = b :: body first more ++ [e] := rfl
    rw [hl]
    rw [hl] at h0
    -- the marked lines
    have mb : ∀ t ∈ body first more, markWord (beginTime segs) (endTime segs) t = t ∧ isAlt t = true ∨
        markWord (beginTime segs) (endTime segs) t = (if Far segs t then left t else t) ∧ isAlt t = false ∧
          t ∈ words (.block b first more e) := by
      intro t ht
      rcases mem_body ht with ht | ⟨x, hx, e⟩
      · obtain ⟨p1, p2, p3⟩ := h1 t ht
        exact .inr ⟨mark_plain p1 p2 p3, isAlt_plain p1, ht⟩
      · subst e
        exact .inl ⟨mark_alt (isAlt_or (hm x hx)), isAlt_or (hm x hx)⟩
    have spM : ∀ t : Tok, (markWord (beginTime segs) (endTime segs) t).sp = t.sp := by
      intro t; unfold markWord; split
      · rfl
      · split <;> rfl
    have nob : ∀ m : List Nat, m.take 4 = stem → m ≠ orMark → ∀ t ∈ body first more, is m t = false := by
      intro m hm1 hm2 t ht
      rcases mem_body ht with ht | ⟨x, hx, e⟩
      · exact is_plain (h1 t ht).1 _ hm1
      · subst e; exact is_other (hm x hx) (Ne.symm hm2)
    have isM : ∀ (m : List Nat) (t : Tok), is m (markWord (beginTime segs) (endTime segs) t) = is m t := by
      intro m t; unfold is; rw [spM]
    have altM : ∀ (t : Tok), isAlt (markWord (beginTime segs) (endTime segs) t) = isAlt t := by
      intro t; unfold isAlt; rw [spM]
    rw [List.map_append, List.map_cons, List.map_singleton, mark_alt (isAlt_begin hb), mark_alt (isAlt_end he)]
    generalize hB : (body first more).map (markWord (beginTime segs) (endTime segs)) = B
    have hBe : ∀ t ∈ B, is endMark t = false := by
      subst hB
      intro t ht
      obtain ⟨u, hu, e⟩ := List.mem_map.1 ht
      rw [← e, isM]
      exact nob _ (by decide) (by decide) u hu
    have hlen : B.length = (body first more).length := by rw [← hB, List.length_map]
    have hus : (usable (b :: (B ++ e :: r)) = 0) ↔ ∀ w ∈ words (.block b first more e), Far segs w := by
      rw [usable, is_other hb (by decide)]
      simp only [Bool.false_eq_true, if_false, isAlt_begin hb, Bool.not_true, Bool.false_and, Nat.zero_add]
      rw [usable_run e r (is_self he) B hBe]
      constructor
      · intro hall w hw
        have hw' := words_body hw
        rcases mb w hw' with ⟨_, h⟩ | ⟨h3, h4, _⟩
        · rw [isAlt_plain (h1 w hw).1] at h; cases h
        · have := hall _ (hB ▸ List.mem_map_of_mem hw')
          rw [altM, h4, h3] at this
          by_cases hf : Far segs w
          · exact hf
          · rw [if_neg hf, h0 w (List.mem_append.2 (.inl (List.mem_cons_of_mem _ hw')))] at this
            simp at this
      · intro hall t ht
        rw [← hB] at ht
        obtain ⟨u, hu, e⟩ := List.mem_map.1 ht
        subst e
        rw [altM]
        rcases mb u hu with ⟨_, h⟩ | ⟨h3, h4, h5⟩
        · exact .inl h
        · rw [h3, if_pos (hall u h5)]; exact .inr rfl
    have hstep : ∀ v : Bool, fixAlts (((b :: body first more) ++ [e]).length + n - 1) (setFlags v (B ++ e :: r)) =
        B.map (fun t => { t with ignore := v }) ++ [e] ++ fixAlts n r := by
      intro v
      rw [setFlags_run v e r (is_self he) B hBe]
      rw [show B.map (fun t => { t with ignore := v }) ++ e :: r = (B.map (fun t => { t with ignore := v }) ++ [e]) ++ r from by simp]
      rw [show ((b :: body first more) ++ [e]).length + n - 1 = (B.map (fun t : Tok => { t with ignore := v }) ++ [e]).length + n from by
        simp [hlen]]
      apply fix_pass
      intro t ht
      rcases List.mem_append.1 ht with ht | ht
      · obtain ⟨u, hu, e⟩ := List.mem_map.1 ht
        rw [← e]
        show is beginMark u = false
        rw [← hB] at hu
        obtain ⟨u', hu', e'⟩ := List.mem_map.1 hu
        rw [← e', isM]
        exact nob _ (by decide) (by decide) u' hu'
      · rw [List.mem_singleton.1 ht]; exact is_other he (by decide)
    have hset : ∀ v : Bool, B.map (fun t => { t with ignore := v }) = (body first more).map (fun t => { t with ignore := v }) := by
      intro v
      rw [← hB, List.map_map]
      apply List.map_congr_left
      intro t ht
      show { markWord (beginTime segs) (endTime segs) t with ignore := v } = _
      unfold markWord
      split
      · rfl
      · split <;> rfl
    have h3 := hstep (decide (usable (b :: (B ++ e :: r)) = 0))
    rw [show ((b :: body first more) ++ [e]).length + n = ((b :: body first more) ++ [e]).length + n - 1 + 1 from by
      rw [List.length_append, List.length_cons]; omega]
    rw [show (b :: B ++ [e] ++ r) = b :: (B ++ e :: r) from by simp]
    rw [fixAlts, is_self hb, if_pos rfl]
    dsimp only
    rw [h3, hset]
    unfold outcome
    dsimp only
    by_cases hall : AllFar segs (.block b first more e)
    · rw [if_pos hall, decide_eq_true (hus.2 hall)]
      simp [left]
    · rw [if_neg hall, decide_eq_false (fun h => hall (hus.1 h))]
      have hid : ∀ t ∈ b :: body first more, ({ t with ignore := false } : Tok) = t := by
        intro t ht
        have := h0 t (List.mem_append.2 (.inl ht))
        cases t
        simp only at this
        rw [this]
      rw [hid b (List.mem_cons_self ..), List.map_congr_left (g := id) (fun t ht => hid t (List.mem_cons_of_mem _ ht)), List.map_id]
      simp

theorem fix_items (segs : List Seg) (n : Nat) (r : List Tok) : ∀ its : List Item, (∀ i ∈ its, Plainly i) →
    fixAlts ((linesOf its).length + n) ((linesOf its).map (markWord (beginTime segs) (endTime segs)) ++ r) =
      its.flatMap (outcome segs) ++ fixAlts n r := by
  intro its
  induction its with
  | nil => intro _; simp [linesOf]
  | cons i its ih =>
    intro h
    have e : linesOf (i :: its) = i.lines ++ linesOf its := rfl
    rw [e, List.map_append, List.length_append, List.append_assoc, Nat.add_assoc, fix_item segs _ _ i (h i (List.mem_cons_self ..)),
      ih (fun j hj => h j (List.mem_cons_of_mem _ hj))]
    simp

theorem reduceHyp_items (segs : List Seg) (its : List Item) (h : ∀ i ∈ its, Plainly i) :
    reduceHyp segs (linesOf its) = its.flatMap (outcome segs) := by
  have := fix_items segs 0 [] its h
  simp only [Nat.add_zero, List.append_nil] at this
  unfold reduceHyp
  rw [this]
  simp [fixAlts]

/-- The outcome is the lines of the items left, if no alternation is left out. -/
theorem outcome_reduced (segs : List Seg) (i : Item) (h : Plainly i) (ht : Touched segs i) :
    outcome segs i = linesOf (reduced segs i) := by
  cases i with
  | skip t => exact h.2.2.elim
  | single t =>
    unfold outcome reduced
    dsimp only
    by_cases hf : Far segs t
    · rw [if_pos hf, if_pos (show AllFar segs (.single t) from fun w hw => by rw [List.mem_singleton.1 hw]; exact hf)]; rfl
    · rw [if_neg hf, if_neg (show ¬ AllFar segs (.single t) from fun h => hf (h t (List.mem_singleton.2 rfl)))]; rfl
  | block b first more e =>
    unfold outcome reduced
    dsimp only
    have ht' : ¬ AllFar segs (.block b first more e) := ht
    rw [if_neg ht', if_neg ht']
    simp [linesOf, Item.lines, body]

theorem outcome_length (segs : List Seg) (i : Item) : (outcome segs i).length = i.lines.length := by
  cases i with
  | skip t => rfl
  | single t => rfl
  | block b first more e =>
    unfold outcome
    dsimp only
    split <;> simp [Item.lines, body]

theorem outcomes_length (segs : List Seg) : ∀ its : List Item, (its.flatMap (outcome segs)).length = (linesOf its).length
  | [] => rfl
  | i :: its => by
    have := outcomes_length segs its
    unfold linesOf at this ⊢
    rw [List.flatMap_cons, List.flatMap_cons, List.length_append, List.length_append, outcome_length, this]

theorem reduced_ok (enc : Text.Enc) (segs : List Seg) (i : Item) (h : i.Ok enc) : ∀ j ∈ reduced segs i, j.Ok enc := by
  unfold reduced
  split
  · intro j hj
    obtain ⟨t, _, e⟩ := List.mem_map.1 hj
    subst e
    rfl
  · intro j hj
    rw [List.mem_singleton.1 hj]; exact h

theorem reads_skips (enc : Text.Enc) (hasConf : Bool) (is : List Item) (ws : List Wd) : ∀ ts : List Tok,
    Reads enc hasConf (ts.map (fun t => Item.skip (left t)) ++ is) ws ↔ Reads enc hasConf is ws := by
  intro ts
  induction ts with
  | nil => exact Iff.rfl
  | cons t ts ih =>
    rw [← ih]
    constructor
    · intro h
      rw [List.map_cons, List.cons_append] at h
      cases h with
      | cons _ _ us vs h1 h2 => cases h1; exact h2
    · intro h
      exact Reads.cons (Item.skip (left t)) _ [] ws (Item.Reads.skip _) h

theorem reads_reduced (enc : Text.Enc) (hasConf : Bool) (segs : List Seg) : ∀ (its : List Item) (ws : List Wd),
    Reads enc hasConf (its.flatMap (reduced segs)) ws ↔ Reads enc hasConf (its.filter (fun i => ¬ AllFar segs i)) ws := by
  intro its
  induction its with
  | nil => intro ws; exact Iff.rfl
  | cons i its ih =>
    intro ws
    rw [List.flatMap_cons]
    by_cases h : AllFar segs i
    · rw [List.filter_cons_of_neg (by simp [h]), ← ih, show reduced segs i = i.lines.map (fun t => Item.skip (left t)) from if_pos h,
        reads_skips]
    · rw [List.filter_cons_of_pos (by simp [h]), show reduced segs i = [i] from if_neg h]
      constructor
      · intro hr
        cases hr with
        | cons _ _ us vs h1 h2 => exact Reads.cons _ _ _ _ h1 ((ih _).1 h2)
      · intro hr
        cases hr with
        | cons _ _ us vs h1 h2 => exact Reads.cons _ _ _ _ h1 ((ih _).2 h2)

theorem outcome_text (segs : List Seg) (i : Item) (h : Plainly i) :
    (outcome segs i).map (fun t => { t with ignore := false }) = i.lines := by
  have hid : ∀ l : List Tok, (∀ t ∈ l, t.ignore = false) → l.map (fun t => { t with ignore := false }) = l := by
    intro l hl
    rw [List.map_congr_left (g := id) (fun t ht => ?_), List.map_id]
    have := hl t ht
    cases t
    simp only at this
    rw [this]; rfl
  have hleft : ∀ l : List Tok, (∀ t ∈ l, t.ignore = false) → (l.map left).map (fun t => { t with ignore := false }) = l := by
    intro l hl
    rw [List.map_map]
    exact hid l hl
  obtain ⟨h0, _, h2⟩ := h
  cases i with
  | skip t => exact h2.elim
  | single t =>
    unfold outcome
    dsimp only
    by_cases hf : Far segs t
    · rw [if_pos hf]; exact hleft [t] h0
    · rw [if_neg hf]; exact hid [t] h0
  | block b first more e =>
    have hl : (Item.block b first more e).lines = b :: body first more ++ [e] := rfl
    rw [hl] at h0 ⊢
    unfold outcome
    dsimp only
    split
    · rw [List.map_append, hleft _ (fun t ht => h0 t (List.mem_append.2 (.inl ht))),
        hid [e] (fun t ht => h0 t (List.mem_append.2 (.inr ht)))]
    · exact hid _ h0

theorem skip_append (a b : List Tok) : skipWords (a ++ b) = skipWords a + skipWords b := List.countP_append

theorem skip_outcome (segs : List Seg) (i : Item) (h : Plainly i) :
    skipWords (outcome segs i) = if AllFar segs i then (words i).length else 0 := by
  obtain ⟨h0, h1, h2⟩ := h
  cases i with
  | skip t => exact h2.elim
  | single t =>
    have hp := isAlt_plain (h1 t (List.mem_singleton.2 rfl)).1
    have hi := h0 t (List.mem_singleton.2 rfl)
    have e : AllFar segs (.single t) ↔ Far segs t :=
      ⟨fun h => h t (List.mem_singleton.2 rfl), fun h w hw => by rw [List.mem_singleton.1 hw]; exact h⟩
    simp only [e, outcome, words]
    by_cases hf : Far segs t
    · rw [if_pos hf, if_pos hf]
      have : isAlt (left t) = false := hp
      unfold skipWords
      rw [List.countP_cons, List.countP_nil, this]
      rfl
    · rw [if_neg hf, if_neg hf]; simp [skipWords, hi]
  | block b first more e =>
    obtain ⟨hb, he, hm⟩ := h2
    have hl : (Item.block b first more e).lines = b :: body first more ++ [e] := rfl
    rw [hl] at h0
    unfold outcome
    dsimp only
    by_cases hf : AllFar segs (.block b first more e)
    · rw [if_pos hf, if_pos hf, List.map_cons, List.cons_append]
      have e1 : skipWords [e] = 0 := by simp [skipWords, isAlt_end he]
      have e2 : skipWords [left b] = 0 := by
        have : isAlt (left b) = true := isAlt_begin hb
        simp [skipWords, this]
      rw [← List.singleton_append, skip_append, skip_append, e1, e2]
      simp only [words, body, List.map_append, skip_append, List.length_append]
      have hw : ∀ l : List Tok, (∀ t ∈ l, Plain t) → skipWords (l.map left) = l.length := by
        intro l hl
        unfold skipWords
        rw [List.countP_map, List.countP_eq_length.2]
        intro t ht
        have : isAlt (left t) = false := isAlt_plain (t := left t) (hl t ht)
        show ((left t).ignore && !isAlt (left t)) = true
        rw [this]
        rfl
      rw [hw first (fun t ht => (h1 t (List.mem_append.2 (.inl ht))).1)]
      have hmo : ∀ m : List (Tok × List Tok), (∀ x ∈ m, Is orMark x.1.sp ∧ ∀ t ∈ x.2, Plain t) →
          skipWords ((m.flatMap (fun x => x.1 :: x.2)).map left) = (m.flatMap (fun x => x.2)).length := by
        intro m
        induction m with
        | nil => intro _; rfl
        | cons x m ih =>
          intro hx
          rw [List.flatMap_cons, List.flatMap_cons, List.map_append, skip_append, List.length_append,
            ih (fun y hy => hx y (List.mem_cons_of_mem _ hy)), List.map_cons, ← List.singleton_append, skip_append,
            hw _ (hx x (List.mem_cons_self ..)).2]
          have : isAlt (left x.1) = true := isAlt_or (t := left x.1) (hx x (List.mem_cons_self ..)).1
          simp [skipWords, this]
      rw [hmo more (fun x hx => ⟨hm x hx, fun t ht => (h1 t (List.mem_append.2 (.inr (List.mem_flatMap.2 ⟨x, hx, ht⟩)))).1⟩)]
      omega
    · rw [if_neg hf, if_neg hf]
      unfold skipWords
      rw [List.countP_eq_zero]
      intro t ht
      simp [h0 t ht]

end Verif.Reduce
