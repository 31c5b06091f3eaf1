import Verif.Print.Lemmas
/-!
# C29, C71: printing alignments
-/
set_option autoImplicit false
namespace Verif.Print

/-- The blocks and the entries they are made of. -/
def Match (up : Text → Text) (aux : Nat) : Bool → List (List Entry) → List Block → Prop
  | _, [], [] => True
  | c, g :: gs, b :: bs => block up aux c g = some b ∧ Match up aux true gs bs
  | _, _, _ => False

/-- Every group but the last fits, and every group fits without its last entry. -/
def Fits (aux mx : Nat) : Bool → List (List Entry) → Prop
  | _, [] => True
  | c, g :: gs => (if c then 9 else 6) + tot aux g.dropLast < mx ∧ (gs ≠ [] → (if c then 9 else 6) + tot aux g < mx) ∧
    Fits aux mx true gs

theorem base_eq (used : Nat) : (if used > 0 then 9 else 6) = (if decide (used > 0) = true then 9 else 6) := by
  by_cases h : used > 0 <;> simp [h]

/-- One step of the loop. -/
theorem loop_step (up : Text → Text) (aux mx : Nat) (es : List Entry) (f used : Nat) (hu : used < es.length) (bs : List Block)
    (h : loop up aux mx es (f + 1) used = .ok bs) : ∃ i stop b bs', i = used + scan aux mx (if used > 0 then 9 else 6) (es.drop used) ∧
      i ≠ 0 ∧ stop = i - (if i < es.length then 1 else 0) ∧
      block up aux (decide (used > 0)) ((es.drop used).take (stop - used)) = some b ∧
      loop up aux mx es f stop = .ok bs' ∧ bs = b :: bs' := by
  unfold loop at h
  rw [if_pos hu] at h
  simp only at h
  by_cases hi : used + scan aux mx (if used > 0 then 9 else 6) (es.drop used) = 0
  · rw [if_pos hi] at h; cases h
  · rw [if_neg hi] at h
    cases hb : block up aux (decide (used > 0)) ((es.drop used).take (used + scan aux mx (if used > 0 then 9 else 6) (es.drop used) -
        (if used + scan aux mx (if used > 0 then 9 else 6) (es.drop used) < es.length then 1 else 0) - used)) with
    | none => rw [hb] at h; cases h
    | some b =>
      rw [hb] at h
      simp only at h
      cases hl : loop up aux mx es f (used + scan aux mx (if used > 0 then 9 else 6) (es.drop used) -
        (if used + scan aux mx (if used > 0 then 9 else 6) (es.drop used) < es.length then 1 else 0)) with
      | endless => rw [hl] at h; cases h
      | undefined => rw [hl] at h; cases h
      | ok bs' =>
        rw [hl] at h
        simp only [Out.ok.injEq] at h
        exact ⟨_, _, b, bs', rfl, hi, rfl, hb, hl, h.symm⟩

/-- A pass that does not advance is repeated for ever. -/
theorem loop_stuck (up : Text → Text) (aux mx : Nat) (es : List Entry) (used : Nat) (hu : used < es.length)
    (hs : used + scan aux mx (if used > 0 then 9 else 6) (es.drop used) = used + 1) (hl : used + 1 < es.length) :
    ∀ (f : Nat) (bs : List Block), loop up aux mx es f used ≠ .ok bs
  | 0, bs => by intro h; unfold loop at h; cases h
  | f + 1, bs => by
    intro h
    obtain ⟨i, stop, b, bs', e1, e2, e3, e4, e5, e6⟩ := loop_step up aux mx es f used hu bs h
    have : stop = used := by rw [e3, e1, hs, if_pos hl]; omega
    rw [this] at e5
    exact loop_stuck up aux mx es used hu hs hl f bs' e5

theorem loop_done (up : Text → Text) (aux mx : Nat) (es : List Entry) (f used : Nat) (hu : ¬ used < es.length) (bs : List Block)
    (h : loop up aux mx es f used = .ok bs) : bs = [] := by
  cases f with
  | zero => unfold loop at h; cases h
  | succ f => unfold loop at h; rw [if_neg hu] at h; simp only [Out.ok.injEq] at h; exact h.symm

theorem loop_partition (up : Text → Text) (aux mx : Nat) (hm : 9 < mx) (es : List Entry) : ∀ (f used : Nat) (bs : List Block),
    loop up aux mx es f used = .ok bs → ∃ groups : List (List Entry), groups.flatten = es.drop used ∧ (∀ g ∈ groups, g ≠ []) ∧
      Match up aux (decide (used > 0)) groups bs ∧ Fits aux mx (decide (used > 0)) groups
  | 0, used, bs, h => by unfold loop at h; cases h
  | f + 1, used, bs, h => by
    by_cases hu : used < es.length
    · have hlen : (es.drop used).length = es.length - used := by simp
      have hb : (if used > 0 then 9 else 6) < mx := by split <;> omega
      have h0 := scan_ge aux mx (es.drop used) (if used > 0 then 9 else 6) 0 (by omega) (by simpa [tot] using hb)
      obtain ⟨i, stop, b, bs', e1, e2, e3, e4, e5, e6⟩ := loop_step up aux mx es f used hu bs h
      have hle := scan_le aux mx (es.drop used) (if used > 0 then 9 else 6)
      by_cases hst : i = used + 1 ∧ i < es.length
      · exact absurd h (loop_stuck up aux mx es used hu (by omega) (by omega) (f + 1) bs)
      · have hi : i ≤ es.length := by omega
        have hlt : used < stop := by
          rw [e3]
          by_cases hi2 : i < es.length
          · rw [if_pos hi2]; omega
          · rw [if_neg hi2]; omega
        have hse : stop ≤ es.length := by rw [e3]; omega
        obtain ⟨gs, g1, g2, g3, g4⟩ := loop_partition up aux mx hm es f stop bs' e5
        have hp : decide (stop > 0) = true := by simp; omega
        rw [hp] at g3 g4
        refine ⟨(es.drop used).take (stop - used) :: gs, ?_, ?_, ?_, ?_⟩
        · rw [List.flatten_cons, g1]
          have : es.drop stop = (es.drop used).drop (stop - used) := by rw [List.drop_drop]; congr 1; omega
          rw [this, List.take_append_drop]
        · intro g hg
          rcases List.mem_cons.mp hg with rfl | hg
          · intro hh
            have := congrArg List.length hh
            simp at this
            omega
          · exact g2 g hg
        · rw [e6]; exact ⟨e4, g3⟩
        · have key : ∀ k, k < i - used → (if decide (used > 0) = true then 9 else 6) + tot aux ((es.drop used).take k) < mx := by
            intro k hk
            have := scan_fits aux mx (es.drop used) (if used > 0 then 9 else 6) k (by omega)
            rw [base_eq] at this
            exact this
          refine ⟨?_, ?_, g4⟩
          · rw [List.dropLast_eq_take, List.take_take]
            apply key
            have : ((es.drop used).take (stop - used)).length = stop - used := by simp; omega
            rw [this]
            omega
          · intro hgs
            have hne : i < es.length := by
              apply Classical.byContradiction
              intro hn
              have : stop = es.length := by rw [e3, if_neg hn]; omega
              rw [this, List.drop_length] at g1
              cases gs with
              | nil => exact hgs rfl
              | cons g gs' =>
                rw [List.flatten_cons, List.append_eq_nil_iff] at g1
                exact g2 g (by simp) g1.1
            apply key
            rw [e3, if_pos hne]; omega
    · have := loop_done up aux mx es (f + 1) used hu bs h
      subst this
      exact ⟨[], by rw [List.drop_eq_nil_of_le (by omega)]; rfl, by simp, trivial, trivial⟩

theorem small_never (up : Text → Text) (aux mx : Nat) (hm : mx ≤ 9) (es : List Entry) (hs : scan aux mx 6 es < es.length) :
    ∀ (f used : Nat) (bs : List Block), used < es.length → loop up aux mx es f used ≠ .ok bs
  | 0, used, bs, _ => by intro h; unfold loop at h; cases h
  | f + 1, used, bs, hu => by
    intro h
    obtain ⟨i, stop, b, bs', e1, e2, e3, e4, e5, e6⟩ := loop_step up aux mx es f used hu bs h
    refine small_never up aux mx hm es hs f stop bs' ?_ e5
    by_cases h0 : used > 0
    · have : scan aux mx 9 (es.drop used) = 0 := by
        cases es.drop used with
        | nil => rfl
        | cons e l => unfold scan; rw [if_neg (by omega)]
      rw [if_pos h0, this] at e1
      omega
    · have : used = 0 := by omega
      subst this
      simp only [List.drop_zero, Nat.lt_irrefl, gt_iff_lt, if_false] at e1
      omega

theorem print_partition (up : Text → Text) (aux mx : Nat) (es : List Entry) (f : Nat) (bs : List Block)
    (h : loop up aux mx es f 0 = .ok bs) : ∃ groups : List (List Entry), groups.flatten = es ∧ (∀ g ∈ groups, g ≠ []) ∧
      Match up aux false groups bs ∧ Fits aux mx false groups := by
  by_cases hm : 9 < mx
  · exact loop_partition up aux mx hm es f 0 bs h
  · by_cases hs : scan aux mx 6 es < es.length
    · exact absurd h (small_never up aux mx (by omega) es hs f 0 bs (by omega))
    · cases f with
      | zero => unfold loop at h; cases h
      | succ f =>
        by_cases hu : 0 < es.length
        · obtain ⟨i, stop, b, bs', e1, e2, e3, e4, e5, e6⟩ := loop_step up aux mx es f 0 hu bs h
          simp only [List.drop_zero, Nat.lt_irrefl, gt_iff_lt, if_false, Nat.zero_add] at e1
          have hle := scan_le aux mx es 6
          have hi : i = es.length := by omega
          have hst : stop = es.length := by rw [e3, if_neg (by omega)]; omega
          have hd := loop_done up aux mx es f stop (by omega) bs' e5
          subst hd
          simp only [List.drop_zero, Nat.sub_zero, hst, List.take_length, Nat.lt_irrefl, gt_iff_lt, decide_false] at e4
          refine ⟨[es], by simp, ?_, ?_, ?_⟩
          · intro g hg
            rw [List.mem_singleton] at hg
            subst hg
            intro hh; rw [hh] at hu; simp at hu
          · rw [e6]; exact ⟨e4, trivial⟩
          · refine ⟨?_, by simp, trivial⟩
            have := scan_fits aux mx es 6 (es.length - 1) (by omega)
            rw [List.dropLast_eq_take]
            exact this
        · have := loop_done up aux mx es (f + 1) 0 hu bs h
          subst this
          have : es = [] := List.length_eq_zero_iff.mp (by omega)
          subst this
          exact ⟨[], rfl, by simp, trivial, trivial⟩

theorem match_get (up : Text → Text) (aux : Nat) : ∀ (groups : List (List Entry)) (bs : List Block) (c : Bool),
    Match up aux c groups bs → groups.length = bs.length ∧
      ∀ (k : Nat) (g : List Entry) (b : Block), groups[k]? = some g → bs[k]? = some b → block up aux (c || decide (0 < k)) g = some b
  | [], [], c, _ => ⟨rfl, by intro k g b h; simp at h⟩
  | g :: gs, b :: bs, c, h => by
    obtain ⟨h1, h2⟩ := match_get up aux gs bs true h.2
    refine ⟨by simp [h1], ?_⟩
    intro k g' b' hg hb
    cases k with
    | zero =>
      simp only [List.getElem?_cons_zero, Option.some.injEq] at hg hb
      subst hg hb
      simpa using h.1
    | succ k =>
      simp only [List.getElem?_cons_succ] at hg hb
      have := h2 k g' b' hg hb
      simpa using this
  | [], _ :: _, _, h => h.elim
  | _ :: _, [], _, h => h.elim

theorem fits_get (aux mx : Nat) : ∀ (groups : List (List Entry)) (c : Bool), Fits aux mx c groups →
    ∀ (k : Nat) (g : List Entry), groups[k]? = some g →
      (if (c || decide (0 < k)) = true then 9 else 6) + tot aux g.dropLast < mx ∧
      (k + 1 < groups.length → (if (c || decide (0 < k)) = true then 9 else 6) + tot aux g < mx)
  | [], c, _ => by intro k g h; simp at h
  | g :: gs, c, h => by
    intro k g' hg
    cases k with
    | zero =>
      simp only [List.getElem?_cons_zero, Option.some.injEq] at hg
      subst hg
      refine ⟨by simpa using h.1, ?_⟩
      intro hk
      have := h.2.1 (by intro hh; rw [hh] at hk; simp at hk)
      simpa using this
    | succ k =>
      simp only [List.getElem?_cons_succ] at hg
      have := fits_get aux mx gs true h.2.2 k g' hg
      simpa using this

theorem print_eq (up : Text → Text) (aux mx : Nat) (es : List Entry) (f : Nat) : print up aux mx es f = loop up aux mx es f 0 := by
  unfold print printFrom
  rw [List.take_length]
  split <;> rfl

/-- **C29** (partial: see `wide_entry_never_ends`, `long_single_undefined`) If printing an alignment ends, it has printed every entry
exactly once and in order, in non-empty blocks, whatever the line width: each block shows its entries in columns common to its
lines. -/
theorem print_once_partial (up : Text → Text) (hup : ∀ t, (up t).length = t.length) (aux mx : Nat) (es : List Entry)
    (hw : ∀ e ∈ es, e.Wf) (f : Nat) (bs : List Block) (h : print up aux mx es f = .ok bs) :
    ∃ groups : List (List Entry), groups.flatten = es ∧ (∀ g ∈ groups, g ≠ []) ∧ groups.length = bs.length ∧
      ∀ (k : Nat) (g : List Entry) (b : Block), groups[k]? = some g → bs[k]? = some b → Shows up (decide (0 < k)) g b := by
  rw [print_eq] at h
  obtain ⟨groups, h1, h2, h3, _⟩ := print_partition up aux mx es f bs h
  obtain ⟨h4, h5⟩ := match_get up aux groups bs false h3
  refine ⟨groups, h1, h2, h4, ?_⟩
  intro k g b hg hb
  have := h5 k g b hg hb
  rw [Bool.false_or] at this
  refine (block_shows up hup aux _ g b ?_ this).1
  intro e he
  apply hw
  rw [← h1]
  exact List.mem_flatten.mpr ⟨g, List.mem_of_getElem? hg, he⟩

theorem words_width (aux : Nat) (e : Entry) (W : Nat) (ha : aux ≤ W) (h1 : 1 ≤ W) (h : ∀ x ∈ e.words, x.length ≤ W) :
    width aux e ≤ W := by
  cases e with
  | ins x => have := h x (by simp [Entry.words]); simp [width, lenA, lenB]; omega
  | del x => have := h x (by simp [Entry.words]); simp [width, lenA, lenB]; omega
  | pair a x y =>
    have h1 := h x (by simp [Entry.words])
    have h2 := h y (by simp [Entry.words])
    simp [width, lenA, lenB]; omega

theorem width_words (aux : Nat) (e : Entry) (x : Text) (h : x ∈ e.words) : x.length ≤ width aux e := by
  cases e with
  | ins y => simp [Entry.words] at h; subst h; simp [width, lenA, lenB]; omega
  | del y => simp [Entry.words] at h; subst h; simp [width, lenA, lenB]; omega
  | pair a y z => simp [Entry.words] at h; rcases h with rfl | rfl <;> simp [width, lenA, lenB] <;> omega

theorem fits_length (aux mx : Nat) (g : List Entry) (p W : Nat) (h : p + tot aux g.dropLast < mx) (hW : ∀ e ∈ g, width aux e ≤ W) :
    p + tot aux g < mx + W + 1 := by
  cases hl : g.getLast? with
  | none => rw [List.getLast?_eq_none_iff] at hl; subst hl; simp [tot] at h ⊢; omega
  | some e =>
    have e1 : g.dropLast ++ [e] = g := by
      obtain ⟨l, hl'⟩ := List.getLast?_eq_some_iff.mp hl
      rw [hl']; simp
    have : tot aux g = tot aux g.dropLast + (1 + width aux e) := by
      conv => lhs; rw [← e1]
      simp [tot]
    have := hW e (List.mem_of_getLast? hl)
    omega

/-- **C71** All lines but those of the last block are shorter than the line width, and those of the last block exceed it by no more
than the widest entry. -/
theorem lines_fit (up : Text → Text) (hup : ∀ t, (up t).length = t.length) (aux mx : Nat) (es : List Entry)
    (hw : ∀ e ∈ es, e.Wf) (f : Nat) (bs : List Block) (h : print up aux mx es f = .ok bs) (W : Nat) (ha : aux ≤ W) (h1 : 1 ≤ W)
    (hW : ∀ e ∈ es, ∀ x ∈ e.words, x.length ≤ W) (k : Nat) (b : Block) (hb : bs[k]? = some b) :
    (b.hyp.length = b.ref.length ∧ b.eval.length = b.ref.length) ∧
    (k + 1 < bs.length → b.ref.length < mx) ∧ b.ref.length < mx + W + 1 := by
  rw [print_eq] at h
  obtain ⟨groups, g1, g2, g3, g4⟩ := print_partition up aux mx es f bs h
  obtain ⟨h4, h5⟩ := match_get up aux groups bs false g3
  have hk : k < groups.length := by rw [h4]; exact (List.getElem?_eq_some_iff.mp hb).1
  have hg : groups[k]? = some groups[k] := List.getElem?_eq_getElem hk
  have hmem : ∀ e ∈ groups[k], e ∈ es := by
    intro e he
    rw [← g1]
    exact List.mem_flatten.mpr ⟨groups[k], List.mem_of_getElem? hg, he⟩
  obtain ⟨s1, s2⟩ := block_shows up hup aux _ groups[k] b (fun e he => hw e (hmem e he)) (h5 k _ b hg hb)
  obtain ⟨f1, f2⟩ := fits_get aux mx groups false g4 k _ hg
  refine ⟨?_, ?_, ?_⟩
  · obtain ⟨_, _, _, cols, c1, _, _, c2, _⟩ := s1
    have : cols ≠ [] := by
      intro hh
      rw [hh] at c1
      exact g2 _ (List.mem_of_getElem? hg) (List.length_eq_zero_iff.mp c1.symm)
    obtain ⟨q1, q2, q3⟩ := c2 (cols.getLast this).1 (cols.getLast this).2 (List.getLast?_eq_some_getLast this)
    omega
  · intro hk2
    rw [s2]; exact f2 (by omega)
  · rw [s2]
    exact fits_length aux mx _ _ W f1 (fun e he => words_width aux e W ha h1 (hW e (hmem e he)))

theorem cells_some (f : Entry → Option Text) (aux : Nat) : ∀ es : List Entry, (∀ e ∈ es, ∃ t, f e = some t) → ∃ t, cells f aux es = some t
  | [], _ => ⟨[], rfl⟩
  | e :: es, h => by
    obtain ⟨t, ht⟩ := h e (by simp)
    obtain ⟨ts, hts⟩ := cells_some f aux es (fun e' he => h e' (by simp [he]))
    exact ⟨_, by unfold cells; rw [ht, hts]⟩

theorem block_some (up : Text → Text) (aux : Nat) (c : Bool) (es : List Entry) (h : ∀ e ∈ es, ∀ x, e.single = some x → x.length ≤ 40) :
    ∃ b, block up aux c es = some b := by
  obtain ⟨r, hr⟩ := cells_some (refCell up) aux es (by
    intro e he
    cases e with
    | ins x => exact ⟨_, by unfold refCell asterisks; simp only; rw [if_pos (h _ he x rfl)]⟩
    | del x => exact ⟨_, rfl⟩
    | pair a x y => cases a <;> exact ⟨_, rfl⟩)
  obtain ⟨p, hp⟩ := cells_some (hypCell up) aux es (by
    intro e he
    cases e with
    | ins x => exact ⟨_, rfl⟩
    | del x => exact ⟨_, by unfold hypCell asterisks; simp only; rw [if_pos (h _ he x rfl)]⟩
    | pair a x y => cases a <;> exact ⟨_, rfl⟩)
  obtain ⟨v, hv⟩ := cells_some (fun e => some (evalCell e)) aux es (fun e _ => ⟨_, rfl⟩)
  exact ⟨_, by unfold block; rw [hr, hp, hv]⟩

theorem loop_ends (up : Text → Text) (aux mx : Nat) (es : List Entry) (hn : ∀ e ∈ es.dropLast, width aux e + 10 < mx) (hm : 9 < mx)
    (hs : ∀ e ∈ es, ∀ x, e.single = some x → x.length ≤ 40) : ∀ (f used : Nat), es.length - used < f →
    ∃ bs, loop up aux mx es f used = .ok bs
  | 0, used, h => by omega
  | f + 1, used, h => by
    by_cases hu : used < es.length
    · have hlen : (es.drop used).length = es.length - used := by simp
      have hb : (if used > 0 then 9 else 6) ≤ 9 := by split <;> omega
      have hle := scan_le aux mx (es.drop used) (if used > 0 then 9 else 6)
      have h0 := scan_ge aux mx (es.drop used) (if used > 0 then 9 else 6) 0 (by omega) (by simp only [tot, List.take_zero, List.map_nil, List.sum_nil]; omega)
      have h2 : used + 1 < es.length → 1 < scan aux mx (if used > 0 then 9 else 6) (es.drop used) := by
        intro hu1
        apply scan_ge aux mx _ _ 1 (by omega)
        have he : (es.drop used).take 1 = [es[used]] := by
          rw [List.drop_eq_getElem_cons hu]; rfl
        rw [he]
        have := hn es[used] (by
          rw [List.dropLast_eq_take]
          rw [List.mem_take_iff_getElem]
          exact ⟨used, by omega, rfl⟩)
        simp only [tot, List.map_cons, List.map_nil, List.sum_cons, List.sum_nil]; omega
      have hfin : used < used + scan aux mx (if used > 0 then 9 else 6) (es.drop used) -
          (if used + scan aux mx (if used > 0 then 9 else 6) (es.drop used) < es.length then 1 else 0) := by
        by_cases hi : used + scan aux mx (if used > 0 then 9 else 6) (es.drop used) < es.length
        · rw [if_pos hi]
          have := h2 (by omega)
          omega
        · rw [if_neg hi]; omega
      obtain ⟨bs, hbs⟩ := loop_ends up aux mx es hn hm hs f _ (show es.length - (used + scan aux mx (if used > 0 then 9 else 6) (es.drop used) -
          (if used + scan aux mx (if used > 0 then 9 else 6) (es.drop used) < es.length then 1 else 0)) < f by omega)
      obtain ⟨b, hbl⟩ := block_some up aux (decide (used > 0)) ((es.drop used).take (used + scan aux mx (if used > 0 then 9 else 6) (es.drop used) -
          (if used + scan aux mx (if used > 0 then 9 else 6) (es.drop used) < es.length then 1 else 0) - used))
        (fun e he => hs e (List.mem_of_mem_drop (List.mem_of_mem_take he)))
      refine ⟨b :: bs, ?_⟩
      unfold loop
      rw [if_pos hu]
      simp only
      rw [if_neg (by omega), hbl]
      simp only
      rw [hbs]
    · exact ⟨[], by unfold loop; rw [if_neg hu]⟩

/-- **C29** Printing ends if every word but those of the last entry leaves 10 characters of the line free (and so does the width of the
numbers, if any are shown) and no inserted or deleted word has more than 40 characters. -/
theorem print_ends (up : Text → Text) (aux mx : Nat) (es : List Entry) (ha : aux + 10 < mx) (hm : 11 < mx)
    (hn : ∀ e ∈ es.dropLast, ∀ x ∈ e.words, x.length + 10 < mx) (hs : ∀ e ∈ es, ∀ x, e.single = some x → x.length ≤ 40) :
    ∃ bs, print up aux mx es (es.length + 1) = .ok bs := by
  rw [print_eq]
  refine loop_ends up aux mx es ?_ (by omega) hs _ 0 (by omega)
  intro e he
  have := words_width aux e (mx - 11) (by omega) (by omega) (fun x hx => by have := hn e he x hx; omega)
  omega

/-- **C29** (negative part) If some entry other than the last has a word that does not leave 7 characters of the line free, printing never
ends. -/
theorem wide_entry_never_ends (up : Text → Text) (aux mx : Nat) (es : List Entry) (j : Nat) (e : Entry) (hj : es[j]? = some e)
    (hl : j + 1 < es.length) (x : Text) (hx : x ∈ e.words) (hw : mx ≤ x.length + 7) (f : Nat) (bs : List Block) :
    print up aux mx es f ≠ .ok bs := by
  rw [print_eq]
  have main : ∀ (f used : Nat) (bs : List Block), used ≤ j → loop up aux mx es f used ≠ .ok bs := by
    intro f
    induction f with
    | zero => intro used bs _ h; unfold loop at h; cases h
    | succ f ih =>
      intro used bs hu h
      obtain ⟨i, stop, b, bs', e1, e2, e3, e4, e5, e6⟩ := loop_step up aux mx es f used (by omega) bs h
      refine ih stop bs' ?_ e5
      have hi : i ≤ j + 1 := by
        apply Classical.byContradiction
        intro hn
        have h1 := scan_fits aux mx (es.drop used) (if used > 0 then 9 else 6) (j - used + 1) (by omega)
        have h2 : (es.drop used)[j - used]? = some e := by
          rw [List.getElem?_drop, show used + (j - used) = j by omega, hj]
        rw [tot_take_succ aux _ _ e h2] at h1
        have h3 := width_words aux e x hx
        have h4 : 6 ≤ (if used > 0 then 9 else 6) := by split <;> omega
        omega
      rw [e3]
      by_cases hh : i < es.length
      · rw [if_pos hh]; omega
      · omega
  exact main f 0 bs (by omega)

theorem cells_none (f : Entry → Option Text) (aux : Nat) : ∀ (es : List Entry) (e : Entry), e ∈ es → f e = none → cells f aux es = none
  | a :: es, e, h, hf => by
    unfold cells
    rcases List.mem_cons.mp h with rfl | h
    · rw [hf]
    · rw [cells_none f aux es e h hf]; cases f a <;> rfl

theorem block_none (up : Text → Text) (aux : Nat) (c : Bool) (es : List Entry) (e : Entry) (h : e ∈ es) (x : Text)
    (hx : e.single = some x) (hl : 40 < x.length) : block up aux c es = none := by
  unfold block
  cases e with
  | ins y =>
    cases hx
    rw [cells_none (refCell up) aux es _ h (by unfold refCell asterisks; simp only; rw [if_neg (by omega)])]
  | del y =>
    cases hx
    rw [cells_none (hypCell up) aux es _ h (by unfold hypCell asterisks; simp only; rw [if_neg (by omega)])]
    cases cells (refCell up) aux es <;> rfl
  | pair => cases hx

/-- **C29** (negative part) With an inserted or deleted word of more than 40 characters the printing never ends normally: it reads memory
in front of the string of asterisks. -/
theorem long_single_undefined (up : Text → Text) (aux mx : Nat) (es : List Entry) (e : Entry) (he : e ∈ es) (x : Text)
    (hx : e.single = some x) (hl : 40 < x.length) (f : Nat) (bs : List Block) : print up aux mx es f ≠ .ok bs := by
  rw [print_eq]
  intro h
  obtain ⟨groups, h1, h2, h3, _⟩ := print_partition up aux mx es f bs h
  obtain ⟨h4, h5⟩ := match_get up aux groups bs false h3
  rw [← h1] at he
  obtain ⟨g, hg, heg⟩ := List.mem_flatten.mp he
  obtain ⟨k, hk⟩ := List.getElem?_of_mem hg
  have hkl : k < bs.length := by rw [← h4]; exact (List.getElem?_eq_some_iff.mp hk).1
  have := h5 k g bs[k] hk (List.getElem?_eq_getElem hkl)
  rw [block_none up aux _ g e heg x hx hl] at this
  cases this

/-- The word ranges of `PATH_n_print`: with at least ten characters per line, the printed entries are those of the range. -/
theorem print_range (up : Text → Text) (hup : ∀ t, (up t).length = t.length) (aux mx : Nat) (hm : 9 < mx) (es : List Entry)
    (hw : ∀ e ∈ es, e.Wf) (f start to : Nat) (hst : start < min to es.length) (bs : List Block)
    (h : printFrom up aux mx es f start to = .ok bs) :
    ∃ groups : List (List Entry), groups.flatten = (es.take to).drop start ∧ (∀ g ∈ groups, g ≠ []) ∧ groups.length = bs.length ∧
      ∀ (k : Nat) (g : List Entry) (b : Block), groups[k]? = some g → bs[k]? = some b → Shows up (decide (0 < start + k)) g b := by
  unfold printFrom at h
  rw [if_pos hst] at h
  obtain ⟨groups, h1, h2, h3, _⟩ := loop_partition up aux mx hm _ f start bs h
  obtain ⟨h4, h5⟩ := match_get up aux groups bs _ h3
  refine ⟨groups, h1, h2, h4, ?_⟩
  intro k g b hg hb
  have := h5 k g b hg hb
  rw [show (decide (start > 0) || decide (0 < k)) = decide (0 < start + k) by
    by_cases h1 : start > 0 <;> by_cases h2 : 0 < k <;> simp [h1, h2] <;> omega] at this
  refine (block_shows up hup aux _ g b ?_ this).1
  intro e he
  apply hw
  have : e ∈ groups.flatten := List.mem_flatten.mpr ⟨g, List.mem_of_getElem? hg, he⟩
  rw [h1] at this
  exact List.mem_of_mem_take (List.mem_of_mem_drop this)

/-- A block of three columns. -/
example : print (·.map Char.toUpper) 0 80 [.pair true "a".toList "a".toList, .ins "bee".toList, .pair false "see".toList "c".toList] 4 =
    .ok [⟨"REF:  a *** SEE ".toList, "HYP:  a BEE C   ".toList, "Eval:   I   S   ".toList⟩] := by decide +kernel

/-- Two blocks. -/
example : print (·.map Char.toUpper) 0 12 [.pair true "a".toList "a".toList, .del "b".toList, .pair true "c".toList "c".toList, .ins "d".toList] 4 =
    .ok [⟨"REF:  a B ".toList, "HYP:  a * ".toList, "Eval:   D ".toList⟩,
      ⟨">> REF:  c * ".toList, ">> HYP:  c D ".toList, ">> Eval:   I ".toList⟩] := by decide +kernel

example : ∀ f bs, print id 0 12 [.del "abcde".toList, .del "b".toList] f ≠ .ok bs :=
  fun f bs => wide_entry_never_ends id 0 12 _ 0 (.del "abcde".toList) rfl (by decide) "abcde".toList (by decide) (by decide) f bs

/-- The hypotheses of `print_ends` can be met. -/
example : ∃ bs, print id 7 80 [.ins "abcde".toList, .pair false "b".toList "d".toList] 3 = .ok bs :=
  print_ends id 7 80 [.ins "abcde".toList, .pair false "b".toList "d".toList] (by decide) (by decide) (by decide) (by
    intro e he x hx
    simp only [List.mem_cons, List.not_mem_nil, or_false] at he
    rcases he with rfl | rfl <;> cases hx
    decide)

theorem pick_spec {S : Type} (seq : S → Int) : ∀ (gs pre : List (List S)) (m : Int) (best : Option Nat) (i : Nat),
    pick seq m pre.length best gs = some i → (best = some i ∧ ∀ g ∈ gs, ∀ x xs, g = x :: xs → m ≤ seq x) ∨
      ∃ x xs, (pre ++ gs)[i]? = some (x :: xs) ∧ seq x < m ∧ ∀ g ∈ gs, ∀ y ys, g = y :: ys → seq x ≤ seq y
  | [], pre, m, best, i, h => by
    unfold pick at h
    exact Or.inl ⟨h, by simp⟩
  | [] :: gs, pre, m, best, i, h => by
    unfold pick at h
    simp only at h
    have := pick_spec seq gs (pre ++ [[]]) m best i (by simpa using h)
    rcases this with ⟨h1, h2⟩ | ⟨x, xs, h1, h2, h3⟩
    · refine Or.inl ⟨h1, ?_⟩
      intro g hg y ys e
      rcases List.mem_cons.mp hg with rfl | hg
      · cases e
      · exact h2 g hg y ys e
    · refine Or.inr ⟨x, xs, by simpa using h1, h2, ?_⟩
      intro g hg y ys e
      rcases List.mem_cons.mp hg with rfl | hg
      · cases e
      · exact h3 g hg y ys e
  | (a :: as) :: gs, pre, m, best, i, h => by
    unfold pick at h
    simp only at h
    by_cases ha : seq a < m
    · rw [if_pos ha] at h
      have := pick_spec seq gs (pre ++ [a :: as]) (seq a) (some pre.length) i (by simpa using h)
      right
      rcases this with ⟨h1, h2⟩ | ⟨x, xs, h1, h2, h3⟩
      · simp only [Option.some.injEq] at h1
        subst h1
        refine ⟨a, as, by rw [List.getElem?_append_right (Nat.le_refl _)]; simp, ha, ?_⟩
        intro g hg y ys e
        rcases List.mem_cons.mp hg with rfl | hg
        · cases e; exact Int.le_refl _
        · exact h2 g hg y ys e
      · refine ⟨x, xs, by simpa using h1, by omega, ?_⟩
        intro g hg y ys e
        rcases List.mem_cons.mp hg with rfl | hg
        · cases e; omega
        · exact h3 g hg y ys e
    · rw [if_neg ha] at h
      have := pick_spec seq gs (pre ++ [a :: as]) m best i (by simpa using h)
      rcases this with ⟨h1, h2⟩ | ⟨x, xs, h1, h2, h3⟩
      · refine Or.inl ⟨h1, ?_⟩
        intro g hg y ys e
        rcases List.mem_cons.mp hg with rfl | hg
        · cases e; omega
        · exact h2 g hg y ys e
      · refine Or.inr ⟨x, xs, by simpa using h1, h2, ?_⟩
        intro g hg y ys e
        rcases List.mem_cons.mp hg with rfl | hg
        · cases e; omega
        · exact h3 g hg y ys e

theorem pick_none {S : Type} (seq : S → Int) : ∀ (gs : List (List S)) (m : Int) (i : Nat) (best : Option Nat),
    pick seq m i best gs = none → best = none ∧ ∀ g ∈ gs, ∀ x xs, g = x :: xs → m ≤ seq x
  | [], m, i, best, h => by unfold pick at h; exact ⟨h, by simp⟩
  | [] :: gs, m, i, best, h => by
    unfold pick at h
    obtain ⟨h1, h2⟩ := pick_none seq gs m (i + 1) best h
    refine ⟨h1, ?_⟩
    intro g hg y ys e
    rcases List.mem_cons.mp hg with rfl | hg
    · cases e
    · exact h2 g hg y ys e
  | (a :: as) :: gs, m, i, best, h => by
    unfold pick at h
    simp only at h
    by_cases ha : seq a < m
    · rw [if_pos ha] at h
      have := (pick_none seq gs _ _ _ h).1
      cases this
    · rw [if_neg ha] at h
      obtain ⟨h1, h2⟩ := pick_none seq gs m (i + 1) best h
      refine ⟨h1, ?_⟩
      intro g hg y ys e
      rcases List.mem_cons.mp hg with rfl | hg
      · cases e; omega
      · exact h2 g hg y ys e

theorem set_length {S : Type} : ∀ (gs : List (List S)) (i : Nat) (x : S) (xs : List S), gs[i]? = some (x :: xs) →
    (gs.set i xs).flatten.length + 1 = gs.flatten.length
  | g :: gs, 0, x, xs, h => by
    simp only [List.getElem?_cons_zero, Option.some.injEq] at h
    subst h
    rw [List.set_cons_zero, List.flatten_cons, List.flatten_cons, List.length_append, List.length_append, List.length_cons]; omega
  | g :: gs, i + 1, x, xs, h => by
    have := set_length gs i x xs (by simpa using h)
    rw [List.set_cons_succ, List.flatten_cons, List.flatten_cons, List.length_append, List.length_append]; omega

theorem mem_set {S : Type} (gs : List (List S)) (i : Nat) (x : S) (xs : List S) (hi : gs[i]? = some (x :: xs)) (g : List S)
    (hg : g ∈ gs.set i xs) : ∃ g' ∈ gs, g.Sublist g' := by
  rcases List.mem_or_eq_of_mem_set hg with h | h
  · exact ⟨g, h, List.Sublist.refl _⟩
  · exact ⟨x :: xs, List.mem_of_getElem? hi, by rw [h]; exact List.sublist_cons_self _ _⟩

theorem dump_spec {S : Type} (seq : S → Int) : ∀ (f : Nat) (gs : List (List S)), gs.flatten.length < f →
    (∀ g ∈ gs, ∀ x ∈ g, seq x < 999999) →
    (∀ (i : Nat), ((dump seq f gs).filter (fun p => p.1 == i)).map (·.2) = gs.getD i []) ∧
    ((∀ g ∈ gs, g.Pairwise (fun x y => seq x ≤ seq y)) →
      (dump seq f gs).Pairwise (fun p q => seq p.2 ≤ seq q.2))
  | 0, gs, h, _ => by omega
  | f + 1, gs, hf, hb => by
    unfold dump
    cases hp : pick seq 999999 0 none gs with
    | none =>
      have h2 := (pick_none seq gs _ _ _ hp).2
      refine ⟨?_, fun _ => List.Pairwise.nil⟩
      intro i
      simp only [List.filter_nil, List.map_nil]
      rw [List.getD_eq_getElem?_getD]
      cases hg : gs[i]? with
      | none => rfl
      | some g =>
        cases g with
        | nil => rfl
        | cons x xs =>
          have hm := List.mem_of_getElem? hg
          have := h2 _ hm x xs rfl
          have := hb _ hm x (by simp)
          omega
    | some i =>
      rcases pick_spec seq gs [] 999999 none i hp with ⟨h1, _⟩ | ⟨x, xs, h1, _, h3⟩
      · cases h1
      · simp only [List.nil_append] at h1
        simp only [h1]
        have hlen := set_length gs i x xs h1
        obtain ⟨r1, r2⟩ := dump_spec seq f (gs.set i xs) (by omega) (by
          intro g hg y hy
          obtain ⟨g', hg', hs⟩ := mem_set gs i x xs h1 g hg
          exact hb g' hg' y (hs.subset hy))
        have hil : i < gs.length := (List.getElem?_eq_some_iff.mp h1).1
        constructor
        · intro j
          by_cases hj : i = j
          · subst hj
            rw [List.filter_cons_of_pos (by simp), List.map_cons, r1 i]
            rw [List.getD_eq_getElem?_getD, List.getD_eq_getElem?_getD, h1, List.getElem?_set_self hil]
            rfl
          · rw [List.filter_cons_of_neg (by simpa using hj), r1 j]
            rw [List.getD_eq_getElem?_getD, List.getD_eq_getElem?_getD, List.getElem?_set_ne hj]
        · intro hsort
          rw [List.pairwise_cons]
          refine ⟨?_, r2 ?_⟩
          · intro q hq
            have hq2 : q.2 ∈ (gs.set i xs).getD q.1 [] := by
              rw [← r1 q.1]
              exact List.mem_map.mpr ⟨q, List.mem_filter.mpr ⟨hq, by simp⟩, rfl⟩
            rw [List.getD_eq_getElem?_getD] at hq2
            cases hg : (gs.set i xs)[q.1]? with
            | none => rw [hg] at hq2; simp at hq2
            | some g =>
              rw [hg] at hq2
              simp only [Option.getD_some] at hq2
              obtain ⟨g', hg', hs⟩ := mem_set gs i x xs h1 g (List.mem_of_getElem? hg)
              have hm := hs.subset hq2
              cases g' with
              | nil => simp at hm
              | cons y ys =>
                have hxy := h3 _ hg' y ys rfl
                have hp := hsort _ hg'
                rw [List.pairwise_cons] at hp
                rcases List.mem_cons.mp hm with e | e
                · rw [e]; exact hxy
                · have := hp.1 q.2 e; simp only; omega
          · intro g hg
            obtain ⟨g', hg', hs⟩ := mem_set gs i x xs h1 g hg
            exact (hsort g' hg').sublist hs

/-- **C72** (partial: see `sequence_limit`) With fewer than 999999 sentences aligned, the report lists every sentence of every speaker
exactly once, each speaker's sentences in their order, and all of them in the order of alignment if each speaker's are. -/
theorem dump_once_partial {S : Type} (seq : S → Int) (gs : List (List S)) (hb : ∀ g ∈ gs, ∀ x ∈ g, seq x < 999999) :
    (∀ (i : Nat) (g : List S), gs[i]? = some g → ((dumpAll seq gs).filter (fun p => p.1 == i)).map (·.2) = g) ∧
    (∀ p ∈ dumpAll seq gs, p.1 < gs.length) ∧
    ((∀ g ∈ gs, g.Pairwise (fun x y => seq x ≤ seq y)) → (dumpAll seq gs).Pairwise (fun p q => seq p.2 ≤ seq q.2)) := by
  obtain ⟨h1, h2⟩ := dump_spec seq _ gs (Nat.lt_succ_self _) hb
  refine ⟨?_, ?_, h2⟩
  · intro i g hg
    unfold dumpAll
    rw [h1 i, List.getD_eq_getElem?_getD, hg]; rfl
  · intro p hp
    apply Classical.byContradiction
    intro hn
    have := h1 p.1
    rw [List.getD_eq_getElem?_getD, List.getElem?_eq_none (by omega)] at this
    simp only [Option.getD_none, List.map_eq_nil_iff, List.filter_eq_nil_iff] at this
    exact this p hp (by simp)

/-- Sentences from the 999999th alignment on are left out, and with them the rest of the speaker. -/
theorem sequence_limit {S : Type} (seq : S → Int) (gs : List (List S)) (h : ∀ g ∈ gs, ∀ x xs, g = x :: xs → 999999 ≤ seq x) :
    dumpAll seq gs = [] := by
  unfold dumpAll dump
  cases hp : pick seq 999999 0 none gs with
  | none => rfl
  | some i =>
    exfalso
    rcases pick_spec seq gs [] 999999 none i hp with ⟨h1, _⟩ | ⟨x, xs, h1, h2, _⟩
    · cases h1
    · have := h _ (List.mem_of_getElem? (by simpa using h1)) x xs rfl
      omega

example : dumpAll id [[0, 3], [], [1, 2, 5]] = [(0, 0), (2, 1), (2, 2), (0, 3), (2, 5)] := by decide
example : dumpAll id [[999999], [1000000]] = [] := by decide

end Verif.Print
