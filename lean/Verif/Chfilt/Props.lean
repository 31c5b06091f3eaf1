import Verif.Chfilt.Lemmas
/-!
# What is proved of the segments chfilt writes (C283 to C289)
-/
set_option autoImplicit false
namespace Verif.Chfilt

/-! ## C283: the part of the transcript that is written -/

/-- The segments written are those with words (all, with -k) that begin less than half a second before the part asked for or later, and end less than
half a second after it or earlier; their order is kept. -/
theorem selected (keep : Bool) (B E d : Int) (hd : 0 < d) (rs : List Rec) :
    (select keep B E d rs).Sublist rs ∧
      ∀ r, r ∈ select keep B E d rs ↔ r ∈ rs ∧ B - d < r.bt ∧ r.et < E + d ∧ (keep = true ∨ r.text ≠ []) := by
  refine ⟨List.filter_sublist, fun r => ?_⟩
  have h1 : inRange B E d r.bt r.et = true ↔ B - d < r.bt ∧ r.et < E + d := by
    simp only [inRange, Bool.and_eq_true, Bool.or_eq_true, decide_eq_true_eq]
    constructor
    · rintro ⟨a, b⟩
      constructor
      · rcases a with a | a
        · omega
        · split at a <;> simp at a <;> omega
      · rcases b with b | b
        · omega
        · split at b <;> simp at b <;> omega
    · rintro ⟨a, b⟩
      constructor
      · by_cases h : B ≤ r.bt
        · exact .inl h
        · right; rw [if_pos (by omega)]; simp; omega
      · by_cases h : r.et ≤ E
        · exact .inl h
        · right; rw [if_neg (by omega)]; simp; omega
  unfold select
  rw [List.mem_filter, Bool.and_eq_true, h1]
  simp only [Bool.or_eq_true, Bool.not_eq_true', List.isEmpty_eq_false_iff, and_assoc]

/-- A test segment. -/
def seg (c s : String) (b e : Int) (t : List String := ["x"]) : Rec := ⟨c, .name s, b, e, t⟩

example : select false 100 200 50 [seg "A" "A" 51 120, seg "A" "A" 50 120, seg "B" "B" 150 249, seg "B" "B" 150 160 []] =
    [seg "A" "A" 51 120, seg "B" "B" 150 249] := by decide +kernel

/-! ## C284: padding -/

theorem half_bounds {P a b : Int} (hP : 0 ≤ P) : 0 ≤ half P a b ∧ half P a b ≤ 2 * P ∧ (a ≤ b → half P a b ≤ b - a) := by
  unfold half
  split <;> omega

theorem padded_get (P E : Int) (last : Int) (rs : List Rec) : (padded P E last rs).length = rs.length := by
  induction rs generalizing last with
  | nil => rfl
  | cons r rs ih => simp [padded, ih]

/-- Padding works on every channel by itself: half of each pause is given to the segments on either side of it, at most the padding. -/
theorem pad_channels (B E P : Int) (c : String) (rs : List Rec) : of c (pad B E P rs) = padded P E B (of c rs) := pad_of B E P c rs

/-- Every segment is kept; its begin is moved back and its end on by the padding at most. Times of the result are in halves. -/
theorem pad_bounds (B E P : Int) (hP : 0 ≤ P) (c : String) (rs : List Rec) :
    (of c (pad B E P rs)).length = (of c rs).length ∧
      ∀ (i : Nat) (r p : Rec), (of c rs)[i]? = some r → (of c (pad B E P rs))[i]? = some p →
        p.spkr = r.spkr ∧ p.text = r.text ∧ 2 * r.bt - 2 * P ≤ p.bt ∧ p.bt ≤ 2 * r.bt ∧ 2 * r.et ≤ p.et ∧ p.et ≤ 2 * r.et + 2 * P := by
  rw [pad_of]
  refine ⟨padded_get _ _ _ _, ?_⟩
  generalize of c rs = l
  have key : ∀ (l : List Rec) (last : Int) (i : Nat) (r p : Rec), l[i]? = some r → (padded P E last l)[i]? = some p →
      p.spkr = r.spkr ∧ p.text = r.text ∧ 2 * r.bt - 2 * P ≤ p.bt ∧ p.bt ≤ 2 * r.bt ∧ 2 * r.et ≤ p.et ∧ p.et ≤ 2 * r.et + 2 * P := by
    intro l
    induction l with
    | nil => intro _ i r p h; simp at h
    | cons q l ih =>
      intro last i r p h1 h2
      rw [padded] at h2
      cases i with
      | zero =>
        simp only [List.getElem?_cons_zero, Option.some.injEq] at h1 h2
        subst h1 h2
        have a := @half_bounds P last q.bt hP
        have b := @half_bounds P q.et (nextBegin E l) hP
        refine ⟨rfl, rfl, ?_, ?_, ?_, ?_⟩ <;> dsimp only <;> omega
      | succ i =>
        simp only [List.getElem?_cons_succ] at h1 h2
        exact ih _ i r p h1 h2
  exact key l B

/-- If the segments of a channel do not overlap, neither do the padded ones; and they stay in the part of the transcript asked for. -/
theorem pad_disjoint_partial (B E P : Int) (hP : 0 ≤ P) (c : String) (rs : List Rec) (h : Disjoint (of c rs)) :
    Disjoint (of c (pad B E P rs)) ∧
      ((∀ r ∈ of c rs, B ≤ r.bt ∧ r.bt ≤ r.et ∧ r.et ≤ E) → ∀ p ∈ of c (pad B E P rs), 2 * B ≤ p.bt ∧ p.et ≤ 2 * E) := by
  rw [pad_of]
  generalize of c rs = l at h
  constructor
  · have key : ∀ (l : List Rec) (last : Int), Disjoint l → Disjoint (padded P E last l) := by
      intro l
      induction l with
      | nil => intro _ _; trivial
      | cons r l ih =>
        intro last h
        cases l with
        | nil => trivial
        | cons q l =>
          refine ⟨?_, ih r.et h.2⟩
          have a := (@half_bounds P r.et q.bt hP).2.2 h.1
          show 2 * r.et + half P r.et q.bt ≤ 2 * q.bt - half P r.et q.bt
          have := h.1
          dsimp only at this
          unfold half at a ⊢
          split <;> omega
    exact key l B h
  · have key : ∀ (l : List Rec) (last : Int), B ≤ last → (∀ q l', l = q :: l' → last ≤ q.bt) → Disjoint l →
        (∀ r ∈ l, B ≤ r.bt ∧ r.bt ≤ r.et ∧ r.et ≤ E) → ∀ p ∈ padded P E last l, 2 * B ≤ p.bt ∧ p.et ≤ 2 * E := by
      intro l
      induction l with
      | nil => intro _ _ _ _ _ p hp; cases hp
      | cons r l ih =>
        intro last hB hq hd hr p hp
        obtain ⟨g1, g2, g3⟩ := hr r (by simp)
        have gl := hq r l rfl
        rw [padded] at hp
        rcases List.mem_cons.1 hp with rfl | hp
        · have a := (@half_bounds P last r.bt hP).2.2 gl
          have nb : r.et ≤ nextBegin E l ∧ nextBegin E l ≤ E := by
            cases l with
            | nil => exact ⟨g3, Int.le_refl _⟩
            | cons q l =>
              have := hr q (by simp)
              exact ⟨hd.1, by show q.bt ≤ E; omega⟩
          have b := (@half_bounds P r.et (nextBegin E l) hP).2.2 nb.1
          constructor <;> dsimp only <;> omega
        · refine ih r.et (by omega) ?_ ?_ (fun x hx => hr x (by simp [hx])) p hp
          · rintro q l' rfl
            exact hd.1
          · cases l with
            | nil => trivial
            | cons q l => exact hd.2
    intro hr
    refine key l B (Int.le_refl _) ?_ h hr
    rintro q l' rfl
    exact (hr q (by simp)).1

/-- A segment within another makes the next one begin before the longer one has ended: padded by 4, the third begins at 7. -/
theorem pad_counterexample :
    (pad 0 100 4 [seg "A" "A1" 0 10, seg "A" "A2" 2 3, seg "A" "A3" 11 12]).map (fun r => (r.bt, r.et)) = [(0, 20), (4, 14), (14, 32)] := by
  decide +kernel

example : (pad 0 100 4 [seg "A" "A1" 2 10, seg "B" "B1" 0 50, seg "A" "A2" 12 30]).map (fun r => (r.chan, r.bt, r.et)) =
    [("A", 2, 22), ("B", 0, 108), ("A", 22, 68)] := by decide +kernel

/-! ## Folds over one channel -/

theorem fold_inv {f : Rec → Rec → Option Rec} (hf : Keeps f) {c : String} {J : List Rec → List Rec → Prop} {P : List Rec → Prop}
    (hP : ∀ a b, P (a ++ b) → P a)
    (hs : ∀ (done out : List Rec) (r : Rec), (∀ l ∈ out, l.chan = c) → r.chan = c → P (done ++ [r]) → J done out →
      J (done ++ [r]) (match out with
        | [] => [r]
        | l :: ls => match f l r with
          | some x => x :: ls
          | none => r :: l :: ls))
    (rs : List Rec) (hr : ∀ r ∈ rs, r.chan = c) (hp : P rs) (h0 : J [] []) : J rs (rs.foldl (step f) []) := by
  have key : ∀ (rs done out : List Rec), (∀ r ∈ rs, r.chan = c) → (∀ l ∈ out, l.chan = c) → P (done ++ rs) → J done out →
      J (done ++ rs) (rs.foldl (step f) out) := by
    intro rs
    induction rs with
    | nil => intro done out _ _ _ h; simpa using h
    | cons r rs ih =>
      intro done out hr ho hp h
      have hrc := hr r (by simp)
      have e : done ++ r :: rs = (done ++ [r]) ++ rs := by simp
      rw [e] at hp ⊢
      rw [List.foldl_cons]
      have hst := @step_one f out r (fun l hl => by rw [ho l hl, hrc])
      refine ih (done ++ [r]) _ (fun x hx => hr x (by simp [hx])) ?_ hp ?_
      · rw [hst]
        intro l hl
        match out, ho with
        | [], _ => simp [one] at hl; rw [hl]; exact hrc
        | a :: as, ho =>
          rw [one] at hl
          cases ex : f a r with
          | none =>
            rw [ex] at hl
            rcases List.mem_cons.1 hl with rfl | hl
            · exact hrc
            · exact ho l hl
          | some x =>
            rw [ex] at hl
            rcases List.mem_cons.1 hl with rfl | hl
            · rw [hf a r l (by rw [ho a (by simp), hrc]) ex]; exact hrc
            · exact ho l (by simp [hl])
      · rw [hst]
        have := hs done out r ho hrc (hP _ _ hp) h
        cases out <;> exact this
  exact key rs [] [] hr (by simp) hp h0

theorem neighbours_snoc {R : Rec → Rec → Prop} (l : List Rec) (x y : Rec) (h : Neighbours R (l ++ [x])) (hxy : R x y) :
    Neighbours R (l ++ [x, y]) := by
  induction l with
  | nil => exact ⟨hxy, trivial⟩
  | cons a l ih =>
    cases l with
    | nil => exact ⟨h.1, hxy, trivial⟩
    | cons b l => exact ⟨h.1, ih h.2⟩

theorem neighbours_reverse {R : Rec → Rec → Prop} (l : List Rec) (h : Neighbours (fun y x => R x y) l) : Neighbours R l.reverse := by
  induction l with
  | nil => trivial
  | cons a l ih =>
    cases l with
    | nil => trivial
    | cons b l =>
      have := ih h.2
      rw [List.reverse_cons] at this
      rw [List.reverse_cons, List.reverse_cons, List.append_assoc]
      exact neighbours_snoc _ b a this h.1

/-! ## C285: smoothing -/

/-- Smoothing keeps the words of every channel in their order. -/
theorem smooth_text (s : Int) (c : String) (rs : List Rec) : (of c (smooth s rs)).flatMap (·.text) = (of c rs).flatMap (·.text) := by
  unfold smooth
  rw [pass_of (join_keeps s), pass]
  have hm : ∀ x ∈ of c rs, x.chan = c := fun x hx => (mem_of.1 hx).2
  generalize of c rs = l at hm
  refine fold_inv (join_keeps s) (c := c) (J := fun done out => out.reverse.flatMap (·.text) = done.flatMap (·.text)) (P := fun _ => True)
    (fun _ _ _ => trivial) ?_ l hm trivial rfl
  intro done out r _ _ _ h
  cases out with
  | nil => simp at h ⊢; exact h
  | cons a as =>
    dsimp only
    rw [List.flatMap_append, ← h]
    cases e : join s a r with
    | none => simp
    | some x =>
      have : x.text = a.text ++ r.text := by
        unfold join at e
        split at e
        · split at e
          · cases e; rfl
          · cases e
        · cases e
      simp [this]

/-- After smoothing, neighbours in a channel that have the same speaker are at least the given time apart. -/
theorem smooth_apart (s : Int) (c : String) (rs : List Rec) :
    Neighbours (fun x y => x.spkr = y.spkr → s ≤ y.bt - x.et) (of c (smooth s rs)) := by
  unfold smooth
  rw [pass_of (join_keeps s), pass]
  have hm : ∀ x ∈ of c rs, x.chan = c := fun x hx => (mem_of.1 hx).2
  generalize of c rs = l at hm
  apply neighbours_reverse
  refine fold_inv (join_keeps s) (c := c) (J := fun _ out => Neighbours (fun y x => x.spkr = y.spkr → s ≤ y.bt - x.et) out) (P := fun _ => True)
    (fun _ _ _ => trivial) ?_ l hm trivial trivial
  intro done out r _ _ _ h
  cases out with
  | nil => trivial
  | cons a as =>
    dsimp only
    cases e : join s a r with
    | none =>
      refine ⟨fun hs => ?_, h⟩
      unfold join at e
      split at e
      · rw [if_pos hs.symm] at e; cases e
      · omega
    | some x =>
      have : x.spkr = a.spkr ∧ x.bt = a.bt := by
        unfold join at e
        split at e
        · split at e
          · cases e; exact ⟨rfl, rfl⟩
          · cases e
        · cases e
      cases as with
      | nil => trivial
      | cons b as =>
        refine ⟨?_, h.2⟩
        dsimp only
        rw [this.1, this.2]
        exact h.1

theorem ordered_prefix (a b : List Rec) (h : Ordered (a ++ b)) : Ordered a := (List.pairwise_append.1 h).1

/-- If begins and ends do not go back, every segment lies within one of the same speaker afterwards. -/
theorem smooth_time_partial (s : Int) (c : String) (rs : List Rec) (ho : Ordered (of c rs)) :
    ∀ r ∈ of c rs, ∃ x ∈ of c (smooth s rs), x.spkr = r.spkr ∧ x.bt ≤ r.bt ∧ r.et ≤ x.et := by
  unfold smooth
  rw [pass_of (join_keeps s), pass]
  have hm : ∀ x ∈ of c rs, x.chan = c := fun x hx => (mem_of.1 hx).2
  generalize of c rs = l at hm ho
  have := fold_inv (join_keeps s) (c := c) (P := Ordered)
    (J := fun done out => (∀ r ∈ done, ∃ x ∈ out, x.spkr = r.spkr ∧ x.bt ≤ r.bt ∧ r.et ≤ x.et) ∧
      ∀ h ∈ out.head?, ∃ z ∈ done, z.et = h.et ∧ h.bt ≤ z.bt)
    ordered_prefix ?_ l hm ho ⟨by simp, by simp⟩
  · intro r hr
    obtain ⟨x, hx, h⟩ := this.1 r hr
    exact ⟨x, List.mem_reverse.2 hx, h⟩
  · intro done out r _ _ hp ⟨h1, h2⟩
    have hlast : ∀ z ∈ done, z.bt ≤ r.bt ∧ z.et ≤ r.et := fun z hz => (List.pairwise_append.1 hp).2.2 z hz r (by simp)
    cases out with
    | nil =>
      refine ⟨fun q hq => ?_, fun h hh => ⟨r, by simp, ?_⟩⟩
      · rcases List.mem_append.1 hq with hq | hq
        · obtain ⟨x, hx, _⟩ := h1 q hq; cases hx
        · rw [List.mem_singleton.1 hq]
          exact ⟨r, by simp, rfl, Int.le_refl _, Int.le_refl _⟩
      · simp at hh; subst hh; exact ⟨rfl, Int.le_refl _⟩
    | cons a as =>
      obtain ⟨z, hz, hze, hzb⟩ := h2 a (by simp)
      dsimp only
      cases e : join s a r with
      | none =>
        dsimp only
        refine ⟨fun q hq => ?_, fun h hh => ⟨r, by simp, ?_⟩⟩
        · rcases List.mem_append.1 hq with hq | hq
          · obtain ⟨x, hx, g⟩ := h1 q hq
            exact ⟨x, List.mem_cons_of_mem _ hx, g⟩
          · rw [List.mem_singleton.1 hq]
            exact ⟨r, by simp, rfl, Int.le_refl _, Int.le_refl _⟩
        · simp at hh; subst hh; exact ⟨rfl, Int.le_refl _⟩
      | some x =>
        have hx : x.spkr = a.spkr ∧ x.bt = a.bt ∧ x.et = r.et ∧ r.spkr = a.spkr := by
          unfold join at e
          split at e
          · split at e
            · cases e; exact ⟨rfl, rfl, rfl, by assumption⟩
            · cases e
          · cases e
        have hl := hlast z hz
        dsimp only
        refine ⟨fun q hq => ?_, fun h hh => ⟨r, by simp, ?_⟩⟩
        · rcases List.mem_append.1 hq with hq | hq
          · obtain ⟨y, hy, g1, g2, g3⟩ := h1 q hq
            rcases List.mem_cons.1 hy with rfl | hy
            · exact ⟨x, by simp, by rw [hx.1, g1], by rw [hx.2.1]; exact g2, by rw [hx.2.2.1]; exact (hlast q hq).2⟩
            · exact ⟨y, List.mem_cons_of_mem _ hy, g1, g2, g3⟩
          · rw [List.mem_singleton.1 hq]
            exact ⟨x, by simp, by rw [hx.1, hx.2.2.2], by rw [hx.2.1]; omega, by rw [hx.2.2.1]; exact Int.le_refl _⟩
        · simp at hh; subst hh; exact ⟨hx.2.2.1.symm, by rw [hx.2.1]; omega⟩

/-- A segment within one of the same speaker shortens it. -/
theorem smooth_counterexample : smooth 1 [seg "A" "A" 0 10, seg "A" "A" 2 3] = [seg "A" "A" 0 3 ["x", "x"]] := by decide +kernel

example : smooth 5 [seg "A" "A" 0 10 ["a"], seg "B" "B" 3 20, seg "A" "A" 14 30 ["b", "c"], seg "A" "A" 35 40] =
    [seg "A" "A" 0 30 ["a", "b", "c"], seg "B" "B" 3 20, seg "A" "A" 35 40] := by decide +kernel

/-! ## C286: overlapping speech -/

theorem cover_some {l r x : Rec} (h : cover l r = some x) :
    r.bt < l.et ∧ x.chan = r.chan ∧ x.spkr = .excluded ∧ x.bt = l.bt ∧ x.et = r.et ∧ x.text = ["ignore_time_segment_in_scoring"] := by
  unfold cover at h
  split at h
  · cases h; exact ⟨by assumption, rfl, rfl, rfl, rfl, rfl⟩
  · cases h

theorem cover_none {l r : Rec} (h : cover l r = none) : l.et ≤ r.bt := by
  unfold cover at h
  split at h
  · cases h
  · omega

/-- Afterwards no segment of a channel begins before the one before it has ended. -/
theorem exclude_disjoint (c : String) (rs : List Rec) : Disjoint (of c (exclude rs)) := by
  unfold exclude
  rw [pass_of cover_keeps, pass]
  have hm : ∀ x ∈ of c rs, x.chan = c := fun x hx => (mem_of.1 hx).2
  generalize of c rs = l at hm
  apply neighbours_reverse
  refine fold_inv cover_keeps (c := c) (J := fun _ out => Neighbours (fun y x => x.et ≤ y.bt) out) (P := fun _ => True)
    (fun _ _ _ => trivial) ?_ l hm trivial trivial
  intro done out r _ _ _ h
  cases out with
  | nil => trivial
  | cons a as =>
    dsimp only
    cases e : cover a r with
    | none => exact ⟨cover_none e, h⟩
    | some x =>
      cases as with
      | nil => trivial
      | cons b as =>
        refine ⟨?_, h.2⟩
        dsimp only
        rw [(cover_some e).2.2.2.1]
        exact h.1

/-- If begins and ends do not go back: a segment that overlaps no other of its channel is kept; one that is kept overlaps no other; and one that is
not kept lies in a region that is not scored. -/
theorem exclude_partial (c : String) (rs : List Rec) (ho : Ordered (of c rs)) (hp : ∀ r ∈ of c rs, r.bt < r.et)
    (hn : ∀ r ∈ of c rs, r.spkr ≠ .excluded) :
    (∀ as r bs, of c rs = as ++ r :: bs → (∀ y ∈ as ++ bs, ¬ Overlap r y) → r ∈ of c (exclude rs)) ∧
      (∀ x ∈ of c (exclude rs), x.spkr ≠ .excluded → ∃ as bs, of c rs = as ++ x :: bs ∧ ∀ y ∈ as ++ bs, ¬ Overlap x y) ∧
      (∀ r ∈ of c rs, r ∈ of c (exclude rs) ∨
        ∃ x ∈ of c (exclude rs), x.spkr = .excluded ∧ x.text = ["ignore_time_segment_in_scoring"] ∧ x.bt ≤ r.bt ∧ r.et ≤ x.et) := by
  unfold exclude
  rw [pass_of cover_keeps, pass]
  have hm : ∀ x ∈ of c rs, x.chan = c := fun x hx => (mem_of.1 hx).2
  generalize of c rs = l at hm ho hp hn
  have := fold_inv cover_keeps (c := c) (P := fun l => Ordered l ∧ (∀ r ∈ l, r.bt < r.et) ∧ ∀ r ∈ l, r.spkr ≠ .excluded)
    (J := fun done out =>
      (∀ as r bs, done = as ++ r :: bs → (∀ y ∈ as ++ bs, ¬ Overlap r y) → r ∈ out) ∧
      (∀ x ∈ out, x.spkr ≠ .excluded → ∃ as bs, done = as ++ x :: bs ∧ ∀ y ∈ as ++ bs, ¬ Overlap x y) ∧
      (∀ r ∈ done, r ∈ out ∨
        ∃ x ∈ out, x.spkr = .excluded ∧ x.text = ["ignore_time_segment_in_scoring"] ∧ x.bt ≤ r.bt ∧ r.et ≤ x.et) ∧
      (out = [] → done = []) ∧
      (∀ h t, out = h :: t → (∀ x ∈ t, x.et ≤ h.bt) ∧ ∃ z ∈ done, z.et = h.et ∧ h.bt ≤ z.bt ∧ ∀ y ∈ done, y.et ≤ z.et))
    (fun a b h => ⟨ordered_prefix a b h.1, fun r hr => h.2.1 r (by simp [hr]), fun r hr => h.2.2 r (by simp [hr])⟩)
    ?_ l hm ⟨ho, hp, hn⟩ ⟨?_, ?_, ?_, ?_, ?_⟩
  · obtain ⟨h1, h2, h3, _⟩ := this
    refine ⟨fun as r bs e h => List.mem_reverse.2 (h1 as r bs e h), fun x hx h => h2 x (List.mem_reverse.1 hx) h, fun r hr => ?_⟩
    rcases h3 r hr with h | ⟨x, hx, h⟩
    · exact .inl (List.mem_reverse.2 h)
    · exact .inr ⟨x, List.mem_reverse.2 hx, h⟩
  · intro done out r _ _ ⟨p1, p2, p3⟩ ⟨j1, j2, j3, j4, j5⟩
    have hlast : ∀ z ∈ done, z.bt ≤ r.bt ∧ z.et ≤ r.et := fun z hz => (List.pairwise_append.1 p1).2.2 z hz r (by simp)
    have hpos : ∀ z ∈ done, z.bt < z.et := fun z hz => p2 z (by simp [hz])
    have hrp : r.bt < r.et := p2 r (by simp)
    have hrn : r.spkr ≠ .excluded := p3 r (by simp)
    -- decompositions of the longer list
    have dec : ∀ as x bs, done ++ [r] = as ++ x :: bs → (bs = [] ∧ x = r ∧ as = done) ∨ ∃ bs', bs = bs' ++ [r] ∧ done = as ++ x :: bs' := by
      intro as x bs e
      rcases List.eq_nil_or_concat bs with rfl | ⟨bs', b, rfl⟩
      · have := List.append_inj' e rfl
        exact .inl ⟨rfl, by simpa using this.2.symm, this.1.symm⟩
      · right
        have e' : done ++ [r] = (as ++ x :: bs') ++ [b] := by simpa using e
        have := List.append_inj' e' rfl
        have hb : r = b := by simpa using this.2
        exact ⟨bs', by rw [hb]; simp, this.1⟩
    cases out with
    | nil =>
      have hd := j4 rfl
      subst hd
      refine ⟨fun as x bs e h => ?_, fun x hx hne => ⟨[], [], by simp at hx; simp [hx], by simp⟩, fun q hq => .inl ?_, fun e => by simp at e, ?_⟩
      · rcases dec as x bs e with ⟨_, rfl, _⟩ | ⟨bs', _, e'⟩
        · simp
        · simp at e'
      · simpa using hq
      · intro h t e
        simp at e
        obtain ⟨rfl, rfl⟩ := e
        exact ⟨by simp, r, by simp, rfl, Int.le_refl _, by simp⟩
    | cons a as =>
      obtain ⟨k1, z, hz, kz1, kz2, kz3⟩ := j5 a as rfl
      have hle : ∀ y ∈ done, y.et ≤ a.et := fun y hy => kz1 ▸ kz3 y hy
      have hzr := hlast z hz
      dsimp only
      cases e : cover a r with
      | none =>
        have hc := cover_none e
        have old : ∀ y ∈ done, y.et ≤ r.bt := fun y hy => Int.le_trans (hle y hy) hc
        dsimp only
        refine ⟨fun bs x cs ee h => ?_, fun x hx hne => ?_, fun q hq => ?_, fun e => by simp at e, ?_⟩
        · rcases dec bs x cs ee with ⟨_, rfl, _⟩ | ⟨cs', rfl, e'⟩
          · simp
          · exact List.mem_cons_of_mem _ (j1 bs x cs' e' (fun y hy => h y (by
              rcases List.mem_append.1 hy with hy | hy
              · simp [hy]
              · simp [hy])))
        · rcases List.mem_cons.1 hx with rfl | hx
          · refine ⟨done, [], rfl, fun y hy => ?_⟩
            rw [List.append_nil] at hy
            have := old y hy
            unfold Overlap
            omega
          · obtain ⟨bs, cs, e1, e2⟩ := j2 x hx hne
            refine ⟨bs, cs ++ [r], by rw [e1]; simp, fun y hy => ?_⟩
            rw [← List.append_assoc] at hy
            rcases List.mem_append.1 hy with hy | hy
            · exact e2 y hy
            · rw [List.mem_singleton.1 hy]
              have := old x (by rw [e1]; simp)
              unfold Overlap
              omega
        · rcases List.mem_append.1 hq with hq | hq
          · rcases j3 q hq with h | ⟨x, hx, h⟩
            · exact .inl (List.mem_cons_of_mem _ h)
            · exact .inr ⟨x, List.mem_cons_of_mem _ hx, h⟩
          · rw [List.mem_singleton.1 hq]
            exact .inl (by simp)
        · intro h t ee
          simp only [List.cons.injEq] at ee
          obtain ⟨rfl, rfl⟩ := ee
          refine ⟨fun x hx => ?_, r, by simp, rfl, Int.le_refl _, fun y hy => ?_⟩
          · rcases List.mem_cons.1 hx with rfl | hx
            · exact hc
            · have := k1 x hx
              omega
          · rcases List.mem_append.1 hy with hy | hy
            · exact (hlast y hy).2
            · rw [List.mem_singleton.1 hy]; exact Int.le_refl _
      | some x0 =>
        obtain ⟨hc, _, x1, x2, x3, x4⟩ := cover_some e
        dsimp only
        refine ⟨fun bs x cs ee h => ?_, fun x hx hne => ?_, fun q hq => ?_, fun e => by simp at e, ?_⟩
        · rcases dec bs x cs ee with ⟨rfl, rfl, rfl⟩ | ⟨cs', rfl, e'⟩
          · -- the new segment overlaps the last one
            exfalso
            refine h z (by simp [hz]) ?_
            have := hpos z hz
            unfold Overlap
            omega
          · have hxo := j1 bs x cs' e' (fun y hy => h y (by
              rcases List.mem_append.1 hy with hy | hy
              · simp [hy]
              · simp [hy]))
            rcases List.mem_cons.1 hxo with rfl | hxo
            · exfalso
              refine h r (by simp) ?_
              have := (hlast x (by rw [e']; simp))
              unfold Overlap
              omega
            · exact List.mem_cons_of_mem _ hxo
        · rcases List.mem_cons.1 hx with rfl | hx
          · exact absurd x1 hne
          · obtain ⟨bs, cs, e1, e2⟩ := j2 x (List.mem_cons_of_mem _ hx) hne
            refine ⟨bs, cs ++ [r], by rw [e1]; simp, fun y hy => ?_⟩
            rw [← List.append_assoc] at hy
            rcases List.mem_append.1 hy with hy | hy
            · exact e2 y hy
            · rw [List.mem_singleton.1 hy]
              have := k1 x hx
              unfold Overlap
              omega
        · rcases List.mem_append.1 hq with hq | hq
          · rcases j3 q hq with h | ⟨x, hx, g1, g2, g3, g4⟩
            · rcases List.mem_cons.1 h with rfl | h
              · exact .inr ⟨x0, by simp, x1, x4, by omega, by have := (hlast q hq).2; omega⟩
              · exact .inl (List.mem_cons_of_mem _ h)
            · rcases List.mem_cons.1 hx with rfl | hx
              · exact .inr ⟨x0, by simp, x1, x4, by omega, by have := (hlast q hq).2; omega⟩
              · exact .inr ⟨x, List.mem_cons_of_mem _ hx, g1, g2, g3, g4⟩
          · rw [List.mem_singleton.1 hq]
            exact .inr ⟨x0, by simp, x1, x4, by omega, by omega⟩
        · intro h t ee
          simp only [List.cons.injEq] at ee
          obtain ⟨rfl, rfl⟩ := ee
          refine ⟨fun x hx => by rw [x2]; exact k1 x hx, r, by simp, x3.symm, by omega, fun y hy => ?_⟩
          rcases List.mem_append.1 hy with hy | hy
          · exact (hlast y hy).2
          · rw [List.mem_singleton.1 hy]; exact Int.le_refl _
  · intro as r bs e; simp at e
  · intro x hx; cases hx
  · intro r hr; cases hr
  · intro _; rfl
  · intro h t e; cases e

/-- A short segment within a long one makes the region that is not scored too short, and a later segment that overlaps the long one is scored. -/
theorem exclude_counterexample :
    Overlap (seg "A" "A1" 0 10) (seg "A" "A3" 5 6) ∧
    (exclude [seg "A" "A1" 0 10, seg "A" "A2" 2 3, seg "A" "A3" 5 6]).map (fun r => (r.spkr, r.bt, r.et)) =
      [(.excluded, 0, 3), (.name "A3", 5, 6)] := by
  refine ⟨by unfold Overlap seg; decide, by decide +kernel⟩

example : (exclude [seg "A" "A1" 0 10, seg "B" "B" 0 5, seg "A" "A2" 8 12, seg "A" "A3" 12 20]).map (fun r => (r.chan, r.spkr, r.bt, r.et)) =
    [("A", .excluded, 0, 12), ("B", .name "B", 0, 5), ("A", .name "A3", 12, 20)] := by decide +kernel

/-! ## C287: gaps -/

/-- The gaps are added to every channel by itself: before, between and after its segments where more than a hundredth of a second is free. -/
theorem gaps_channels (B E d : Int) (c : String) (rs : List Rec) (h : of c rs ≠ []) : of c (gaps B E d rs) = filled c d E B (of c rs) := by
  rw [gaps_of, if_neg h]

/-- The segments themselves are all kept, in their order. -/
theorem gaps_keep (B E d : Int) (c : String) (rs : List Rec) (h : ∀ r ∈ of c rs, r.spkr ≠ .gap) :
    (of c (gaps B E d rs)).filter (fun r => r.spkr ≠ .gap) = of c rs := by
  rw [gaps_of]
  split
  · rename_i e; rw [e]; rfl
  · generalize of c rs = l at h
    have key : ∀ (l : List Rec) (last : Int), (∀ r ∈ l, r.spkr ≠ .gap) → (filled c d E last l).filter (fun r => r.spkr ≠ .gap) = l := by
      intro l
      induction l with
      | nil =>
        intro last _
        rw [filled]
        split <;> simp [gapRec]
      | cons r l ih =>
        intro last hr
        have h1 := hr r (by simp)
        have h2 := ih r.et (fun x hx => hr x (by simp [hx]))
        rw [filled, List.filter_append, List.filter_cons, h2]
        split <;> simp [gapRec, h1]
    exact key l B h

/-- Every moment of the part of the transcript asked for is in a record of the channel, or within a hundredth of a second of one. -/
theorem gaps_cover (B E d : Int) (hd : 0 ≤ d) (c : String) (rs : List Rec) (h : of c rs ≠ []) (t : Int) (h1 : B ≤ t) (h2 : t ≤ E) :
    ∃ r ∈ of c (gaps B E d rs), r.bt - d ≤ t ∧ t ≤ r.et + d := by
  rw [gaps_of, if_neg h]
  generalize of c rs = l at h
  have key : ∀ (l : List Rec) (last : Int), last ≤ t → (l = [] → last + d < t) → ∃ r ∈ filled c d E last l, r.bt - d ≤ t ∧ t ≤ r.et + d := by
    intro l
    induction l with
    | nil =>
      intro last hl hn
      have := hn rfl
      rw [filled, if_pos (by omega)]
      exact ⟨gapRec c last E, by simp, by show last - d ≤ t; omega, by show t ≤ E + d; omega⟩
    | cons r l ih =>
      intro last hl _
      rw [filled]
      by_cases hg : last + d < r.bt
      · rw [if_pos hg]
        by_cases hb : t ≤ r.bt
        · exact ⟨gapRec c last r.bt, by simp, by show last - d ≤ t; omega, by show t ≤ r.bt + d; omega⟩
        · by_cases he : t ≤ r.et + d
          · exact ⟨r, by simp, by omega, he⟩
          · obtain ⟨x, hx, g⟩ := ih r.et (by omega) (by intro _; omega)
            exact ⟨x, by simp [hx], g⟩
      · rw [if_neg hg]
        by_cases he : t ≤ r.et + d
        · exact ⟨r, by simp, by omega, he⟩
        · obtain ⟨x, hx, g⟩ := ih r.et (by omega) (by intro _; omega)
          exact ⟨x, by simp [hx], g⟩
  exact key l B h1 (fun e => absurd e h)

/-- If the segments do not overlap, no gap overlaps a segment or another gap. -/
theorem gaps_disjoint_partial (B E d : Int) (c : String) (rs : List Rec) (h : Disjoint (of c rs)) (hB : ∀ r ∈ of c rs, B ≤ r.bt) :
    Disjoint (of c (gaps B E d rs)) := by
  rw [gaps_of]
  split
  · trivial
  · generalize of c rs = l at h hB
    have key : ∀ (l : List Rec), Disjoint l → ∀ x : Rec, (∀ q l', l = q :: l' → x.et ≤ q.bt) → Disjoint (x :: filled c d E x.et l) := by
      intro l
      induction l with
      | nil =>
        intro _ x _
        rw [filled]
        split
        · exact ⟨Int.le_refl _, trivial⟩
        · trivial
      | cons r l ih =>
        intro hd' x hx
        have hxr := hx r l rfl
        have hrest : Disjoint (r :: filled c d E r.et l) := by
          refine ih ?_ r ?_
          · cases l with
            | nil => trivial
            | cons q l => exact hd'.2
          · rintro q l' rfl
            exact hd'.1
        rw [filled]
        split
        · exact ⟨Int.le_refl _, Int.le_refl _, hrest⟩
        · exact ⟨hxr, hrest⟩
    have := key l h (gapRec c B B) (by rintro q l' rfl; exact hB q (by simp))
    have e : (gapRec c B B).et = B := rfl
    rw [e] at this
    cases hf : filled c d E B l with
    | nil => trivial
    | cons y ys =>
      rw [hf] at this
      exact this.2

/-- After a segment within another the gap begins where the shorter one ends: it overlaps the longer one. -/
theorem gaps_counterexample :
    (gaps 0 20 1 [seg "A" "A1" 0 10, seg "A" "A2" 2 3, seg "A" "A3" 12 20]).map (fun r => (r.spkr, r.bt, r.et)) =
      [(.name "A1", 0, 10), (.name "A2", 2, 3), (.gap, 3, 12), (.name "A3", 12, 20)] := by decide +kernel

/-- A channel without segments has no gap either. -/
theorem gaps_empty (B E d : Int) (c : String) (rs : List Rec) (h : of c rs = []) : of c (gaps B E d rs) = [] := by
  rw [gaps_of, if_pos h]

example : (gaps 0 50 1 [seg "A" "A" 5 10, seg "B" "B" 0 20, seg "A" "A" 11 30, seg "A" "A" 40 50]).map (fun r => (r.chan, r.spkr, r.bt, r.et)) =
    [("A", .gap, 0, 5), ("A", .name "A", 5, 10), ("B", .name "B", 0, 20), ("A", .name "A", 11, 30), ("A", .gap, 30, 40), ("A", .name "A", 40, 50),
      ("B", .gap, 20, 50)] := by decide +kernel

/-! ## C288: channels are independent -/

/-- What is written for a channel is what would be written if the transcript had that channel only. -/
theorem channels_independent (B E d P s : Int) (c : String) (rs : List Rec) :
    of c (pad B E P rs) = of c (pad B E P (of c rs)) ∧ of c (smooth s rs) = of c (smooth s (of c rs)) ∧
      of c (exclude rs) = of c (exclude (of c rs)) ∧ of c (gaps B E d rs) = of c (gaps B E d (of c rs)) := by
  refine ⟨?_, ?_, ?_, ?_⟩
  · rw [pad_of, pad_of, of_of]
  · unfold smooth
    rw [pass_of (join_keeps s), pass_of (join_keeps s), of_of]
  · unfold exclude
    rw [pass_of cover_keeps, pass_of cover_keeps, of_of]
  · rw [gaps_of, gaps_of, of_of]

/-! ## C289: channels of speaker labels -/

/-- The channel of a label with at most one digit after its letter is that letter. -/
theorem channel_partial (a : Char) (ha : a.isDigit = false) (ds : List Char) (hd : ∀ d ∈ ds, d.isDigit = true) (hl : ds.length ≤ 1) :
    channel (a :: ds) = [a] := by
  match ds, hl with
  | [], _ => simp [channel, ha]
  | [d], _ => simp [channel, hd d (by simp)]

/-- With two digits the first is taken for a part of the channel, so that speakers A1 and A12 are in different channels. -/
theorem channel_counterexample : channel ['A', '1', '2'] = ['A', '1'] ∧ channel ['A', '1'] = ['A'] := by decide

example : channel ['B'] = ['B'] := by decide

end Verif.Chfilt
