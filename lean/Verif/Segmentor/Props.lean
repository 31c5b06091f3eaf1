import Verif.Segmentor.Run
/-!
# Time overlap and segmentation: theorems C12, C13, C55
-/
set_option autoImplicit false
namespace Verif.Segmentor

/-! ### C12 -/

/-- C12: the test answers yes exactly when the closed intervals share a point. -/
theorem overlap_iff_share_point (a b : Timed) (ha : a.start ≤ a.stop) (hb : b.start ≤ b.stop) :
    overlapWith a b = true ↔ ∃ p, a.has p ∧ b.has p := by
  unfold overlapWith Timed.has
  by_cases h : a.start ≤ b.start
  · simp only [if_pos h, decide_eq_true_eq]
    constructor
    · intro h1; exact ⟨b.start, by omega⟩
    · rintro ⟨p, h1, h2⟩; omega
  · simp only [if_neg h, decide_eq_true_eq]
    constructor
    · intro h1; exact ⟨a.start, by omega⟩
    · rintro ⟨p, h1, h2⟩; omega

/-- C12: the test is symmetric. -/
theorem overlap_symm (a b : Timed) (ha : a.start ≤ a.stop) (hb : b.start ≤ b.stop) :
    overlapWith a b = overlapWith b a := by
  rw [Bool.eq_iff_iff, overlap_iff_share_point a b ha hb, overlap_iff_share_point b a hb ha]
  constructor <;> rintro ⟨p, h1, h2⟩ <;> exact ⟨p, h2, h1⟩

example : overlapWith ⟨3, 7⟩ ⟨7, 9⟩ = true ∧ overlapWith ⟨3, 6⟩ ⟨7, 9⟩ = false := by decide

/-! ### C13 -/

/-- C13.  For references whose speakers' segments are proper and in time order, the iteration
`Reset; while HasNext: Next` finishes without undefined behaviour, and
* the reference segments of all groups together are the reference segments, each exactly once;
* within a source and channel earlier groups end before later groups begin;
* no hypothesis segment is handed out more than once. -/
theorem segmentor_partition_partial (refs hyps : SpeechSet)
    (hg : ∀ sp ∈ refs, (∀ x ∈ sp, Proper x) ∧ InOrder sp) (hne : refs.flatten ≠ []) :
    ∃ st gs e, reset refs none = some st ∧
      (∀ fuel, refs.flatten.length < fuel → run refs hyps fuel st = some (gs, e)) ∧
      ((gs.map fun g => g.refs.flatten).flatten).Perm refs.flatten ∧
      gs.Pairwise (fun g g' => ∀ x ∈ g.refs.flatten, ∀ y ∈ g'.refs.flatten, SameKey x y →
        x.stop ≤ y.start) ∧
      ∀ h, ((gs.map fun g => g.hyps.flatten).flatten).count h ≤ hyps.flatten.count h := by
  obtain ⟨st, hr, inv, hrem⟩ := reset_spec refs hg hne
  obtain ⟨gs, e, ws, hrun, o⟩ := run_spec refs hyps hg (refs.flatten.length + 1) st 0 inv
    (Nat.lt_succ_of_le List.countP_le_length)
  have mono : ∀ (k : Nat) (st : St) (r : List Group × St), run refs hyps k st = some r →
      run refs hyps (k + 1) st = some r := by
    intro k
    induction k with
    | zero => intro st r h; cases h
    | succ k ih =>
      intro st r h
      unfold run at h ⊢
      cases hc : st.cur with
      | none => rw [hc] at h; exact h
      | some c =>
        rw [hc] at h
        simp only at h ⊢
        cases hn : next refs hyps st with
        | none => rw [hn] at h; exact h
        | some q =>
          obtain ⟨g, st'⟩ := q
          rw [hn] at h
          simp only at h ⊢
          cases hr : run refs hyps k st' with
          | none => rw [hr] at h; cases h
          | some q2 => rw [ih st' q2 hr]; rw [hr] at h; exact h
  refine ⟨st, gs, e, hr, ?_, ?_, ?_, ?_⟩
  · intro fuel hf
    obtain ⟨d, rfl⟩ : ∃ d, fuel = refs.flatten.length + 1 + d := ⟨fuel - (refs.flatten.length + 1), by omega⟩
    clear hf
    induction d with
    | zero => exact hrun
    | succ d ih => exact mono _ _ _ ih
  · rw [List.perm_iff_count]
    intro x
    have e1 : (gs.map fun g => g.refs.flatten) =
        ws.map fun w => (inWindow refs w.a w.b w.src w.ch).flatten := by
      rw [o.gs, List.map_map]; rfl
    rw [e1, count_windows]
    by_cases hx : x ∈ refs.flatten
    · obtain ⟨w, hw, hh⟩ := o.cover x hx (hrem x hx)
      have h1 := windows_disjoint x ws o.order
      have h2 : 0 < ws.countP (fun w => w.holds x) := List.countP_pos_iff.2 ⟨w, hw, hh⟩
      have : ws.countP (fun w => w.holds x) = 1 := by omega
      rw [this, Nat.one_mul]
    · rw [List.count_eq_zero_of_not_mem hx, Nat.mul_zero]
  · rw [o.gs, List.pairwise_map]
    refine List.Pairwise.imp_of_mem ?_ o.order
    intro w w' hw hw' hord x hx y hy hk
    have hx' : x ∈ refs.flatten.filter w.holds := by
      have := flatten_inWindow refs w; unfold groupOf at hx; rwa [this] at hx
    have hy' : y ∈ refs.flatten.filter w'.holds := by
      have := flatten_inWindow refs w'; unfold groupOf at hy; rwa [this] at hy
    rw [List.mem_filter] at hx' hy'
    have h1 := (o.tight w hw x hx'.1 hx'.2).2
    have h2 := (o.tight w' hw' y hy'.1 hy'.2).1
    have kx := hx'.2
    have ky := hy'.2
    simp only [Win.holds, Bool.and_eq_true, decide_eq_true_eq] at kx ky
    have := hord (by rw [← kx.1.1, ← ky.1.1, hk.1]) (by rw [← kx.1.2, ← ky.1.2, hk.2])
    omega
  · intro h
    have e1 : (gs.map fun g => g.hyps.flatten) =
        ws.map fun w => (inWindow hyps w.a w.b w.src w.ch).flatten := by
      rw [o.gs, List.map_map]; rfl
    rw [e1, count_windows]
    have := Nat.mul_le_mul_right (hyps.flatten.count h) (windows_disjoint h ws o.order)
    omega

/-- Two speakers overlapping in a chain, a second channel, three hypothesis segments. -/
def demoRefs : SpeechSet :=
  [[⟨0, "f", "A", 0, 10⟩, ⟨1, "f", "A", 30, 40⟩], [⟨2, "f", "A", 5, 20⟩, ⟨3, "f", "B", 2, 9⟩]]
def demoHyps : SpeechSet := [[⟨4, "f", "A", 1, 9⟩, ⟨5, "f", "A", 21, 29⟩, ⟨6, "f", "A", 31, 39⟩]]

example : (∀ sp ∈ demoRefs, (∀ x ∈ sp, Proper x) ∧ InOrder sp) ∧ demoRefs.flatten ≠ [] := by
  refine ⟨?_, by decide⟩
  intro sp hsp
  simp only [demoRefs, List.mem_cons, List.not_mem_nil, or_false] at hsp
  rcases hsp with h | h <;> subst h <;> refine ⟨?_, ?_⟩
  · intro x hx
    simp only [List.mem_cons, List.not_mem_nil, or_false] at hx
    rcases hx with h | h <;> subst h <;> unfold Proper <;> decide
  · unfold InOrder SameKey; decide
  · intro x hx
    simp only [List.mem_cons, List.not_mem_nil, or_false] at hx
    rcases hx with h | h <;> subst h <;> unfold Proper <;> decide
  · unfold InOrder SameKey; decide

/-- What the iteration delivers on the example: three groups; hypothesis segment 5, lying between two groups, is
in none of them. -/
example : ((reset demoRefs none).bind fun st => run demoRefs demoHyps 6 st).map
    (fun r => r.1.map fun g => (g.refs.map fun v => v.map Seg.id, g.hyps.map fun v => v.map Seg.id)) =
    some [([[0], [2]], [[4]]), ([[1]], [[6]]), ([[3]], [])] := by decide

/-- Each group of the iteration is one uninterrupted stretch: at every moment between the start of one of its reference
segments and the end of another there is a reference segment of the same recording and channel. -/
theorem segmentor_groups_connected (refs hyps : SpeechSet)
    (hg : ∀ sp ∈ refs, (∀ x ∈ sp, Proper x) ∧ InOrder sp) (hne : refs.flatten ≠ []) :
    ∃ st gs e, reset refs none = some st ∧ run refs hyps (refs.flatten.length + 1) st = some (gs, e) ∧
      ∀ g ∈ gs, g.refs.flatten ≠ [] ∧ ∀ x ∈ g.refs.flatten, ∀ y ∈ g.refs.flatten, SameKey x y ∧
        ∀ t, x.start ≤ t → t < y.stop → ∃ z ∈ refs.flatten, SameKey x z ∧ z.start ≤ t ∧ t < z.stop := by
  obtain ⟨st, hr, inv, hrem⟩ := reset_spec refs hg hne
  obtain ⟨gs, e, ws, hrun, o⟩ := run_spec refs hyps hg (refs.flatten.length + 1) st 0 inv
    (Nat.lt_succ_of_le List.countP_le_length)
  refine ⟨st, gs, e, hr, hrun, ?_⟩
  intro g hgm
  rw [o.gs] at hgm
  obtain ⟨w, hw, e⟩ := List.mem_map.1 hgm
  have hfl : g.refs.flatten = refs.flatten.filter w.holds := by rw [← e]; exact flatten_inWindow refs w
  rw [hfl]
  obtain ⟨x0, h1, h2⟩ := o.nonempty w hw
  refine ⟨List.ne_nil_of_mem (List.mem_filter.2 ⟨h1, h2⟩), ?_⟩
  intro x hx y hy
  have hx := List.mem_filter.1 hx
  have hy := List.mem_filter.1 hy
  have tx := o.tight w hw x hx.1 hx.2
  have ty := o.tight w hw y hy.1 hy.2
  have kx := hx.2
  have ky := hy.2
  simp only [Win.holds, Bool.and_eq_true, decide_eq_true_eq] at kx ky
  refine ⟨⟨by rw [kx.1.1, ky.1.1], by rw [kx.1.2, ky.1.2]⟩, ?_⟩
  intro t a b
  obtain ⟨z, z1, z2, z3⟩ := o.filled w hw t (by omega) (by omega)
  have z2 := (keyed_iff _ _ _).1 z2
  exact ⟨z, z1, ⟨by rw [kx.1.1, z2.1], by rw [kx.1.2, z2.2]⟩, z3⟩

/-- Missing in `segmentor_partition_partial`: speakers whose segments are not in time order, or have no duration.
A reference segment of a speaker listed out of order can be in no group at all. -/
theorem out_of_order_segment_lost :
    ∃ (refs : SpeechSet) (gs : List Group), (∀ x ∈ refs.flatten, Proper x) ∧
      ((reset refs none).bind fun st => run refs [] 5 st).map Prod.fst = some gs ∧
      ¬ ((gs.map fun g => g.refs.flatten).flatten).Perm refs.flatten := by
  refine ⟨[[⟨0, "f", "A", 0, 2⟩, ⟨1, "f", "A", 6, 7⟩, ⟨2, "f", "A", 1, 9⟩]],
    [⟨[[⟨0, "f", "A", 0, 2⟩]], []⟩, ⟨[[⟨1, "f", "A", 6, 7⟩]], []⟩], ?_, by decide, by decide⟩
  intro x hx
  simp only [List.flatten_cons, List.flatten_nil, List.append_nil, List.mem_cons, List.not_mem_nil,
    or_false] at hx
  rcases hx with h | h | h <;> subst h <;> unfold Proper <;> decide

/-- A reference segment without duration is in no group: its own group is empty. -/
theorem zero_length_segment_lost :
    ∃ (refs : SpeechSet), (∀ sp ∈ refs, InOrder sp) ∧ refs.flatten ≠ [] ∧
      ((reset refs none).bind fun st => run refs [] 5 st).map Prod.fst = some [⟨[], []⟩] := by
  refine ⟨[[⟨0, "f", "A", 5, 5⟩]], ?_, by decide, by decide⟩
  intro sp hsp
  simp only [List.mem_cons, List.not_mem_nil, or_false] at hsp
  subst hsp; unfold InOrder SameKey; decide

/-! ### C55 -/

/-- C55 fails: after the groups of one hypothesis set have been delivered, resetting the segmentor for the next
hypothesis set with the same references dereferences the iterator of an empty set, for all references. -/
theorem second_reset_undefined (refs hyps : SpeechSet)
    (hg : ∀ sp ∈ refs, (∀ x ∈ sp, Proper x) ∧ InOrder sp) (hne : refs.flatten ≠ []) :
    ∃ st gs e, reset refs none = some st ∧ run refs hyps (refs.flatten.length + 1) st = some (gs, e) ∧
      reset refs (some e) = none := by
  obtain ⟨st, hr, inv, _⟩ := reset_spec refs hg hne
  obtain ⟨gs, e, ws, hrun, o⟩ := run_spec refs hyps hg (refs.flatten.length + 1) st 0 inv
    (Nat.lt_succ_of_le List.countP_le_length)
  refine ⟨st, gs, e, hr, hrun, ?_⟩
  unfold reset start
  simp only [o.finished.1]

/-! ### C56 -/

theorem dividerLoop_spec (a : Timed) : ∀ (room k : Nat), 1 ≤ k → k + room = 10 →
    (∀ j < k, (10 ^ j : Int) ∣ a.start ∧ (10 ^ j : Int) ∣ a.stop) →
    (∃ j, j ≤ 9 ∧ ¬ ((10 ^ j : Int) ∣ a.start ∧ (10 ^ j : Int) ∣ a.stop)) →
    ∃ e, dividerLoop a k room = some (10 ^ e) ∧
      ((10 ^ e : Int) ∣ a.start ∧ (10 ^ e : Int) ∣ a.stop) ∧
      ¬ ((10 ^ (e + 1) : Int) ∣ a.start ∧ (10 ^ (e + 1) : Int) ∣ a.stop) := by
  intro room
  induction room with
  | zero =>
    intro k _ h2 h3 h4
    obtain ⟨j, hj, hn⟩ := h4
    exact absurd (h3 j (by omega)) hn
  | succ room ih =>
    intro k h1 h2 h3 h4
    unfold dividerLoop
    have hd : ∀ x : Int, x.tmod (10 ^ k) = 0 ↔ (10 ^ k : Int) ∣ x :=
      fun x => ⟨Int.dvd_of_tmod_eq_zero, Int.tmod_eq_zero_of_dvd⟩
    by_cases hc : a.start.tmod (10 ^ k) = 0 ∧ a.stop.tmod (10 ^ k) = 0
    · rw [if_pos hc]
      refine ih (k + 1) (by omega) (by omega) ?_ h4
      intro j hj
      by_cases e : j = k
      · subst e; exact ⟨(hd _).1 hc.1, (hd _).1 hc.2⟩
      · exact h3 j (by omega)
    · rw [if_neg hc]
      refine ⟨k - 1, rfl, h3 _ (by omega), ?_⟩
      rw [show k - 1 + 1 = k by omega]
      intro h
      exact hc ⟨(hd _).2 h.1, (hd _).2 h.2⟩

/-- C56: for times in the range of `int`, not both zero, the divider is the largest power of ten that divides both
times. -/
theorem divider_largest_partial (a : Timed) (h0 : a.start ≠ 0 ∨ a.stop ≠ 0)
    (h1 : a.start.natAbs < 10 ^ 9) (h2 : a.stop.natAbs < 10 ^ 9) :
    ∃ e, timeSafeDivider true a = some (10 ^ e) ∧
      ((10 ^ e : Int) ∣ a.start ∧ (10 ^ e : Int) ∣ a.stop) ∧
      ∀ e' > e, ¬ ((10 ^ e' : Int) ∣ a.start ∧ (10 ^ e' : Int) ∣ a.stop) := by
  have big : ∀ x : Int, x ≠ 0 → x.natAbs < 10 ^ 9 → ¬ ((10 ^ 9 : Int) ∣ x) := by
    intro x hx hlt hd
    have := Int.natAbs_dvd_natAbs.2 hd
    have h3 := Nat.le_of_dvd (Int.natAbs_pos.2 hx) this
    have : ((10 ^ 9 : Int)).natAbs = 10 ^ 9 := by decide
    omega
  obtain ⟨e, h3, h4, h5⟩ := dividerLoop_spec a 9 1 (Nat.le_refl _) rfl
    (by intro j hj
        have : j = 0 := by omega
        subst this
        exact ⟨Int.one_dvd _, Int.one_dvd _⟩)
    ⟨9, Nat.le_refl _, by
      rcases h0 with h | h
      · intro hd; exact big _ h h1 hd.1
      · intro hd; exact big _ h h2 hd.2⟩
  refine ⟨e, h3, h4, ?_⟩
  intro e' he' hd
  apply h5
  have hp : (10 ^ (e + 1) : Int) ∣ 10 ^ e' := by
    refine ⟨10 ^ (e' - (e + 1)), ?_⟩
    rw [← Int.pow_add]; congr 1; omega
  exact ⟨Int.dvd_trans hp hd.1, Int.dvd_trans hp hd.2⟩

example : timeSafeDivider true ⟨1200, 34500⟩ = some 100 := by decide

/-- The case left out of `divider_largest_partial` is undefined behaviour: an object at time 0 without duration. -/
theorem divider_undefined_at_zero : timeSafeDivider true ⟨0, 0⟩ = none := by decide

end Verif.Segmentor
