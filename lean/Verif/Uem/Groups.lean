import Verif.Uem.Gaps
import Verif.Segmentor.Props
/-!
# Lemmas on the groups of reference segments seen by the UEM filter
-/
set_option autoImplicit false
namespace Verif.Uem
open Segmentor

theorem groupScan_spec (f c : String) : ∀ (v : List Seg) (m x : Int) (f0 c0 : String),
    (∀ g ∈ v, 0 ≤ g.start ∧ g.start < g.stop ∧ g.source = f ∧ g.channel = c) →
    (0 ≤ m ∧ m < x ∧ f0 = f ∧ c0 = c) →
    ∃ m' x', groupScan v (m, x, f0, c0) = (m', x', f, c) ∧ m' ≤ m ∧ x ≤ x' ∧ 0 ≤ m' ∧
      (∀ g ∈ v, m' ≤ g.start ∧ g.stop ≤ x') ∧ (m' = m ∨ ∃ g ∈ v, m' = g.start) ∧
      (x' = x ∨ ∃ g ∈ v, x' = g.stop) := by
  intro v
  induction v with
  | nil =>
    intro m x f0 c0 _ h
    refine ⟨m, x, by simp [groupScan, h.2.2.1, h.2.2.2], Int.le_refl _, Int.le_refl _, h.1, by simp, Or.inl rfl, Or.inl rfl⟩
  | cons g v ih =>
    intro m x f0 c0 hv h
    have hg := hv g (by simp)
    unfold groupScan
    have e1 : (if m = -1 ∨ g.start < m then g.start else m) ≤ m ∧
        (if m = -1 ∨ g.start < m then g.start else m) ≤ g.start ∧
        0 ≤ (if m = -1 ∨ g.start < m then g.start else m) ∧
        ((if m = -1 ∨ g.start < m then g.start else m) = m ∨
         (if m = -1 ∨ g.start < m then g.start else m) = g.start) := by
      split
      · refine ⟨by omega, Int.le_refl _, hg.1, Or.inr rfl⟩
      · refine ⟨Int.le_refl _, by omega, h.1, Or.inl rfl⟩
    have e2 : x ≤ (if x = -1 ∨ g.stop > x then g.stop else x) ∧
        g.stop ≤ (if x = -1 ∨ g.stop > x then g.stop else x) ∧
        ((if x = -1 ∨ g.stop > x then g.stop else x) = x ∨
         (if x = -1 ∨ g.stop > x then g.stop else x) = g.stop) := by
      split
      · refine ⟨by omega, Int.le_refl _, Or.inr rfl⟩
      · refine ⟨Int.le_refl _, by omega, Or.inl rfl⟩
    generalize (if m = -1 ∨ g.start < m then g.start else m) = m1 at e1 ⊢
    generalize (if x = -1 ∨ g.stop > x then g.stop else x) = x1 at e2 ⊢
    obtain ⟨m', x', r1, r2, r3, r4, r5, r6, r7⟩ := ih m1 x1 g.source g.channel
      (fun q hq => hv q (by simp [hq])) ⟨e1.2.2.1, by omega, hg.2.2.1, hg.2.2.2⟩
    refine ⟨m', x', r1, by omega, by omega, r4, ?_, ?_, ?_⟩
    · intro q hq
      rcases List.mem_cons.1 hq with e | hq
      · subst e; omega
      · exact r5 q hq
    · rcases r6 with r6 | ⟨q, hq, r6⟩
      · rcases e1.2.2.2 with e | e
        · exact Or.inl (by omega)
        · exact Or.inr ⟨g, by simp, by omega⟩
      · exact Or.inr ⟨q, by simp [hq], r6⟩
    · rcases r7 with r7 | ⟨q, hq, r7⟩
      · rcases e2.2.2 with e | e
        · exact Or.inl (by omega)
        · exact Or.inr ⟨g, by simp, by omega⟩
      · exact Or.inr ⟨q, by simp [hq], r7⟩

/-- Times, file and channel of a group with segments of one file and channel. -/
theorem groupScan_start (f c : String) (v : List Seg) (hne : v ≠ [])
    (hv : ∀ g ∈ v, 0 ≤ g.start ∧ g.start < g.stop ∧ g.source = f ∧ g.channel = c) :
    ∃ m x, groupScan v (-1, -1, "", "") = (m, x, f, c) ∧ 0 ≤ m ∧
      (∀ g ∈ v, m ≤ g.start ∧ g.stop ≤ x) ∧ (∃ g ∈ v, m = g.start) ∧ (∃ g ∈ v, x = g.stop) := by
  cases v with
  | nil => exact absurd rfl hne
  | cons g v =>
    have hg := hv g (by simp)
    unfold groupScan
    rw [if_pos (Or.inl rfl), if_pos (Or.inl rfl)]
    obtain ⟨m', x', r1, r2, r3, r4, r5, r6, r7⟩ := groupScan_spec f c v g.start g.stop g.source g.channel
      (fun q hq => hv q (by simp [hq])) hg
    refine ⟨m', x', r1, r4, ?_, ?_, ?_⟩
    · intro q hq
      rcases List.mem_cons.1 hq with e | hq
      · subst e; omega
      · exact r5 q hq
    · rcases r6 with r | ⟨q, hq, r⟩
      · exact ⟨g, by simp, r⟩
      · exact ⟨q, by simp [hq], r⟩
    · rcases r7 with r | ⟨q, hq, r⟩
      · exact ⟨g, by simp, r⟩
      · exact ⟨q, by simp [hq], r⟩

/-- The groups exist; their times in a file and channel are disjoint stretches covering exactly the moments at which
someone speaks there. -/
theorem groups_spec (refs : SpeechSet) (hg : ∀ sp ∈ refs, (∀ x ∈ sp, Proper x) ∧ InOrder sp)
    (hne : refs.flatten ≠ []) : ∃ gs, groupsOf refs = some gs ∧ ∀ f c,
      (∀ i ∈ spans gs f c, 0 ≤ i.1 ∧ i.1 < i.2) ∧ (spans gs f c).Pairwise (fun i j => i.2 ≤ j.1) ∧
      (∀ t, Covers (spans gs f c) t ↔
        ∃ x ∈ refs.flatten, x.source = f ∧ x.channel = c ∧ x.start ≤ t ∧ t < x.stop) ∧
      ∀ x ∈ refs.flatten, x.source = f → x.channel = c → ∃ i ∈ spans gs f c, i.1 ≤ x.start ∧ x.stop ≤ i.2 := by
  obtain ⟨st, hr, inv, hrem⟩ := reset_spec refs hg hne
  obtain ⟨gs, e, ws, hrun, o⟩ := run_spec refs [] hg (refs.flatten.length + 1) st 0 inv
    (Nat.lt_succ_of_le List.countP_le_length)
  refine ⟨gs, by unfold groupsOf; rw [hr]; simp only [hrun], ?_⟩
  -- what is known about the group of a window
  have key : ∀ w ∈ ws, ∃ m x, groupTimes (groupOf refs [] w) = (m, x, w.src, w.ch) ∧ 0 ≤ m ∧ m < x ∧
      w.a ≤ m ∧ x ≤ w.b ∧ ∀ g ∈ refs.flatten, w.holds g = true → m ≤ g.start ∧ g.stop ≤ x := by
    intro w hw
    have hfl : (groupOf refs [] w).refs.flatten = refs.flatten.filter w.holds := flatten_inWindow refs w
    have hmem : ∀ g ∈ refs.flatten.filter w.holds, 0 ≤ g.start ∧ g.start < g.stop ∧ g.source = w.src ∧
        g.channel = w.ch := by
      intro g hgm
      have hgm := List.mem_filter.1 hgm
      have hp := Good.proper hg hgm.1
      have hh := hgm.2
      simp only [Win.holds, Bool.and_eq_true, decide_eq_true_eq] at hh
      exact ⟨hp.1, hp.2.1, hh.1.1, hh.1.2⟩
    obtain ⟨g0, h1, h2⟩ := o.nonempty w hw
    obtain ⟨m, x, r1, r2, r3, ⟨gm, r4, r5⟩, ⟨gx, r6, r7⟩⟩ := groupScan_start w.src w.ch _
      (List.ne_nil_of_mem (List.mem_filter.2 ⟨h1, h2⟩)) hmem
    have t1 := List.mem_filter.1 r4
    have t2 := List.mem_filter.1 r6
    have q1 := o.tight w hw gm t1.1 t1.2
    have q2 := o.tight w hw gx t2.1 t2.2
    have q3 := hmem gm r4
    have q4 := r3 gm r4
    refine ⟨m, x, by unfold groupTimes; rw [hfl]; exact r1, r2, by omega, by omega, by omega, ?_⟩
    intro g a b
    exact r3 g (List.mem_filter.2 ⟨a, b⟩)
  -- the stretches of a file and channel, one for each of its windows
  let T : Win → Int × Int := fun w => ((groupTimes (groupOf refs [] w)).1, (groupTimes (groupOf refs [] w)).2.1)
  have hsp : ∀ f c, spans gs f c = (ws.filter fun w => decide (w.src = f ∧ w.ch = c)).map T := by
    intro f c
    have hk : ∀ w ∈ ws, ((groupTimes (groupOf refs [] w)).2.2.1 = w.src ∧
        (groupTimes (groupOf refs [] w)).2.2.2 = w.ch) := by
      intro w hw
      obtain ⟨m, x, r1, _⟩ := key w hw
      rw [r1]; exact ⟨rfl, rfl⟩
    unfold spans
    rw [o.gs, List.map_map, List.filter_map, List.map_map]
    have : ws.filter ((fun t : Int × Int × String × String => decide (t.2.2.1 = f ∧ t.2.2.2 = c)) ∘
        (groupTimes ∘ groupOf refs [])) = ws.filter fun w => decide (w.src = f ∧ w.ch = c) := by
      apply List.filter_congr
      intro w hw
      apply decide_eq_decide.2
      simp only [Function.comp]
      rw [(hk w hw).1, (hk w hw).2]
    rw [this]
    rfl
  intro f c
  rw [hsp f c]
  have hcov : ∀ y ∈ refs.flatten, y.source = f → y.channel = c →
      ∃ i ∈ (ws.filter fun w => decide (w.src = f ∧ w.ch = c)).map T, i.1 ≤ y.start ∧ y.stop ≤ i.2 := by
    intro y y1 y2 y3
    obtain ⟨w, hw, hh⟩ := o.cover y y1 (hrem y y1)
    obtain ⟨m, x, r1, r2, r3, r4, r5, r6⟩ := key w hw
    have := r6 y y1 hh
    simp only [Win.holds, Bool.and_eq_true, decide_eq_true_eq] at hh
    refine ⟨T w, List.mem_map.2 ⟨w, List.mem_filter.2 ⟨hw, ?_⟩, rfl⟩, ?_⟩
    · simp only [decide_eq_true_eq]; exact ⟨by rw [← hh.1.1, y2], by rw [← hh.1.2, y3]⟩
    · simp only [T, r1]; omega
  refine ⟨?_, ?_, ?_, hcov⟩
  · intro i hi
    obtain ⟨w, hw, e⟩ := List.mem_map.1 hi
    obtain ⟨m, x, r1, r2, r3, _⟩ := key w (List.mem_filter.1 hw).1
    subst e
    simp only [T, r1]
    exact ⟨r2, r3⟩
  · rw [List.pairwise_map]
    have := List.Pairwise.filter (fun w : Win => decide (w.src = f ∧ w.ch = c)) o.order
    refine List.Pairwise.imp_of_mem ?_ this
    intro w w' hw hw' h
    obtain ⟨m, x, r1, r2, r3, r4, r5, _⟩ := key w (List.mem_filter.1 hw).1
    obtain ⟨m', x', q1, q2, q3, q4, q5, _⟩ := key w' (List.mem_filter.1 hw').1
    have k1 := (List.mem_filter.1 hw).2
    have k2 := (List.mem_filter.1 hw').2
    simp only [decide_eq_true_eq] at k1 k2
    have := h (by rw [k1.1, k2.1]) (by rw [k1.2, k2.2])
    simp only [T, r1, q1]
    omega
  · intro t
    constructor
    · rintro ⟨i, hi, h1, h2⟩
      obtain ⟨w, hw, e⟩ := List.mem_map.1 hi
      have hw := List.mem_filter.1 hw
      obtain ⟨m, x, r1, r2, r3, r4, r5, _⟩ := key w hw.1
      subst e
      simp only [T, r1] at h1 h2
      obtain ⟨y, y1, y2, y3⟩ := o.filled w hw.1 t (by omega) (by omega)
      have y2 := (keyed_iff _ _ _).1 y2
      have k := hw.2
      simp only [decide_eq_true_eq] at k
      exact ⟨y, y1, by rw [y2.1, k.1], by rw [y2.2, k.2], y3⟩
    · rintro ⟨y, y1, y2, y3, y4, y5⟩
      obtain ⟨i, hi, h1, h2⟩ := hcov y y1 y2 y3
      exact ⟨i, hi, by omega, by omega⟩

end Verif.Uem
