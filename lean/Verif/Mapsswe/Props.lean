import Verif.Mapsswe.Verdict
/-!
# C35, C68: the matched-pairs test
-/
set_option autoImplicit false
namespace Verif.Mapsswe

section
variable {W : Type} [DecidableEq W]

/-- **C35** For two alignments in which exactly the insertions lack a reference word, and at least one required good word,
the segmentation is defined, keeps the earlier segments, adds only segments with an error, and the errors of the added
segments are together exactly the errors of the two alignments: no error is lost and none is counted twice. -/
theorem segments_conserve (p q : List (Entry W)) (hp : WellFormed p) (hq : WellFormed q) (mg : Nat) (hmg : 1 ≤ mg)
    (segs : List Seg) :
    ∃ new, compSents p q mg segs = some (segs ++ new) ∧ (new.map (·.err1)).sum = errors p ∧
      (new.map (·.err2)).sum = errors q ∧ ∀ s ∈ new, 0 < s.err1 + s.err2 :=
  compSents_spec p q hp hq mg hmg segs

/-- **C35** With as many reference words on both sides, the segments do not depend on which system is named first. -/
theorem segments_swap (p q : List (Entry W)) (hp : WellFormed p) (hq : WellFormed q) (hr : refWords p = refWords q)
    (mg : Nat) (segs : List Seg) :
    compSents q p mg (segs.map Seg.swap) = (compSents p q mg segs).map (List.map Seg.swap) :=
  compSents_swap p q hp hq hr mg segs

variable {N I : Type} [DecidableEq N] [DecidableEq I]

/-- **C35** The pairs compared are the sentences that both systems have for a speaker both have, each once. -/
theorem pairs_exact {P : Type} (x y : System N I P) (hx : Distinct x) (hy : Distinct y) :
    ∃ ks : List ((N × I) × (P × P)), pairs x y = ks.map (·.2) ∧ (ks.map (·.1)).Nodup ∧
      ∀ n i p q, ((n, i), (p, q)) ∈ ks ↔ Has x n i p ∧ Has y n i q :=
  ⟨keyed x y, pairs_keyed x y, keyed_nodup x y hx, mem_keyed x y hy⟩

theorem pairs_mem {P : Type} (x y : System N I P) (hy : Distinct y) (c : P × P) (h : c ∈ pairs x y) :
    ∃ n i, Has x n i c.1 ∧ Has y n i c.2 := by
  rw [pairs_keyed] at h
  obtain ⟨⟨⟨n, i⟩, ⟨p, q⟩⟩, h1, h2⟩ := List.mem_map.mp h
  rw [← h2]
  exact ⟨n, i, (mem_keyed x y hy n i p q).mp h1⟩

theorem sum_flat (f : Seg → Nat) (g : List (Entry W) × List (Entry W) → List Seg)
    (e : List (Entry W) × List (Entry W) → Nat) : ∀ (l : List (List (Entry W) × List (Entry W))),
    (∀ c ∈ l, ((g c).map f).sum = e c) → ((l.flatMap g).map f).sum = (l.map e).sum
  | [], _ => rfl
  | c :: l, h => by
    have ih := sum_flat f g e l (fun d hd => h d (List.mem_cons_of_mem _ hd))
    have hc := h c List.mem_cons_self
    rw [List.flatMap_cons, List.map_append, List.sum_append, ih, hc]
    rfl

/-- **C35** Over all sentences: the segments' errors are together the errors of each system in the compared sentences. -/
theorem system_conserve (x y : System N I (List (Entry W))) (hy : Distinct y)
    (wx : ∀ n i p, Has x n i p → WellFormed p) (wy : ∀ n i p, Has y n i p → WellFormed p) (mg : Nat) (hmg : 1 ≤ mg) :
    ∃ segs, allSegs mg (pairs x y) [] = some segs ∧
      (segs.map (·.err1)).sum = ((pairs x y).map (fun c => errors c.1)).sum ∧
      (segs.map (·.err2)).sum = ((pairs x y).map (fun c => errors c.2)).sum ∧
      ∀ s ∈ segs, 0 < s.err1 + s.err2 := by
  have wf : ∀ c ∈ pairs x y, WellFormed c.1 ∧ WellFormed c.2 := by
    intro c hc
    obtain ⟨n, i, h1, h2⟩ := pairs_mem x y hy c hc
    exact ⟨wx n i _ h1, wy n i _ h2⟩
  refine ⟨_, allSegs_eq mg hmg _ [] wf, ?_, ?_, ?_⟩
  · rw [List.nil_append]
    apply sum_flat
    intro c hc
    obtain ⟨new, h1, h2, _⟩ := compSents_spec c.1 c.2 (wf c hc).1 (wf c hc).2 mg hmg []
    rw [segsOf, h1]; exact h2
  · rw [List.nil_append]
    apply sum_flat
    intro c hc
    obtain ⟨new, h1, _, h2, _⟩ := compSents_spec c.1 c.2 (wf c hc).1 (wf c hc).2 mg hmg []
    rw [segsOf, h1]; exact h2
  · intro s hs
    rw [List.nil_append, List.mem_flatMap] at hs
    obtain ⟨c, hc, hs⟩ := hs
    obtain ⟨new, h1, _, _, h2⟩ := compSents_spec c.1 c.2 (wf c hc).1 (wf c hc).2 mg hmg []
    rw [segsOf, h1] at hs
    exact h2 s hs

/-- **C68** Naming the systems in the other order gives the opposite verdict. -/
theorem verdict_swap (x y : System N I (List (Entry W))) (hx : Distinct x) (hy : Distinct y)
    (wx : ∀ n i p, Has x n i p → WellFormed p) (wy : ∀ n i p, Has y n i p → WellFormed p)
    (hr : ∀ n i p q, Has x n i p → Has y n i q → refWords p = refWords q) (mg : Nat) (hmg : 1 ≤ mg) :
    mapsswe y x mg = (mapsswe x y mg).map (fun v => -v) := by
  have wf : ∀ c ∈ pairs x y, (WellFormed c.1 ∧ WellFormed c.2) ∧ refWords c.1 = refWords c.2 := by
    intro c hc
    obtain ⟨n, i, h1, h2⟩ := pairs_mem x y hy c hc
    exact ⟨⟨wx n i _ h1, wy n i _ h2⟩, hr n i _ _ h1 h2⟩
  have wf' : ∀ c ∈ pairs y x, WellFormed c.1 ∧ WellFormed c.2 := by
    intro c hc
    obtain ⟨n, i, h1, h2⟩ := pairs_mem y x hx c hc
    exact ⟨wy n i _ h1, wx n i _ h2⟩
  unfold mapsswe
  rw [allSegs_eq mg hmg _ [] (fun c hc => (wf c hc).1), allSegs_eq mg hmg _ [] wf']
  simp only [List.nil_append]
  rw [← zVerdict_neg]
  apply zVerdict_perm
  have h1 := pairs_swap x y hx hy
  have h2 : ((pairs y x).flatMap (segsOf mg)).Perm (((pairs x y).map Prod.swap).flatMap (segsOf mg)) := h1.flatMap_right _
  have h3 : ((pairs x y).map Prod.swap).flatMap (segsOf mg) = ((pairs x y).flatMap (segsOf mg)).map Seg.swap := by
    rw [List.flatMap_map, List.map_flatMap]
    clear h1 h2 wf'
    generalize pairs x y = l at wf
    induction l with
    | nil => rfl
    | cons c l ih =>
      have hc := wf c List.mem_cons_self
      rw [List.flatMap_cons, List.flatMap_cons, ih (fun d hd => wf d (List.mem_cons_of_mem _ hd)),
        segsOf_swap mg hmg c hc.1.1 hc.1.2 hc.2]
  rw [h3] at h2
  have h4 := h2.map (fun s : Seg => (s.err1 : Int) - (s.err2 : Int))
  rw [List.map_map] at h4 ⊢
  refine h4.trans (List.Perm.of_eq ?_)
  apply List.map_congr_left
  intro s _
  simp only [Function.comp, Seg.swap]
  omega

/-- **C68** The verdict on the differences of the segments, in whole numbers: with `n` segments, the sum `S` and the sum of
squares `Q` of the differences, a difference is reported exactly when the numbers are not all equal and the squared statistic
`S²(n−1)/(nQ−S²)` exceeds 1.96² (= 2401/625); the system named is the one with fewer errors. -/
theorem verdict_criterion (d : List Int) (hd : d ≠ []) :
    zVerdict d = some (
      if 0 < d.length * sumSq d - sumZ d * sumZ d ∧
         2401 * (d.length * sumSq d - sumZ d * sumZ d) < 625 * (sumZ d * sumZ d * ((d.length : Int) - 1))
      then (if sumZ d < 0 then -1 else 1) else 0) :=
  zVerdict_eq d hd

theorem sumZ_segs : ∀ (segs : List Seg), sumZ (segs.map (fun s => (s.err1 : Int) - (s.err2 : Int))) =
    (((segs.map (·.err1)).sum : Nat) : Int) - (((segs.map (·.err2)).sum : Nat) : Int)
  | [] => rfl
  | s :: segs => by
    have := sumZ_segs segs
    simp only [sumZ, List.map_cons, List.sum_cons] at this ⊢
    omega

/-- **C68** When a system is named as the better one, it made strictly fewer errors in the compared sentences. -/
theorem verdict_direction (x y : System N I (List (Entry W))) (hy : Distinct y)
    (wx : ∀ n i p, Has x n i p → WellFormed p) (wy : ∀ n i p, Has y n i p → WellFormed p) (mg : Nat) (hmg : 1 ≤ mg) :
    (mapsswe x y mg = some (-1) → ((pairs x y).map (fun c => errors c.1)).sum < ((pairs x y).map (fun c => errors c.2)).sum) ∧
    (mapsswe x y mg = some 1 → ((pairs x y).map (fun c => errors c.2)).sum < ((pairs x y).map (fun c => errors c.1)).sum) := by
  obtain ⟨segs, h1, h2, h3, _⟩ := system_conserve x y hy wx wy mg hmg
  unfold mapsswe
  rw [h1]
  simp only
  have hs := sumZ_segs segs
  rw [h2, h3] at hs
  generalize segs.map (fun s : Seg => (s.err1 : Int) - (s.err2 : Int)) = d at hs ⊢
  by_cases hd : d = []
  · subst hd
    constructor <;> intro h <;> exact absurd h (by decide)
  · rw [zVerdict_eq d hd]
    by_cases hb : 0 < spread d ∧ 2401 * spread d < 625 * (sumZ d * sumZ d * ((d.length : Int) - 1))
    · rw [if_pos hb]
      have hne : sumZ d ≠ 0 := by intro h0; rw [h0] at hb; omega
      by_cases hlt : sumZ d < 0
      · rw [if_pos hlt]
        exact ⟨fun _ => by omega, fun h => by simp at h⟩
      · rw [if_neg hlt]
        exact ⟨fun h => by simp at h, fun _ => by omega⟩
    · rw [if_neg hb]
      constructor <;> intro h <;> simp at h

/-- **C68**, what fails: when every segment has the same difference, nothing is ever reported, however many segments there
are and however large the difference is. -/
theorem constant_difference_unreported (n : Nat) (hn : 1 ≤ n) (c : Int) : zVerdict (List.replicate n c) = some 0 := by
  have hs : ∀ k : Nat, sumZ (List.replicate k c) = k * c := by
    intro k
    induction k with
    | zero => simp [sumZ]
    | succ k ih =>
      simp only [sumZ, List.replicate_succ, List.sum_cons] at ih ⊢
      rw [ih, Int.natCast_succ, Int.add_mul]
      omega
  have hq : ∀ k : Nat, sumSq (List.replicate k c) = k * (c * c) := by
    intro k
    induction k with
    | zero => simp [sumSq]
    | succ k ih =>
      simp only [sumSq, List.replicate_succ, List.map_cons, List.sum_cons] at ih ⊢
      rw [ih, Int.natCast_succ, Int.add_mul]
      omega
  rw [zVerdict_eq _ (by intro h; have := congrArg List.length h; simp at this; omega)]
  have : spread (List.replicate n c) = 0 := by
    unfold spread
    rw [hs, hq, List.length_replicate]
    have : (n : Int) * (↑n * (c * c)) = ↑n * c * (↑n * c) := by
      rw [Int.mul_assoc (n : Int) c, ← Int.mul_assoc c, Int.mul_comm c (n : Int), Int.mul_assoc (n : Int) c c]
    omega
  rw [if_neg (by rw [this]; omega)]

/-- **C68**, what fails: comparing two systems without an error in the common sentences (or without common sentences) reads
the median of an empty list, before its start. -/
theorem no_errors_undefined (x y : System N I (List (Entry W))) (hy : Distinct y)
    (wx : ∀ n i p, Has x n i p → WellFormed p) (wy : ∀ n i p, Has y n i p → WellFormed p) (mg : Nat) (hmg : 1 ≤ mg)
    (h0 : ∀ c ∈ pairs x y, errors c.1 = 0 ∧ errors c.2 = 0) : mapsswe x y mg = none := by
  obtain ⟨segs, h1, h2, h3, h4⟩ := system_conserve x y hy wx wy mg hmg
  have z1 : ((pairs x y).map (fun c => errors c.1)).sum = 0 := by
    apply List.sum_eq_zero_iff_forall_eq_nat.mpr
    intro a ha
    obtain ⟨c, hc, e⟩ := List.mem_map.mp ha
    rw [← e]; exact (h0 c hc).1
  have z2 : ((pairs x y).map (fun c => errors c.2)).sum = 0 := by
    apply List.sum_eq_zero_iff_forall_eq_nat.mpr
    intro a ha
    obtain ⟨c, hc, e⟩ := List.mem_map.mp ha
    rw [← e]; exact (h0 c hc).2
  have hnil : segs = [] := by
    cases segs with
    | nil => rfl
    | cons s l =>
      have := h4 s List.mem_cons_self
      rw [z1, List.map_cons, List.sum_cons] at h2
      rw [z2, List.map_cons, List.sum_cons] at h3
      omega
  unfold mapsswe
  rw [h1, hnil]
  rfl

end

/-! ## The hypotheses are met -/

/-- Alignments with errors in two places, three good words apart. -/
def exP : List (Entry Nat) :=
  [⟨some 1, Ev.other⟩, ⟨some 2, Ev.corr⟩, ⟨some 3, Ev.corr⟩, ⟨some 4, Ev.corr⟩, ⟨none, Ev.ins⟩, ⟨some 5, Ev.corr⟩, ⟨some 6, Ev.other⟩]
def exQ : List (Entry Nat) :=
  [⟨some 1, Ev.corr⟩, ⟨some 2, Ev.corr⟩, ⟨some 3, Ev.corr⟩, ⟨some 4, Ev.corr⟩, ⟨some 5, Ev.corr⟩, ⟨some 6, Ev.other⟩, ⟨none, Ev.ins⟩]

example : WellFormed exP ∧ WellFormed exQ ∧ refWords exP = refWords exQ := by
  unfold WellFormed exP exQ
  refine ⟨?_, ?_, by decide⟩ <;> intro e he <;> simp only [List.mem_cons, List.not_mem_nil, or_false] at he <;>
    rcases he with rfl | rfl | rfl | rfl | rfl | rfl | rfl <;> decide
example : compSents exP exQ 2 [] = some [⟨3, 1, 0⟩, ⟨4, 2, 2⟩] := by decide
example : errors exP = 3 ∧ errors exQ = 2 := by decide
example : compSents exQ exP 2 [] = some [⟨3, 0, 1⟩, ⟨4, 2, 2⟩] := by decide
example : pairs [("a", [(1, 'p'), (2, 'q')]), ("b", [(1, 'r')])] [("b", [(1, 's'), (3, 't')]), ("a", [(2, 'u')])]
    = [('q', 'u'), ('r', 's')] := by decide
example : zVerdict [-1, -1, -2, -1, -1, -3] = some (-1) := by decide +kernel
example : zVerdict [1, -1, 2, 0] = some 0 := by decide +kernel
example : zVerdict [1, 1, 2] = some 1 := by decide +kernel
example : zVerdict (List.replicate 1000 5) = some 0 := constant_difference_unreported 1000 (by decide) 5

end Verif.Mapsswe
