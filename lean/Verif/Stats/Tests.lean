import Verif.Stats.Rank
import Verif.Stats.Binom
/-!
# Lemmas about the tests
-/
set_option autoImplicit false
namespace Verif.Stats

theorem acc_min_comm (a b : Nat) (p : Rat) : accBinomial (min b a) (b + a) p = accBinomial (min a b) (a + b) p := by
  rw [Nat.min_comm, Nat.add_comm]

section table
variable {N I : Type} [DecidableEq N] [DecidableEq I]

theorem matchSents_eq (id : I) (e1 a b : Bool) : ∀ ss : List (I × Bool), (ss.map (·.1)).Nodup →
    matchSents id e1 a b ss = if e1 = a ∧ (id, b) ∈ ss then 1 else 0
  | [], _ => by simp [matchSents]
  | (i, e) :: ss, h => by
    unfold matchSents
    simp only [List.map_cons, List.nodup_cons] at h
    rw [matchSents_eq id e1 a b ss h.2]
    by_cases h1 : i = id
    · subst h1
      have h2 : (i, b) ∉ ss := fun hm => h.1 (List.mem_map.mpr ⟨(i, b), hm, rfl⟩)
      by_cases h3 : e1 = a
      · by_cases h4 : e = b
        · simp [h2, h3, h4]
        · have h5 : ¬ b = e := fun hh => h4 hh.symm
          simp [h2, h3, h4, h5]
      · simp [h3]
    · have h5 : ¬ id = i := fun hh => h1 hh.symm
      simp [h1, h5]

theorem findSpkr_some (name : N) : ∀ (y : Results N I), (y.map (·.1)).Nodup → ∀ ss, findSpkr name y = some ss →
    (name, ss) ∈ y ∧ ∀ id b, ((name, id), b) ∈ sentences y ↔ (id, b) ∈ ss
  | [], _, ss, h => by simp [findSpkr] at h
  | (n, t) :: y, hn, ss, h => by
    unfold findSpkr at h
    simp only [List.map_cons, List.nodup_cons] at hn
    by_cases h1 : name = n
    · subst h1
      simp at h
      subst h
      refine ⟨List.mem_cons_self, ?_⟩
      intro id b
      unfold sentences
      rw [List.flatMap_cons, List.mem_append]
      constructor
      · intro h2
        rcases h2 with h2 | h2
        · simpa using h2
        · exfalso
          obtain ⟨g, hg, hm⟩ := List.mem_flatMap.mp h2
          obtain ⟨s, _, he⟩ := List.mem_map.mp hm
          have : g.1 = name := by
            have := congrArg (fun x => x.1.1) he
            simpa using this
          exact hn.1 (List.mem_map.mpr ⟨g, hg, this⟩)
      · intro h2
        left
        simpa using h2
    · simp [h1] at h
      obtain ⟨h2, h3⟩ := findSpkr_some name y hn.2 ss h
      refine ⟨List.mem_cons_of_mem _ h2, ?_⟩
      intro id b
      rw [← h3]
      unfold sentences
      rw [List.flatMap_cons, List.mem_append]
      constructor
      · intro h4
        rcases h4 with h4 | h4
        · exfalso
          obtain ⟨s, _, he⟩ := List.mem_map.mp h4
          have := congrArg (fun x => x.1.1) he
          simp at this
          exact h1 this.symm
        · exact h4
      · intro h4; exact Or.inr h4

theorem findSpkr_none (name : N) : ∀ (y : Results N I), findSpkr name y = none → ∀ id b, ((name, id), b) ∉ sentences y
  | [], _, id, b => by simp [sentences]
  | (n, t) :: y, h, id, b => by
    unfold findSpkr at h
    by_cases h1 : name = n
    · simp [h1] at h
    · simp [h1] at h
      have := findSpkr_none name y h id b
      intro hm
      unfold sentences at hm
      rw [List.flatMap_cons, List.mem_append] at hm
      rcases hm with h4 | h4
      · obtain ⟨s, _, he⟩ := List.mem_map.mp h4
        have := congrArg (fun x => x.1.1) he
        simp at this
        exact h1 this.symm
      · exact this h4

theorem mcTable_both (x y : Results N I) (hy : Distinct y) (a b : Bool) : mcTable x y a b = both x y a b := by
  unfold mcTable both
  induction x with
  | nil => rfl
  | cons g x ih =>
    simp only [List.map_cons, List.sum_cons]
    have hs : sentences (g :: x) = g.2.map (fun s => ((g.1, s.1), s.2)) ++ sentences x := by
      unfold sentences; rw [List.flatMap_cons]
    rw [hs, List.countP_append, ih]
    congr 1
    rw [List.countP_map]
    cases hf : findSpkr g.1 y with
    | none =>
      simp only
      symm
      rw [List.countP_eq_zero]
      intro s _
      simp only [Function.comp, decide_eq_true_eq]
      intro hh
      exact findSpkr_none g.1 y hf s.1 b hh.2
    | some ss =>
      simp only
      obtain ⟨h1, h2⟩ := findSpkr_some g.1 y hy.1 ss hf
      have hnd := hy.2 _ h1
      generalize g.2 = l
      induction l with
      | nil => rfl
      | cons s l ihl =>
        rw [List.map_cons, List.sum_cons, ihl, matchSents_eq _ _ _ _ _ hnd, List.countP_cons]
        simp only [Function.comp, h2, decide_eq_true_eq]
        omega

theorem keys_nodup (x : Results N I) (hx : Distinct x) : ((sentences x).map (·.1)).Nodup := by
  have e : (sentences x).map (·.1) = x.flatMap (fun g => g.2.map (fun s => (g.1, s.1))) := by
    unfold sentences
    rw [List.map_flatMap]
    congr 1
    funext g
    rw [List.map_map]
    rfl
  rw [e]
  obtain ⟨h1, h2⟩ := hx
  clear e
  induction x with
  | nil => simp
  | cons g x ih =>
    rw [List.flatMap_cons, List.nodup_append]
    simp only [List.map_cons, List.nodup_cons] at h1
    refine ⟨?_, ih h1.2 (fun q hq => h2 q (List.mem_cons_of_mem _ hq)), ?_⟩
    · have := h2 g List.mem_cons_self
      have h3 : g.2.map (fun s => (g.1, s.1)) = (g.2.map (·.1)).map (fun i => (g.1, i)) := by
        rw [List.map_map]; rfl
      rw [h3]
      unfold List.Nodup at this ⊢
      rw [List.pairwise_map]
      refine this.imp ?_
      intro p q hpq he
      exact hpq (by simpa using he)
    · intro p hp q hq he
      obtain ⟨s, _, e1⟩ := List.mem_map.mp hp
      obtain ⟨g', hg', hm⟩ := List.mem_flatMap.mp hq
      obtain ⟨s', _, e2⟩ := List.mem_map.mp hm
      have : g'.1 = g.1 := by
        have h5 : (g.1, s.1) = (g'.1, s'.1) := by rw [e1, e2]; exact he
        have := congrArg Prod.fst h5
        simpa using this.symm
      exact h1.1 (List.mem_map.mpr ⟨g', hg', this⟩)

theorem both_swap (x y : Results N I) (hx : Distinct x) (hy : Distinct y) (a b : Bool) : both y x b a = both x y a b := by
  have key : ∀ (u v : Results N I) (c d : Bool), Distinct u →
      (((sentences u).filter (fun s => s.2 = c ∧ (s.1, d) ∈ sentences v)).map (·.1)).Nodup ∧
      ∀ k, k ∈ ((sentences u).filter (fun s => s.2 = c ∧ (s.1, d) ∈ sentences v)).map (·.1) ↔
        ((k, c) ∈ sentences u ∧ (k, d) ∈ sentences v) := by
    intro u v c d hu
    constructor
    · exact List.Nodup.sublist (List.Sublist.map _ List.filter_sublist) (keys_nodup u hu)
    · intro k
      rw [List.mem_map]
      constructor
      · rintro ⟨s, hs, rfl⟩
        rw [List.mem_filter] at hs
        simp only [decide_eq_true_eq] at hs
        refine ⟨?_, hs.2.2⟩
        have := hs.1
        rw [← hs.2.1]
        exact this
      · rintro ⟨h1, h2⟩
        exact ⟨(k, c), by rw [List.mem_filter]; simp [h1, h2], rfl⟩
  obtain ⟨n1, m1⟩ := key y x b a hy
  obtain ⟨n2, m2⟩ := key x y a b hx
  have hp : List.Perm (((sentences y).filter (fun s => s.2 = b ∧ (s.1, a) ∈ sentences x)).map (·.1))
      (((sentences x).filter (fun s => s.2 = a ∧ (s.1, b) ∈ sentences y)).map (·.1)) := by
    rw [List.perm_ext_iff_of_nodup n1 n2]
    intro k
    rw [m1, m2, and_comm]
  have := hp.length_eq
  rw [List.length_map, List.length_map] at this
  unfold both
  rw [List.countP_eq_length_filter, List.countP_eq_length_filter]
  exact this

end table

theorem absR_gt (x t : Rat) (ht : 0 ≤ t) : t < absR x ↔ (t < x ∨ t < -x) := by
  unfold absR
  by_cases h : x < 0
  · rw [if_pos h]; grind
  · rw [if_neg h]; grind

theorem signCounts_eq : ∀ l : List (Rat × Rat),
    signCounts l = (smaller (5 / 1000) (l.map (fun p => (p.2, p.1))), smaller (5 / 1000) l,
      l.length - smaller (5 / 1000) (l.map (fun p => (p.2, p.1))) - smaller (5 / 1000) l) ∧
    smaller (5 / 1000) (l.map (fun p => (p.2, p.1))) + smaller (5 / 1000) l ≤ l.length
  | [] => by constructor <;> decide +kernel
  | (x, y) :: l => by
    obtain ⟨ih, il⟩ := signCounts_eq l
    unfold signCounts
    rw [ih]
    unfold smaller at il ⊢
    simp only [List.map_cons, List.countP_cons, List.length_cons, decide_eq_true_eq] at il ⊢
    have ha := absR_gt (x - y) (5 / 1000) (by decide +kernel)
    by_cases h1 : absR (x - y) ≤ 5 / 1000
    · have h2 : ¬ (y < x ∧ 5 / 1000 < x - y) := by grind
      have h3 : ¬ (x < y ∧ 5 / 1000 < y - x) := by grind
      simp only [h1, h2, h3, if_true, if_false, Nat.add_zero, Prod.mk.injEq, true_and]
      omega
    · by_cases h4 : x < y
      · have h2 : ¬ (y < x ∧ 5 / 1000 < x - y) := by grind
        have h3 : (x < y ∧ 5 / 1000 < y - x) := by grind
        simp only [h1, h4, h2, h3.2, and_true, if_true, if_false, Nat.add_zero, Prod.mk.injEq, true_and]
        omega
      · have h2 : (y < x ∧ 5 / 1000 < x - y) := by grind
        have h3 : ¬ (x < y ∧ 5 / 1000 < y - x) := by grind
        simp only [h1, h4, h2, h2.2, false_and, and_self, if_true, if_false, Nat.add_zero, Prod.mk.injEq, true_and]
        omega

theorem signAnalysis_small (a b z : Nat) (zb : Bool) (hn : a + b + z ≤ 20) :
    signAnalysis a b z zb ≠ 0 ↔
      (a + z / 2 ≠ b + (z + 1) / 2 ∧ splitProb (min (a + z / 2) (b + (z + 1) / 2)) (a + b + z) < 1 / 20) := by
  unfold signAnalysis
  simp only
  rw [show b + (z / 2 + z % 2) = b + (z + 1) / 2 by omega]
  by_cases h : a + z / 2 = b + (z + 1) / 2
  · have : ¬ ((1 : Rat) < 1 / 20) := by decide +kernel
    simp [h, this]
  · rw [if_pos h, show a + z / 2 + (b + (z + 1) / 2) = a + b + z by omega,
      accBinomial_exact _ _ hn (by omega)]
    by_cases h2 : splitProb (min (a + z / 2) (b + (z + 1) / 2)) (a + b + z) < 1 / 20
    · rw [if_pos h2]
      cases zb <;> simp [h, h2]
    · rw [if_neg h2]
      simp [h, h2]

theorem signAnalysis_large (a b z : Nat) (zb : Bool) (hn : 21 ≤ a + b + z) (h : a + z / 2 ≠ b + (z + 1) / 2) :
    signAnalysis a b z zb ≠ 0 := by
  unfold signAnalysis
  simp only
  rw [show b + (z / 2 + z % 2) = b + (z + 1) / 2 by omega]
  rw [if_pos h, if_pos (accBinomial_approx _ _ (by omega) (by omega))]
  cases zb <;> decide

theorem signAnalysis_sign (a b z : Nat) (zb : Bool) :
    signAnalysis a b z zb = 0 ∨ signAnalysis a b z zb = (if zb then 1 else -1) := by
  unfold signAnalysis
  simp only
  by_cases h : (if a + z / 2 ≠ b + (z / 2 + z % 2) then
      2 * accBinomial (min (a + z / 2) (b + (z / 2 + z % 2))) (a + z / 2 + (b + (z / 2 + z % 2))) (1 / 2) else 1) < (1 / 20 : Rat)
  · rw [if_pos h]; exact Or.inr rfl
  · rw [if_neg h]; exact Or.inl rfl

theorem wLoop_sums : ∀ (l : List (Rat × Rat)) (s : WSums),
    (wLoop s l).plus + (wLoop s l).minus = s.plus + s.minus + l.length ∧
    (wLoop s l).plusRank + (wLoop s l).minusRank = s.plusRank + s.minusRank + (l.map (·.2)).sum
  | [], s => by simp [wLoop, Rat.add_zero]
  | (d, r) :: l, s => by
    unfold wLoop
    obtain ⟨h1, h2⟩ := wLoop_sums l (wStep s d r)
    have h3 : (wStep s d r).plus + (wStep s d r).minus = s.plus + s.minus + 1 ∧
        (wStep s d r).plusRank + (wStep s d r).minusRank = s.plusRank + s.minusRank + r := by
      unfold wStep
      split
      · exact ⟨by simp only; omega, by simp only; grind⟩
      · split
        · exact ⟨by simp only; omega, by simp only; grind⟩
        · split
          · exact ⟨by simp only; omega, by simp only; grind⟩
          · exact ⟨by simp only; omega, by simp only; grind⟩
    refine ⟨?_, ?_⟩
    · rw [h1, h3.1, List.length_cons]; omega
    · rw [h2, h3.2, List.map_cons, List.sum_cons]; grind

theorem wLoop_untied : ∀ (l : List (Rat × Rat)) (s : WSums), (∀ p ∈ l, 5 / 1000 < absR p.1) →
    (wLoop s l).plus = s.plus + l.countP (fun p => 0 < p.1) ∧
    (wLoop s l).plusRank = s.plusRank + ((l.filter (fun p => 0 < p.1)).map (·.2)).sum
  | [], s, _ => by simp [wLoop, Rat.add_zero]
  | (d, r) :: l, s, h => by
    unfold wLoop
    obtain ⟨h1, h2⟩ := wLoop_untied l (wStep s d r) (fun p hp => h p (List.mem_cons_of_mem _ hp))
    have h0 : 5 / 1000 < absR d := h (d, r) List.mem_cons_self
    have h0' := (absR_gt d (5 / 1000) (by decide +kernel)).mp h0
    rw [h1, h2, List.countP_cons, List.filter_cons]
    unfold wStep
    by_cases hd : d < 0
    · have hd' : ¬ 0 < d := by grind
      rw [if_pos ⟨hd, h0⟩]
      simp [hd']
    · have hd' : 0 < d := by grind
      rw [if_neg (fun hh => hd hh.1), if_pos ⟨hd', h0⟩]
      simp only [hd', decide_true, if_true, List.map_cons, List.sum_cons]
      exact ⟨by omega, by grind⟩

theorem zThreshold_eq : zThreshold = 196 / 100 := by decide +kernel

end Verif.Stats
