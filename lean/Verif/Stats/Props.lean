import Verif.Stats.Tests
/-!
# Ranks and comparison tests: properties C31–C34 and C67

A verdict of −1 names the first system as the better one, 1 the second, 0 none.
-/
set_option autoImplicit false
namespace Verif.Stats

/-- The two systems exchanged. -/
def swapped (l : List (Rat × Rat)) : List (Rat × Rat) := l.map (fun p => (p.2, p.1))

/-! ## C31: mean ranks -/

/-- C31: whatever sorted order the library delivers, every value gets as its rank the average of the places its equals
take in ascending order. -/
theorem mean_ranks_increasing (arr : List Rat) (ptr : List Nat) (h : Ascending arr ptr) :
    rankArr arr ptr = arr.map (fun x => some (averagePlace (below arr x) (same arr x))) :=
  rankArr_spec arr ptr h

/-- C31, for the order from high to low. -/
theorem mean_ranks_decreasing (arr : List Rat) (ptr : List Nat) (h : Descending arr ptr) :
    rankArr arr ptr = arr.map (fun x => some (averagePlace (above arr x) (same arr x))) :=
  rankArr_desc arr ptr h

/-- C31: larger values get larger ranks. -/
theorem larger_rank (arr : List Rat) (ptr : List Nat) (h : Ascending arr ptr) (i j : Nat) (hi : i < arr.length)
    (hj : j < arr.length) (hlt : arr[i] < arr[j]) :
    ∃ r s : Rat, (rankArr arr ptr)[i]? = some (some r) ∧ (rankArr arr ptr)[j]? = some (some s) ∧ r < s := by
  rw [mean_ranks_increasing arr ptr h]
  refine ⟨averagePlace (below arr arr[i]) (same arr arr[i]), averagePlace (below arr arr[j]) (same arr arr[j]),
    by simp [hi], by simp [hj], ?_⟩
  generalize ex : arr[i] = x at hlt ⊢
  generalize ey : arr[j] = y at hlt ⊢
  have h1 : below arr x + same arr x ≤ below arr y := by
    unfold below same
    clear h ex ey hi hj
    induction arr with
    | nil => simp
    | cons b l ih =>
      simp only [List.countP_cons, decide_eq_true_eq]
      by_cases c1 : b < x
      · have c2 : ¬ b = x := by grind
        have c3 : b < y := by grind
        simp only [c1, c2, c3, if_true, if_false]; omega
      · by_cases c2 : b = x
        · have c3 : b < y := by grind
          simp only [c1, c2, c3, if_true, if_false]
          rw [c2] at c3
          simp only [c3, if_true]
          have : ¬ x < x := by grind
          simp only [this, if_false]
          omega
        · simp only [c1, c2, if_false]; omega
  have h2 : 0 < same arr y := by
    unfold same
    rw [List.countP_pos_iff]
    exact ⟨arr[j], List.getElem_mem hj, by simp [ey]⟩
  have h3 := Rat.natCast_le_natCast.mpr h1
  have h4 := Rat.natCast_lt_natCast.mpr h2
  have h5 : (0 : Rat) ≤ (same arr x : Rat) := Rat.natCast_nonneg
  have h6 : ((0 : Nat) : Rat) = 0 := rfl
  rw [Rat.natCast_add] at h3
  unfold averagePlace
  grind

/-- C31: the ranks add up to 1 + 2 + … + n. -/
theorem ranks_total (arr : List Rat) (ptr : List Nat) (h : Ascending arr ptr) :
    ((rankArr arr ptr).map (·.getD 0)).sum = (arr.length : Rat) * ((arr.length : Rat) + 1) / 2 := by
  rw [mean_ranks_increasing arr ptr h, List.map_map]
  exact sum_ranks arr

example : Ascending [3, 1, 3, 2] [1, 3, 2, 0] := by
  constructor
  · decide
  · decide +kernel

example : rankArr [3, 1, 3, 2] [1, 3, 2, 0] = [some (7 / 2), some 1, some (7 / 2), some 2] := by decide +kernel

/-! ## C32: sign test -/

/-- C32: exchanging the systems turns the verdict round, if their totals differ. -/
theorem sign_swap_partial (l : List (Rat × Rat)) (zb : Bool) (h : total (l.map (·.1)) ≠ total (l.map (·.2))) :
    signTest (swapped l) zb = - signTest l zb := by
  unfold total at h
  have e1 : (swapped l).map (·.1) = l.map (·.2) := by unfold swapped; rw [List.map_map]; rfl
  have e2 : (swapped l).map (·.2) = l.map (·.1) := by unfold swapped; rw [List.map_map]; rfl
  have e3 : (swapped l).map (fun p => (p.2, p.1)) = l := by
    unfold swapped; rw [List.map_map]
    exact List.map_id l
  unfold signTest
  rw [e1, e2, e3]
  by_cases h1 : (l.map (·.1)).sum > (l.map (·.2)).sum
  · have h2 : ¬ ((l.map (·.2)).sum > (l.map (·.1)).sum) := by grind
    rw [if_pos h1, if_neg h2]
    generalize signCounts l = t
    obtain ⟨a, b, z⟩ := t
    simp only
    omega
  · have h2 : (l.map (·.2)).sum > (l.map (·.1)).sum := by grind
    rw [if_neg h1, if_pos h2]
    unfold swapped
    generalize signCounts (l.map (fun p => (p.2, p.1))) = t
    obtain ⟨a, b, z⟩ := t
    simp only
    omega

/-- Eight speakers for whom the first value is less by one, one speaker for whom it is more by eight. -/
def evenTotals : List (Rat × Rat) := List.replicate 8 (1, 2) ++ [(10, 2)]

/-- Refutation: with equal totals the verdict depends on which system comes first; in either order it is the first. -/
theorem sign_swap_equal_totals : signTest evenTotals true = -1 ∧ signTest (swapped evenTotals) true = -1 := by
  decide +kernel

/-- C32: with up to 20 speakers, a difference is reported exactly if the split of the speakers – ties shared out half
and half, an odd one to the system with the lower total – is not even, and so uneven a split has a chance below 5%. -/
theorem sign_significant_partial (l : List (Rat × Rat)) (zb : Bool) (hn : l.length ≤ 20)
    (ht : total (l.map (·.1)) > total (l.map (·.2))) (hi lo ties : Nat)
    (h1 : hi = smaller (5 / 1000) (swapped l)) (h2 : lo = smaller (5 / 1000) l) (h3 : hi + lo + ties = l.length) :
    signTest l zb ≠ 0 ↔
      (hi + ties / 2 ≠ lo + (ties + 1) / 2 ∧ splitProb (min (hi + ties / 2) (lo + (ties + 1) / 2)) l.length < 1 / 20) := by
  obtain ⟨hc, hl⟩ := signCounts_eq l
  unfold swapped at h1
  unfold total at ht
  rw [← h1, ← h2] at hc hl
  unfold signTest
  rw [if_pos ht, hc]
  simp only
  rw [Int.mul_one, show l.length - hi - lo = ties by omega, ← h3]
  exact signAnalysis_small hi lo ties zb (by omega)

example : signTest [(5, 1), (5, 1), (5, 1), (5, 1), (5, 1), (5, 1)] true = 1 := by decide +kernel
example : signTest [(5, 1), (5, 1), (5, 1), (5, 1), (5, 1)] true = 0 := by decide +kernel

/-- Refutation of "only if the chance is below 5%": with more than 20 speakers every uneven split is reported as a
difference. -/
theorem sign_large_always (l : List (Rat × Rat)) (zb : Bool) (hn : 21 ≤ l.length)
    (ht : total (l.map (·.1)) > total (l.map (·.2))) (hi lo ties : Nat)
    (h1 : hi = smaller (5 / 1000) (swapped l)) (h2 : lo = smaller (5 / 1000) l) (h3 : hi + lo + ties = l.length)
    (hne : hi + ties / 2 ≠ lo + (ties + 1) / 2) : signTest l zb ≠ 0 := by
  obtain ⟨hc, hl⟩ := signCounts_eq l
  unfold swapped at h1
  unfold total at ht
  rw [← h1, ← h2] at hc hl
  unfold signTest
  rw [if_pos ht, hc]
  simp only
  rw [Int.mul_one, show l.length - hi - lo = ties by omega]
  exact signAnalysis_large hi lo ties zb (by omega) hne

example : signTest (List.replicate 11 (2, 1) ++ List.replicate 10 (1, 2)) true ≠ 0 := by decide +kernel

/-- The system named as the better one is the one with the better total. -/
theorem sign_names_better_total (l : List (Rat × Rat)) (zb : Bool) :
    (signTest l zb = -1 → if zb then total (l.map (·.1)) ≤ total (l.map (·.2)) else total (l.map (·.2)) < total (l.map (·.1))) ∧
    (signTest l zb = 1 → if zb then total (l.map (·.2)) < total (l.map (·.1)) else total (l.map (·.1)) ≤ total (l.map (·.2))) := by
  unfold signTest total
  by_cases h : (l.map (·.1)).sum > (l.map (·.2)).sum
  · rw [if_pos h]
    generalize signCounts l = t
    obtain ⟨a, b, z⟩ := t
    have := signAnalysis_sign a b z zb
    simp only
    cases zb with
    | true =>
      simp only [if_true] at this ⊢
      exact ⟨by intro h1; omega, by intro _; exact h⟩
    | false =>
      simp only [Bool.false_eq_true, if_false] at this ⊢
      exact ⟨by intro _; exact h, by intro h1; omega⟩
  · rw [if_neg h]
    generalize signCounts (l.map (fun p => (p.2, p.1))) = t
    obtain ⟨a, b, z⟩ := t
    have := signAnalysis_sign a b z zb
    simp only
    cases zb with
    | true =>
      simp only [if_true] at this ⊢
      exact ⟨by intro _; grind, by intro h1; omega⟩
    | false =>
      simp only [Bool.false_eq_true, if_false] at this ⊢
      exact ⟨by intro h1; omega, by intro _; grind⟩

/-- Refutation of "the better system is better for more speakers": the first has fewer errors for eight of nine
speakers, yet the second is named. -/
theorem sign_wrong_direction :
    signTest (List.replicate 8 (1, 2) ++ [(20, 2)]) true = 1 ∧
    smaller (5 / 1000) (List.replicate 8 (1, 2) ++ [(20, 2)]) = 8 ∧
    smaller (5 / 1000) (swapped (List.replicate 8 (1, 2) ++ [(20, 2)])) = 1 := by
  decide +kernel

/-! ## C33: McNemar test -/

/-- C33: exchanging the systems turns the verdict round. -/
theorem mcNemar_swap (a b : Nat) : mcNemar b a = - mcNemar a b := by
  unfold mcNemar
  rw [acc_min_comm]
  by_cases h : a = b
  · simp [h]
  · rw [if_neg (show ¬ ((a = 0 ∧ b = 0) ∨ a = b) by omega), if_neg (show ¬ ((b = 0 ∧ a = 0) ∨ b = a) by omega)]
    by_cases h2 : 2 * accBinomial (min a b) (a + b) (1 / 2) < 1 / 20
    · rw [if_pos h2, if_pos h2]
      by_cases h3 : a > b
      · rw [if_pos h3, if_neg (by omega)]
      · rw [if_neg h3, if_pos (by omega)]; rfl
    · rw [if_neg h2, if_neg h2]; rfl

/-- C33: the better system is the one with fewer errors of its own. -/
theorem mcNemar_names_fewer (a b : Nat) : (mcNemar a b = -1 → a < b) ∧ (mcNemar a b = 1 → b < a) := by
  unfold mcNemar
  by_cases h : a = b
  · simp [h]
  · rw [if_neg (by omega)]
    by_cases h2 : 2 * accBinomial (min a b) (a + b) (1 / 2) < 1 / 20
    · rw [if_pos h2]
      by_cases h3 : a > b
      · rw [if_pos h3]; exact ⟨by intro h4; omega, by intro _; omega⟩
      · rw [if_neg h3]; exact ⟨by intro _; omega, by intro h4; omega⟩
    · rw [if_neg h2]; exact ⟨by intro h4; omega, by intro h4; omega⟩

/-- C33: with up to 20 sentences only one of the systems gets wrong, a difference is reported exactly if so uneven a
split has a chance below 5%. -/
theorem mcNemar_significant_partial (a b : Nat) (hn : a + b ≤ 20) :
    mcNemar a b ≠ 0 ↔ (a ≠ b ∧ splitProb (min a b) (a + b) < 1 / 20) := by
  unfold mcNemar
  by_cases h : a = b
  · simp [h]
  · rw [if_neg (by omega), accBinomial_exact _ _ hn (by omega)]
    by_cases h2 : splitProb (min a b) (a + b) < 1 / 20
    · rw [if_pos h2]
      by_cases h3 : a > b
      · rw [if_pos h3]; simp [h, h2]
      · rw [if_neg h3]; simp [h, h2]
    · rw [if_neg h2]; simp [h2]

example : mcNemar 1 9 = -1 := by decide +kernel
example : mcNemar 2 8 = 0 := by decide +kernel

/-- Refutation: from 21 such sentences on every uneven split is reported as a difference. -/
theorem mcNemar_large_always (a b : Nat) (hn : 21 ≤ a + b) (h : a ≠ b) : mcNemar a b = if a > b then 1 else -1 := by
  unfold mcNemar
  rw [if_neg (by omega), if_pos (accBinomial_approx _ _ hn (by omega))]

/-- … even if so uneven a split is certain: `m` against `m + 1`. -/
theorem mcNemar_false_alarm (m : Nat) (hm : 10 ≤ m) : mcNemar m (m + 1) = -1 ∧ splitProb (min m (m + 1)) (m + (m + 1)) = 1 := by
  constructor
  · rw [mcNemar_large_always m (m + 1) (by omega) (by omega), if_neg (by omega)]
  · unfold splitProb
    have h : (tosses (m + (m + 1))).countP (fun s => min (s.count true) (s.count false) ≤ min m (m + 1)) =
        (tosses (m + (m + 1))).length := by
      rw [List.countP_eq_length]
      intro s hs
      have hl := tosses_mem _ s hs
      have hc : s.count true + s.count false = s.length := by
        clear hs hl
        induction s with
        | nil => rfl
        | cons b a ih => cases b <;> simp <;> omega
      simp only [decide_eq_true_eq]
      omega
    rw [h, tosses_len]
    have hp := half_pow (m + (m + 1))
    have hne : ((2 ^ (m + (m + 1)) : Nat) : Rat) ≠ 0 := by
      intro h; rw [h] at hp; grind
    rw [Rat.div_def, Rat.mul_inv_cancel _ hne]

variable {N I : Type} [DecidableEq N] [DecidableEq I]

/-- C33: the table counts the sentences both systems have, by who has an error; for systems in which no speaker and no
sentence of a speaker occurs twice. -/
theorem mcNemar_table (x y : Results N I) (hy : Distinct y) (a b : Bool) : mcTable x y a b = both x y a b :=
  mcTable_both x y hy a b

/-- C33: the whole test, exchanged. -/
theorem mcNemar_by_sent_swap (x y : Results N I) (hx : Distinct x) (hy : Distinct y) :
    mcNemarBySent y x = - mcNemarBySent x y := by
  unfold mcNemarBySent
  rw [mcNemar_table y x hx, mcNemar_table y x hx, mcNemar_table x y hy, mcNemar_table x y hy,
    both_swap x y hx hy false true, both_swap x y hx hy true false]
  exact mcNemar_swap _ _

/-- C33: the whole test names the system with fewer sentences only it gets wrong. -/
theorem mcNemar_by_sent_names_fewer (x y : Results N I) (hy : Distinct y) :
    (mcNemarBySent x y = -1 → both x y true false < both x y false true) ∧
    (mcNemarBySent x y = 1 → both x y false true < both x y true false) := by
  unfold mcNemarBySent
  rw [mcNemar_table x y hy, mcNemar_table x y hy]
  exact mcNemar_names_fewer _ _

/-- The error mark of a sentence: some word is not correct. -/
theorem hasError_iff (l : List Bool) : hasError l = true ↔ ∃ c ∈ l, c = false := by
  induction l with
  | nil => simp [hasError]
  | cons c l ih => cases c <;> simp [hasError, ih]

/-- Two small systems. -/
example : Distinct [("a", [(1, true), (2, false)]), ("b", [(1, false)])] ∧
    mcTable [("a", [(1, true), (2, false)]), ("b", [(1, false)])] [("b", [(1, true)]), ("a", [(2, false), (1, false)])]
      true false = 1 := by
  refine ⟨⟨by decide, by decide⟩, by decide⟩

/-! ## C34: Wilcoxon test -/

/-- C34: every speaker is counted on one side, and the two rank sums add up to 1 + 2 + … + n. -/
theorem wilcoxon_sums (d : List Rat) (ptr : List Nat) (h : Ascending (d.map absR) ptr) :
    (wSums d ptr).plus + (wSums d ptr).minus = d.length ∧
    (wSums d ptr).plusRank + (wSums d ptr).minusRank = (d.length : Rat) * ((d.length : Rat) + 1) / 2 := by
  have hr := ranks_total _ _ h
  have hm := mean_ranks_increasing _ _ h
  have hl : ((rankArr (d.map absR) ptr).map (·.getD 0)).length = d.length := by rw [hm]; simp
  obtain ⟨h1, h2⟩ := wLoop_sums (d.zip ((rankArr (d.map absR) ptr).map (·.getD 0))) ⟨0, 0, 0, 0, 0⟩
  unfold wSums
  constructor
  · rw [h1, List.length_zip, hl]; simp
  · rw [h2, List.map_snd_zip (by omega), hr, List.length_map]
    simp only
    grind

/-- C34: without ties a side's count is the number of speakers with that sign, and its rank sum the sum of the mean
ranks of the sizes of their differences. -/
theorem wilcoxon_untied (d : List Rat) (ptr : List Nat) (h : Ascending (d.map absR) ptr)
    (hu : ∀ x ∈ d, x < -5 / 1000 ∨ 5 / 1000 < x) :
    (wSums d ptr).plus = d.countP (fun x => 0 < x) ∧
    (wSums d ptr).plusRank = ((d.filter (fun x => 0 < x)).map
      (fun x => averagePlace (below (d.map absR) (absR x)) (same (d.map absR) (absR x)))).sum := by
  have hm := mean_ranks_increasing _ _ h
  have hz : d.zip ((rankArr (d.map absR) ptr).map (·.getD 0)) =
      d.map (fun x => (x, averagePlace (below (d.map absR) (absR x)) (same (d.map absR) (absR x)))) := by
    rw [hm, List.map_map, List.map_map]
    generalize d.map absR = w
    induction d with
    | nil => rfl
    | cons a l ih =>
      rw [List.map_cons, List.map_cons, List.zip_cons_cons]
      congr 1
      clear ih h hu hm
      induction l with
      | nil => rfl
      | cons b l ih => rw [List.map_cons, List.map_cons, List.zip_cons_cons, ih]; rfl
  obtain ⟨h1, h2⟩ := wLoop_untied (d.zip ((rankArr (d.map absR) ptr).map (·.getD 0))) ⟨0, 0, 0, 0, 0⟩ (by
    rw [hz]
    intro p hp
    obtain ⟨x, hx, rfl⟩ := List.mem_map.mp hp
    have := hu x hx
    rw [absR_gt _ _ (by decide +kernel)]
    simp only
    grind)
  unfold wSums
  rw [h1, h2, hz, List.countP_map, List.filter_map, List.map_map]
  simp only [Nat.zero_add, Rat.zero_add]
  exact ⟨rfl, rfl⟩

/-- C34: exchanging the systems turns the verdict round, if their totals differ. -/
theorem wilcoxon_swap (l : List (Rat × Rat)) (ptr : List Nat) (zb : Bool)
    (h : total (l.map (·.1)) ≠ total (l.map (·.2))) :
    wilcoxon (swapped l) ptr zb = - wilcoxon l ptr zb := by
  unfold total at h
  have e1 : (swapped l).map (·.1) = l.map (·.2) := by unfold swapped; rw [List.map_map]; rfl
  have e2 : (swapped l).map (·.2) = l.map (·.1) := by unfold swapped; rw [List.map_map]; rfl
  have e3 : (swapped l).map (fun p => p.2 - p.1) = l.map (fun p => p.1 - p.2) := by
    unfold swapped; rw [List.map_map]; rfl
  have e4 : (swapped l).map (fun p => p.1 - p.2) = l.map (fun p => p.2 - p.1) := by
    unfold swapped; rw [List.map_map]; rfl
  unfold wilcoxon
  rw [e1, e2, e3, e4]
  by_cases h1 : (l.map (·.1)).sum > (l.map (·.2)).sum
  · have h2 : ¬ ((l.map (·.2)).sum > (l.map (·.1)).sum) := by grind
    rw [if_pos h1, if_neg h2]
    simp only
    omega
  · have h2 : (l.map (·.2)).sum > (l.map (·.1)).sum := by grind
    rw [if_neg h1, if_pos h2]
    simp only
    omega

/-- C34: a difference is reported exactly if the rank sum of the differences in favour of either side is more than
1.96 standard deviations away from its expected value n(n+1)/4; the variance is n(n+1)(2n+1)/24. -/
theorem wilcoxon_significant (d : List Rat) (ptr : List Nat) (zb : Bool) (h : Ascending (d.map absR) ptr) :
    wilcoxonAnalysis (wSums d ptr).plus (wSums d ptr).minus (wSums d ptr).plusRank (wSums d ptr).minusRank zb ≠ 0 ↔
      ((wSums d ptr).plusRank - (d.length : Rat) * ((d.length : Rat) + 1) / 4) *
        ((wSums d ptr).plusRank - (d.length : Rat) * ((d.length : Rat) + 1) / 4) >
      (196 / 100) * (196 / 100) * ((d.length : Rat) * ((d.length : Rat) + 1) * (2 * (d.length : Rat) + 1) / 24) := by
  obtain ⟨h1, h2⟩ := wilcoxon_sums d ptr h
  unfold wilcoxonAnalysis
  simp only
  rw [h1, zThreshold_eq]
  generalize (wSums d ptr).plusRank = A at h2 ⊢
  generalize (wSums d ptr).minusRank = B at h2 ⊢
  have e0 : (((d.length * (d.length + 1) * (2 * d.length + 1) : Nat)) : Rat) =
      (d.length : Rat) * ((d.length : Rat) + 1) * (2 * (d.length : Rat) + 1) := by
    simp only [Rat.natCast_mul, Rat.natCast_add]; rfl
  rw [e0]
  have hsq : ((if (wSums d ptr).plus < (wSums d ptr).minus then A else B) - (d.length : Rat) * ((d.length : Rat) + 1) / 4) *
      ((if (wSums d ptr).plus < (wSums d ptr).minus then A else B) - (d.length : Rat) * ((d.length : Rat) + 1) / 4) =
      (A - (d.length : Rat) * ((d.length : Rat) + 1) / 4) * (A - (d.length : Rat) * ((d.length : Rat) + 1) / 4) := by
    by_cases hlt : (wSums d ptr).plus < (wSums d ptr).minus
    · rw [if_pos hlt]
    · rw [if_neg hlt]
      have hB : B = (d.length : Rat) * ((d.length : Rat) + 1) / 2 - A := by grind
      rw [hB]
      grind
  rw [hsq]
  split
  · rename_i hc
    constructor
    · intro _; exact hc
    · intro _
      cases zb <;> by_cases hlt : (wSums d ptr).plus < (wSums d ptr).minus <;> simp [hlt]
  · rename_i hc
    simp only [ne_eq, not_true, false_iff]
    exact hc

/-- Differences for which the verdict is −1 and the hypotheses hold. -/
example : Ascending ([1, 2, 3, 4, 5, 6].map absR) [0, 1, 2, 3, 4, 5] ∧
    wilcoxon [(2, 1), (3, 1), (4, 1), (5, 1), (6, 1), (7, 1)] [0, 1, 2, 3, 4, 5] false = -1 ∧
    wilcoxon [(2, 1), (3, 1), (4, 1), (5, 1), (6, 1), (7, 1)] [0, 1, 2, 3, 4, 5] true = 1 := by
  refine ⟨⟨by decide +kernel, by decide +kernel⟩, by decide +kernel, by decide +kernel⟩

/-! ## C67: the system the Wilcoxon test names -/

theorem analysis_direction (a b : Nat) (x y : Rat) :
    (wilcoxonAnalysis a b x y true = -1 → a < b) ∧ (wilcoxonAnalysis a b x y true = 1 → b ≤ a) := by
  unfold wilcoxonAnalysis
  simp only
  by_cases h : a < b
  · simp only [h, if_true, Bool.not_false]
    split
    · exact ⟨fun _ => trivial, fun h => by omega⟩
    · exact ⟨fun h => by omega, fun h => by omega⟩
  · simp only [h, if_false, if_true, Bool.not_true, Bool.false_eq_true]
    split
    · exact ⟨fun h => by omega, fun _ => by omega⟩
    · exact ⟨fun h => by omega, fun h => by omega⟩

/-- What is true instead of C67: for error rates without ties, the system named is better for at least as many speakers
as the other one. -/
theorem wilcoxon_names_more_speakers_partial (l : List (Rat × Rat)) (ptr : List Nat)
    (h : Ascending (l.map (fun p => absR (p.1 - p.2))) ptr)
    (hu : ∀ p ∈ l, p.1 - p.2 < -5 / 1000 ∨ 5 / 1000 < p.1 - p.2) :
    (wilcoxon l ptr true = -1 → smaller 0 (swapped l) ≤ smaller 0 l) ∧
    (wilcoxon l ptr true = 1 → smaller 0 l ≤ smaller 0 (swapped l)) := by
  have key : ∀ m : List (Rat × Rat), (∀ p ∈ m, p.1 - p.2 < -5 / 1000 ∨ 5 / 1000 < p.1 - p.2) →
      smaller 0 m + smaller 0 (swapped m) = m.length ∧
      (m.map (fun p => p.1 - p.2)).countP (fun x => 0 < x) = smaller 0 (swapped m) := by
    intro m
    unfold smaller swapped
    induction m with
    | nil => intro _; exact ⟨rfl, rfl⟩
    | cons p m ih =>
      intro hm
      obtain ⟨i1, i2⟩ := ih (fun q hq => hm q (List.mem_cons_of_mem _ hq))
      have hp := hm p List.mem_cons_self
      simp only [List.map_cons, List.countP_cons, i2, decide_eq_true_eq, List.length_cons]
      by_cases c : p.1 < p.2
      · have c1 : 0 < p.2 - p.1 := by grind
        have c2 : ¬ p.2 < p.1 := by grind
        have c3 : ¬ 0 < p.1 - p.2 := by grind
        simp only [c, c1, c2, c3, and_self, if_true, if_false]
        exact ⟨by omega, trivial⟩
      · have c1 : p.2 < p.1 := by grind
        have c3 : 0 < p.1 - p.2 := by grind
        simp only [c, c1, c3, false_and, and_self, if_true, if_false]
        exact ⟨by omega, trivial⟩
  have hsw : swapped (swapped l) = l := by
    unfold swapped; rw [List.map_map]; exact List.map_id l
  unfold wilcoxon
  by_cases ht : (l.map (·.1)).sum > (l.map (·.2)).sum
  · rw [if_pos ht]
    simp only
    have ha : Ascending ((l.map (fun p => p.1 - p.2)).map absR) ptr := by rw [List.map_map]; exact h
    obtain ⟨s1, s2⟩ := wilcoxon_sums _ _ ha
    obtain ⟨u1, _⟩ := wilcoxon_untied _ _ ha (by
      intro x hx
      obtain ⟨p, hp, rfl⟩ := List.mem_map.mp hx
      exact hu p hp)
    obtain ⟨k1, k2⟩ := key l hu
    rw [List.length_map] at s1
    rw [k2] at u1
    have := analysis_direction (wSums (l.map (fun p => p.1 - p.2)) ptr).plus (wSums (l.map (fun p => p.1 - p.2)) ptr).minus
      (wSums (l.map (fun p => p.1 - p.2)) ptr).plusRank (wSums (l.map (fun p => p.1 - p.2)) ptr).minusRank
    refine ⟨fun hv => ?_, fun hv => ?_⟩
    · have := this.1 (by omega); omega
    · have := this.2 (by omega); omega
  · rw [if_neg ht]
    simp only
    have eabs : (l.map (fun p => p.2 - p.1)).map absR = l.map (fun p => absR (p.1 - p.2)) := by
      rw [List.map_map]
      apply List.map_congr_left
      intro p _
      simp only [Function.comp]
      unfold absR
      by_cases c : p.2 - p.1 < 0
      · rw [if_pos c]
        by_cases c2 : p.1 - p.2 < 0
        · rw [if_pos c2]; grind
        · rw [if_neg c2]; grind
      · rw [if_neg c]
        by_cases c2 : p.1 - p.2 < 0
        · rw [if_pos c2]; grind
        · rw [if_neg c2]; grind
    have ha : Ascending ((l.map (fun p => p.2 - p.1)).map absR) ptr := by rw [eabs]; exact h
    obtain ⟨s1, s2⟩ := wilcoxon_sums _ _ ha
    obtain ⟨u1, _⟩ := wilcoxon_untied _ _ ha (by
      intro x hx
      obtain ⟨p, hp, rfl⟩ := List.mem_map.mp hx
      have := hu p hp
      grind)
    obtain ⟨k1, k2⟩ := key (swapped l) (by
      intro p hp
      unfold swapped at hp
      obtain ⟨q, hq, rfl⟩ := List.mem_map.mp hp
      have := hu q hq
      simp only
      grind)
    have e4 : (swapped l).map (fun p => p.1 - p.2) = l.map (fun p => p.2 - p.1) := by
      unfold swapped; rw [List.map_map]; rfl
    rw [e4, hsw] at k2
    rw [hsw] at k1
    have hlen : (swapped l).length = l.length := by unfold swapped; simp
    rw [List.length_map] at s1
    rw [k2] at u1
    have := analysis_direction (wSums (l.map (fun p => p.2 - p.1)) ptr).plus (wSums (l.map (fun p => p.2 - p.1)) ptr).minus
      (wSums (l.map (fun p => p.2 - p.1)) ptr).plusRank (wSums (l.map (fun p => p.2 - p.1)) ptr).minusRank
    refine ⟨fun hv => ?_, fun hv => ?_⟩
    · have := this.2 (by omega); omega
    · have := this.1 (by omega); omega

/-- Nineteen speakers for whom the first system has 1000 to 1018 errors more, 21 for whom it has 1 to 21 fewer. -/
def lopsided : List (Rat × Rat) :=
  (List.range 21).map (fun (i : Nat) => (100, 101 + (i : Rat))) ++
  (List.range 19).map (fun (i : Nat) => (1100 + (i : Rat), 100))

/-- Refutation of "the system named is the one the ranks favour": the differences against the first system have the larger
rank sum (589 against 231) and the first system is named as the better one, since it is better for more speakers. -/
theorem wilcoxon_wrong_direction :
    wilcoxon lopsided (List.range 40) true = -1 ∧
    Ascending ((lopsided.map (fun p => p.1 - p.2)).map absR) (List.range 40) ∧
    (wSums (lopsided.map (fun p => p.1 - p.2)) (List.range 40)).plusRank = 589 ∧
    (wSums (lopsided.map (fun p => p.1 - p.2)) (List.range 40)).minusRank = 231 := by
  refine ⟨by decide +kernel, ⟨by decide +kernel, by decide +kernel⟩, by decide +kernel, by decide +kernel⟩

end Verif.Stats
