import Verif.Anovar.Lemmas
/-!
# Friedman's analysis of variance by ranks: properties

Verdicts are as in the code: −1 the first system is better, 1 the second, 0 no difference.
-/
set_option autoImplicit false
namespace Verif.Anovar
open Verif.Stats

/-- `mapM` when everything is defined. -/
theorem mapM_some {X Y : Type} (f : X → Option Y) (g : X → Y) : ∀ l : List X, (∀ x ∈ l, f x = some (g x)) →
    l.mapM f = some (l.map g)
  | [], _ => rfl
  | x :: l, h => by
    rw [List.mapM_cons, h x (List.mem_cons_self ..), mapM_some f g l (fun y hy => h y (List.mem_cons_of_mem _ hy))]
    rfl

theorem analyze_spec (lim n m : Nat) (rows : Table) (hn : 2 ≤ n) (hm1 : 1 ≤ m) (hm : rows.length = m) (h : ∀ r ∈ rows, Placed n r)
    (ht : ∀ r ∈ rows, ties lim n r = some (tied r)) :
    analyze lim n m rows = some (friedman m n rows, differs n (friedman m n rows)) := by
  have e : adjust lim n m rows = some (1 - sumOf tied rows / ((m : Rat) * (n : Rat) * ((n : Rat) * (n : Rat) - 1))) := by
    unfold adjust
    rw [mapM_some _ tied rows ht]
    rfl
  unfold analyze
  rw [e]
  dsimp only
  rw [statistic_spec n m rows hn hm1 hm h]

/-! ### C170 -/

/-- C170: the statistic for the systems is Friedman's, with the correction for ties, of the places of the systems for each speaker;
a difference is found exactly if it exceeds the level for 5%. -/
theorem friedman_systems (dec : Bool) (b t : Nat) (p : Table) (ptrs : List (List Nat)) (hb : 1 ≤ b) (ht : 2 ≤ t) (ht' : t ≤ 31)
    (hp : Shape b t p) (ho : Orders dec p ptrs) :
    ∃ d, analyze t t b (rankRows p ptrs) = some (friedman b t (p.map (places dec)), d) ∧
      (d = true ↔ friedman b t (p.map (places dec)) > ((levels.getD (t - 2) 0 : Nat) : Rat) / 100) := by
  rw [rankRows_spec dec p ptrs ho]
  have hpl : ∀ r ∈ p.map (places dec), Placed t r := by
    intro r hr
    obtain ⟨x, hx, e⟩ := List.mem_map.1 hr
    rw [← e, ← hp.2 x hx]
    exact placed dec x
  refine ⟨_, analyze_spec t t b _ ht hb (by rw [List.length_map]; exact hp.1) hpl
    (fun r hr => ties_all t r (hpl r hr).pos (hpl r hr).len), ?_⟩
  unfold differs
  rw [decide_eq_true_eq, Nat.min_eq_left (by omega)]

/-- Four speakers and three systems, with a tie. -/
def exR : Table := [[3, 1, 2], [5, 4, 4], [9, 2, 7], [6, 1, 3]]

def exRptrs : List (List Nat) := [[1, 2, 0], [1, 2, 0], [1, 2, 0], [1, 2, 0]]

theorem exR_orders : Shape 4 3 exR ∧ Orders false exR exRptrs := by
  refine ⟨by unfold Shape; decide, ⟨by decide, ?_⟩⟩
  have : ∀ y ∈ exR.zip exRptrs, Ascending y.1 y.2 := by
    unfold Ascending
    decide +kernel
  intro x hx
  exact this x hx

/-- The hypotheses are met: with the tie the statistic is 38 / 5 and the systems differ. -/
example : Shape 4 3 exR ∧ Orders false exR exRptrs ∧ friedman 4 3 (exR.map (places false)) = 38 / 5 ∧
    analyze 3 3 4 (rankRows exR exRptrs) = some (38 / 5, true) :=
  ⟨exR_orders.1, exR_orders.2, by decide +kernel, by decide +kernel⟩

/-- The levels are those of chi-square, rounded to hundredths, for `t - 1` degrees of freedom. -/
theorem levels_right : levels.length = 30 ∧ chi5.length = 30 ∧
    ∀ x ∈ levels.zip chi5, 10 * x.1 ≤ x.2 + 5 ∧ x.2 ≤ 10 * x.1 + 5 := by decide

/-! ### C171 -/

/-- C171: the statistic for the speakers is Friedman's, with the correction for ties, of the places of the speakers for each system.
Missing: tables with fewer systems than speakers and ties, and tables with more systems than speakers (see below). -/
theorem friedman_speakers_partial (dec : Bool) (b t : Nat) (p : Table) (ptrs : List (List Nat)) (hb : 2 ≤ b) (ht : 1 ≤ t)
    (hp : Shape b t p) (ho : Orders dec (columns t p) ptrs) (hbt : t = b ∨ t ≤ b ∧ ∀ c ∈ columns t p, ∀ v, same (places dec c) v ≤ 1) :
    ∃ d, analyze t b t (rankRows (columns t p) ptrs) = some (friedman t b ((columns t p).map (places dec)), d) := by
  rw [rankRows_spec dec _ ptrs ho]
  have hpl : ∀ r ∈ (columns t p).map (places dec), Placed b r := by
    intro r hr
    obtain ⟨x, hx, e⟩ := List.mem_map.1 hr
    rw [← e]
    obtain ⟨j, _, e'⟩ := List.mem_map.1 hx
    have : x.length = b := by rw [← e', ← hp.1]; unfold column; simp
    rw [← this]
    exact placed dec x
  refine ⟨_, analyze_spec t b t _ hb ht (by simp [columns]) hpl (fun r hr => ?_)⟩
  rcases hbt with e | ⟨h1, h2⟩
  · rw [e]; exact ties_all b r (hpl r hr).pos (hpl r hr).len
  · obtain ⟨x, hx, e⟩ := List.mem_map.1 hr
    rw [← e] at hr ⊢
    exact ties_none t b _ (hpl _ hr).pos (hpl _ hr).len (h2 x hx) h1

/-- C170 and C171 for the whole analysis: both statistics are Friedman's, and the verdicts are those of the comparison of the sums of the
places.  Missing as for `friedman_speakers_partial`. -/
theorem analysis_partial (dec : Bool) (b t : Nat) (p : Table) (ptrsT ptrsB : List (List Nat)) (hb : 2 ≤ b) (ht : 2 ≤ t) (ht' : t ≤ 31)
    (hp : Shape b t p) (hoT : Orders dec p ptrsT) (hoB : Orders dec (columns t p) ptrsB)
    (hbt : t = b ∨ t ≤ b ∧ ∀ c ∈ columns t p, ∀ v, same (places dec c) v ≤ 1) :
    ∃ d w d', computeAnovar b t p ptrsT ptrsB =
        some ((friedman b t (p.map (places dec)), d), w, (friedman t b ((columns t p).map (places dec)), d')) ∧
      (d = true ↔ friedman b t (p.map (places dec)) > ((levels.getD (t - 2) 0 : Nat) : Rat) / 100) ∧
      ∀ i j, w i j = statRank t b (rankSums t (p.map (places dec))) i j := by
  obtain ⟨d, h1, h2⟩ := friedman_systems dec b t p ptrsT (by omega) ht ht' hp hoT
  obtain ⟨d', h3⟩ := friedman_speakers_partial dec b t p ptrsB hb (by omega) hp hoB hbt
  refine ⟨d, _, d', ?_, h2, fun i j => rfl⟩
  unfold computeAnovar
  rw [h1, h3, rankRows_spec dec p ptrsT hoT]

/-- The hypotheses are met by a table with fewer systems than speakers and no ties, and by a square table with ties. -/
example : (Shape 3 2 [[1, 4], [3, 5], [2, 7]] ∧ ∀ c ∈ columns 2 [[1, 4], [3, 5], [2, 7]], ∀ v ∈ places false c,
      same (places false c) v ≤ 1) ∧
    analyze 2 3 2 (rankRows (columns 2 [[1, 4], [3, 5], [2, 7]]) [[0, 2, 1], [0, 1, 2]]) = some (3, false) ∧
    (analyze 2 2 2 (rankRows (columns 2 [[1, 1], [1, 2]]) [[0, 1], [0, 1]])) = some (1, false) :=
  ⟨⟨by unfold Shape; decide, by decide +kernel⟩, by decide +kernel, by decide +kernel⟩

/-- With more systems than speakers the analysis reads beyond the end of an array, whatever the results are. -/
theorem more_systems_undefined (b t : Nat) (p : Table) (ptrsT ptrsB : List (List Nat)) (h : b < t) (hl : ptrsB.length = t) :
    computeAnovar b t p ptrsT ptrsB = none := by
  have : analyze t b t (rankRows (columns t p) ptrsB) = none := by
    unfold analyze adjust
    have : (rankRows (columns t p) ptrsB).mapM (ties t b) = none := by
      cases hr : rankRows (columns t p) ptrsB with
      | nil =>
        have := congrArg List.length hr
        unfold rankRows at this
        rw [List.length_zipWith, hl] at this
        simp [columns] at this
        omega
      | cons r rows =>
        rw [List.mapM_cons, ties_beyond t b r h]
        rfl
    rw [this]
  unfold computeAnovar
  rw [this]
  split
  · next h => cases h
  · rfl

/-- Four speakers and two systems; the last two speakers are tied. -/
def exP : Table := [[1, 1], [2, 2], [3, 3], [3, 3]]

/-- With fewer systems than speakers ties are missed: here the statistic for the speakers is 54 / 10 instead of 6. -/
theorem ties_missed : Shape 4 2 exP ∧ Orders false (columns 2 exP) [[0, 1, 2, 3], [0, 1, 2, 3]] ∧
    (analyze 2 4 2 (rankRows (columns 2 exP) [[0, 1, 2, 3], [0, 1, 2, 3]])).map (·.1) = some (54 / 10) ∧
    friedman 2 4 ((columns 2 exP).map (places false)) = 6 := by
  refine ⟨by unfold Shape; decide, ?_, by decide +kernel, by decide +kernel⟩
  refine ⟨by decide, ?_⟩
  intro x hx
  rw [show (columns 2 exP).zip [[0, 1, 2, 3], [0, 1, 2, 3]] = [([1, 2, 3, 3], [0, 1, 2, 3]), ([1, 2, 3, 3], [0, 1, 2, 3])] from by
    decide +kernel] at hx
  have : x = ([1, 2, 3, 3], [0, 1, 2, 3]) := by simpa using hx
  rw [this]
  show Ascending _ _
  constructor
  · decide
  · decide +kernel

/-! ### C172 -/

/-- The score used: 1.881 for two systems, and 2.33, the one for 1%, for any larger number of them, although the area is 5% divided
by `t (t - 1)`. -/
theorem score_used (t : Nat) (ht : 2 ≤ t) : compValue t = if t = 2 then 1881 / 1000 else 2330 / 1000 := by
  by_cases h : t = 2
  · subst h
    rw [if_pos rfl]
    decide +kernel
  · rw [if_neg h]
    have h3 : (3 : Rat) ≤ (t : Rat) := Rat.natCast_le_natCast.mpr (show 3 ≤ t by omega)
    have hp : (6 : Rat) ≤ (t : Rat) * ((t : Rat) - 1) := by
      have := Rat.mul_nonneg (a := (t : Rat) - 3) (b := (t : Rat) + 2) (by grind) (by grind)
      grind
    have hlt : (5 : Rat) / 100 / ((t : Rat) * ((t : Rat) - 1)) < ((10 : Nat) : Rat) / 1000 := by
      rw [Rat.div_lt_iff (by grind)]
      grind
    unfold compValue z1tail zLook
    rw [if_pos hlt]
    rfl

theorem compValue_pos (t : Nat) (ht : 2 ≤ t) : 0 < compValue t := by
  rw [score_used t ht]
  split <;> decide +kernel

/-- C172: the comparison of two systems turns round when they are exchanged, names the one with the lower sum of ranks, and finds
every difference of at least `z √(b t (t + 1) / 6)`.
Missing: it also finds smaller ones (see below). -/
theorem comparison_partial (b t : Nat) (sums : List Rat) (i j : Nat) (ht : 2 ≤ t) (hb : 1 ≤ b) :
    statRank t b sums j i = - statRank t b sums i j ∧
    (statRank t b sums i j = -1 → sums.getD i 0 < sums.getD j 0) ∧ (statRank t b sums i j = 1 → sums.getD j 0 < sums.getD i 0) ∧
    (i ≠ j → compValue t * compValue t * ((b : Rat) * (t : Rat) * ((t : Rat) + 1) / 6) ≤
        (sums.getD i 0 - sums.getD j 0) * (sums.getD i 0 - sums.getD j 0) → statRank t b sums i j ≠ 0) := by
  have hz : 0 < compValue t := compValue_pos t ht
  have hq : 0 < (b : Rat) * (t : Rat) * ((t : Rat) - 1) / 6 ∧
      (b : Rat) * (t : Rat) * ((t : Rat) - 1) / 6 ≤ (b : Rat) * (t : Rat) * ((t : Rat) + 1) / 6 := by
    have h1 : (2 : Rat) ≤ (t : Rat) := Rat.natCast_le_natCast.mpr ht
    have h2 : (1 : Rat) ≤ (b : Rat) := Rat.natCast_le_natCast.mpr hb
    have a1 : 0 < (b : Rat) * (t : Rat) := Rat.mul_pos (by grind) (by grind)
    have a2 : 0 < (b : Rat) * (t : Rat) * ((t : Rat) - 1) := Rat.mul_pos a1 (by grind)
    constructor
    · grind
    · grind
  have key : ∀ x y : Rat, compareSums (compValue t) ((b : Rat) * (t : Rat) * ((t : Rat) - 1) / 6) x y =
      - compareSums (compValue t) ((b : Rat) * (t : Rat) * ((t : Rat) - 1) / 6) y x := by
    intro x y
    have hzq : 0 < compValue t * compValue t * ((b : Rat) * (t : Rat) * ((t : Rat) - 1) / 6) := Rat.mul_pos (Rat.mul_pos hz hz) hq.1
    unfold compareSums
    have e : (x - y) * (x - y) = (y - x) * (y - x) := by grind
    rw [e]
    by_cases c : (y - x) * (y - x) ≥ compValue t * compValue t * ((b : Rat) * (t : Rat) * ((t : Rat) - 1) / 6)
    · rw [if_pos c, if_pos c]
      have hne : x ≠ y := by intro e; subst e; grind
      by_cases c1 : x > y
      · rw [if_pos c1, if_neg (by grind)]; rfl
      · rw [if_neg c1, if_pos (by grind)]
    · rw [if_neg c, if_neg c]; rfl
  have dir : ∀ x y : Rat, (compareSums (compValue t) ((b : Rat) * (t : Rat) * ((t : Rat) - 1) / 6) x y = -1 → x < y) ∧
      (compareSums (compValue t) ((b : Rat) * (t : Rat) * ((t : Rat) - 1) / 6) x y = 1 → y < x) := by
    intro x y
    have hzq : 0 < compValue t * compValue t * ((b : Rat) * (t : Rat) * ((t : Rat) - 1) / 6) := Rat.mul_pos (Rat.mul_pos hz hz) hq.1
    unfold compareSums
    by_cases c : (x - y) * (x - y) ≥ compValue t * compValue t * ((b : Rat) * (t : Rat) * ((t : Rat) - 1) / 6)
    · rw [if_pos c]
      have hne : x ≠ y := by intro e; subst e; grind
      by_cases c1 : x > y
      · rw [if_pos c1]; exact ⟨fun h => absurd h (by decide), fun _ => c1⟩
      · rw [if_neg c1]; exact ⟨fun _ => by grind, fun h => absurd h (by decide)⟩
    · rw [if_neg c]; exact ⟨fun h => absurd h (by decide), fun h => absurd h (by decide)⟩
  have large : ∀ x y : Rat, compValue t * compValue t * ((b : Rat) * (t : Rat) * ((t : Rat) + 1) / 6) ≤ (x - y) * (x - y) →
      compareSums (compValue t) ((b : Rat) * (t : Rat) * ((t : Rat) - 1) / 6) x y ≠ 0 := by
    intro x y h
    have hzz : 0 ≤ compValue t * compValue t := Rat.le_of_lt (Rat.mul_pos hz hz)
    have := Rat.mul_le_mul_of_nonneg_left hq.2 hzz
    unfold compareSums
    rw [if_pos (Rat.le_trans this h)]
    split <;> decide
  unfold statRank
  dsimp only
  rcases Nat.lt_trichotomy i j with c | c | c
  · rw [if_pos c, if_neg (by omega : ¬ j < i), if_pos c]
    exact ⟨rfl, (dir _ _).1, (dir _ _).2, fun _ h => large _ _ h⟩
  · subst c
    rw [if_neg (by omega : ¬ i < i), if_neg (by omega : ¬ i < i)]
    exact ⟨rfl, fun h => absurd h (by decide), fun h => absurd h (by decide), fun h => (h rfl).elim⟩
  · rw [if_pos c, if_neg (by omega : ¬ i < j), if_pos c, ← key]
    exact ⟨by rw [key], (dir _ _).1, (dir _ _).2, fun _ h => large _ _ h⟩

/-- The hypotheses are met: three systems and ten speakers with sums 12, 20 and 28; only the first and the last differ by the documented
`2.33 √(10 · 3 · 4 / 6)`, but the code names a better system for every pair. -/
example : compValue 3 * compValue 3 * (10 * 3 * (3 + 1) / 6) ≤ ((12 - 28) * (12 - 28) : Rat) ∧
    ((12 - 20) * (12 - 20) : Rat) < compValue 3 * compValue 3 * (10 * 3 * (3 + 1) / 6) ∧
    statRank 3 10 [12, 20, 28] 0 2 = -1 ∧ statRank 3 10 [12, 20, 28] 0 1 = -1 ∧ statRank 3 10 [12, 20, 28] 2 0 = 1 := by
  decide +kernel

/-! ### C173 -/

/-- C173: no system is named when the sums of ranks are all the same.
Missing: no system is named when the analysis finds no difference (see below). -/
theorem none_named_partial (b t : Nat) (sums : List Rat) (ht : 2 ≤ t) (hb : 1 ≤ b) (h : ∀ i j, i < t → j < t →
    sums.getD i 0 = sums.getD j 0) (i j : Nat) (hi : i < t) (hj : j < t) : statRank t b sums i j = 0 := by
  have hc := comparison_partial b t sums i j ht hb
  have e := h i j hi hj
  have hv : statRank t b sums i j = -1 ∨ statRank t b sums i j = 0 ∨ statRank t b sums i j = 1 := by
    unfold statRank compareSums
    dsimp only
    split
    · split
      · split <;> simp
      · simp
    · split
      · split
        · split <;> simp
        · simp
      · simp
  rcases hv with h1 | h1 | h1
  · exact absurd (hc.2.1 h1) (by rw [e]; exact Rat.lt_irrefl)
  · exact h1
  · exact absurd (hc.2.2.1 h1) (by rw [e]; exact Rat.lt_irrefl)

example : statRank 2 4 [6, 6] 0 1 = 0 := by decide +kernel

/-- Two systems and three speakers, all with lower values for the first system. -/
def exQ : Table := [[1, 2], [3, 5], [2, 7]]

/-- C173 does not hold: the comparison names a system although the analysis finds no difference, and although the difference of the
sums of ranks is below `z √(b t (t + 1) / 6)`. -/
theorem named_without_difference : Shape 3 2 exQ ∧ Orders false exQ [[0, 1], [0, 1], [0, 1]] ∧
    (analyze 2 2 3 (rankRows exQ [[0, 1], [0, 1], [0, 1]])).map (·.2) = some false ∧
    statRank 2 3 (rankSums 2 (rankRows exQ [[0, 1], [0, 1], [0, 1]])) 0 1 = -1 ∧
    rankSums 2 (rankRows exQ [[0, 1], [0, 1], [0, 1]]) = [3, 6] ∧
    (3 - 6 : Rat) * (3 - 6) < compValue 2 * compValue 2 * (3 * 2 * (2 + 1) / 6) := by
  refine ⟨by unfold Shape; decide, ⟨by decide, ?_⟩, by decide +kernel, by decide +kernel, by decide +kernel, by decide +kernel⟩
  intro x hx
  have hx' : x ∈ [([1, 2], [0, 1]), ([3, 5], [0, 1]), (([2, 7] : List Rat), [0, 1])] := hx
  have : ∀ y ∈ [([1, 2], [0, 1]), ([3, 5], [0, 1]), (([2, 7] : List Rat), [0, 1])], Ascending y.1 y.2 := by
    unfold Ascending
    decide +kernel
  exact this x hx'

end Verif.Anovar
