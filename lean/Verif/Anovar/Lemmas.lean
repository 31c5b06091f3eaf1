import Verif.Anovar.Ties
import Verif.Stats.Props
/-!
# Friedman's statistic: lemmas
-/
set_option autoImplicit false
namespace Verif.Anovar
open Verif.Stats

theorem rankRow (dec : Bool) (row : List Rat) (ptr : List Nat) (h : if dec then Descending row ptr else Ascending row ptr) :
    (rankArr row ptr).map (fun r => r.getD 0) = places dec row := by
  cases dec with
  | false =>
    rw [mean_ranks_increasing row ptr h, List.map_map]
    rfl
  | true =>
    rw [mean_ranks_decreasing row ptr h, List.map_map]
    rfl

theorem rankRows_spec (dec : Bool) : ∀ (rows : Table) (ptrs : List (List Nat)), Orders dec rows ptrs →
    rankRows rows ptrs = rows.map (places dec)
  | [], [], _ => rfl
  | [], _ :: _, h => by cases h.1
  | _ :: _, [], h => by cases h.1
  | row :: rows, ptr :: ptrs, h => by
    have e := rankRows_spec dec rows ptrs ⟨by have := h.1; simpa using this, fun x hx => h.2 x (by
      rw [List.zip_cons_cons]; exact List.mem_cons_of_mem _ hx)⟩
    have e1 := rankRow dec row ptr (h.2 (row, ptr) (by rw [List.zip_cons_cons]; exact List.mem_cons_self ..))
    unfold rankRows at e ⊢
    rw [List.zipWith_cons_cons, e, e1, List.map_cons]

theorem sums_acc (n : Nat) : ∀ (rows : Table) (acc : List Rat), (∀ r ∈ rows, r.length = n) → acc.length = n →
    rows.foldl (fun acc r => List.zipWith (· + ·) acc r) acc = (List.range n).map (fun j => acc.getD j 0 + (column rows j).sum)
  | [], acc, _, ha => by
    simp only [List.foldl_nil, column, List.map_nil, List.sum_nil, Rat.add_zero]
    apply List.ext_getElem
    · simp [ha]
    · intro i h1 h2
      simp [h1]
  | r :: rows, acc, hr, ha => by
    have hrl := hr r (List.mem_cons_self ..)
    rw [List.foldl_cons, sums_acc n rows _ (fun x hx => hr x (List.mem_cons_of_mem _ hx)) (by simp [hrl, ha])]
    apply List.map_congr_left
    intro j hj
    have hj := List.mem_range.1 hj
    rw [show column (r :: rows) j = r.getD j 0 :: column rows j from rfl, List.sum_cons]
    have : (List.zipWith (· + ·) acc r).getD j 0 = acc.getD j 0 + r.getD j 0 := by
      rw [List.getD_eq_getElem?_getD, List.getElem?_zipWith, List.getElem?_eq_getElem (by omega : j < acc.length),
        List.getElem?_eq_getElem (by omega : j < r.length)]
      simp [List.getElem?_eq_getElem (by omega : j < acc.length), List.getElem?_eq_getElem (by omega : j < r.length)]
    rw [this, Rat.add_assoc]

theorem rankSums_spec (n : Nat) (rows : Table) (h : ∀ r ∈ rows, r.length = n) :
    rankSums n rows = (columns n rows).map (fun c => c.sum) := by
  unfold rankSums columns
  rw [sums_acc n rows _ h (by simp), List.map_map]
  apply List.map_congr_left
  intro j hj
  simp only [Function.comp_apply]
  rw [List.getD_eq_getElem?_getD, List.getElem?_replicate]
  split <;> simp [Rat.zero_add]

theorem sum_range_getD (n : Nat) (r : List Rat) (h : r.length = n) : ((List.range n).map (fun j => r.getD j 0)).sum = r.sum := by
  congr 1
  apply List.ext_getElem
  · simp [h]
  · intro i h1 h2
    simp [h2]

theorem sum_add {X : Type} (f g : X → Rat) (l : List X) : (l.map (fun x => f x + g x)).sum = (l.map f).sum + (l.map g).sum := by
  induction l with
  | nil => simp; decide +kernel
  | cons x l ih => simp only [List.map_cons, List.sum_cons, ih]; grind

theorem sum_columns (n : Nat) : ∀ rows : Table, (∀ r ∈ rows, r.length = n) →
    ((columns n rows).map (fun c => c.sum)).sum = sumOf (fun r => r.sum) rows
  | [], _ => by
    unfold columns column
    rw [List.map_map, sumOf_nil]
    show sumOf _ (List.range n) = 0
    exact (sumOf_const _ 0 _ (fun x _ => rfl)).trans (Rat.mul_zero _)
  | r :: rows, h => by
    have ih := sum_columns n rows (fun x hx => h x (List.mem_cons_of_mem _ hx))
    unfold columns at ih ⊢
    rw [List.map_map] at ih ⊢
    rw [sumOf_cons, ← ih, ← sum_range_getD n r (h r (List.mem_cons_self ..)), ← sum_add]
    rfl

theorem dsumSqr_spec (l : List Rat) : dsumSqr l = sumOf (fun x => x * x) l := by
  unfold dsumSqr
  have : ∀ (l : List Rat) (a : Rat), l.foldl (fun tot x => tot + x * x) a = a + sumOf (fun x => x * x) l := by
    intro l
    induction l with
    | nil => intro a; rw [sumOf_nil]; exact (Rat.add_zero _).symm
    | cons x l ih => intro a; rw [List.foldl_cons, ih, sumOf_cons]; grind
  rw [this, Rat.zero_add]

theorem spread_spec (c : Rat) (l : List Rat) :
    spread c l = sumOf (fun x => x * x) l - 2 * c * l.sum + (l.length : Rat) * (c * c) := by
  unfold spread
  induction l with
  | nil => simp [sumOf_nil]; grind
  | cons x l ih =>
    rw [List.map_cons, List.sum_cons, ih, sumOf_cons, List.sum_cons, List.length_cons, Rat.natCast_add]
    have : ((1 : Nat) : Rat) = 1 := rfl
    grind

theorem spread_append (c : Rat) (a b : List Rat) : spread c (a ++ b) = spread c a + spread c b := by
  unfold spread; rw [List.map_append, List.sum_append]

theorem spread_rows (n : Nat) : ∀ rows : Table, (∀ r ∈ rows, Placed n r) →
    12 * spread (((n : Rat) + 1) / 2) rows.flatten =
      (rows.length : Rat) * (n : Rat) * ((n : Rat) * (n : Rat) - 1) - sumOf tied rows
  | [], _ => by
    simp only [List.flatten_nil, spread, List.map_nil, List.sum_nil, List.length_nil, sumOf_nil]
    have : ((0 : Nat) : Rat) = 0 := rfl
    grind
  | r :: rows, h => by
    have ih := spread_rows n rows (fun x hx => h x (List.mem_cons_of_mem _ hx))
    have hp := h r (List.mem_cons_self ..)
    rw [List.flatten_cons, spread_append, spread_spec, hp.sum, hp.len, sumOf_cons, List.length_cons, Rat.natCast_add]
    have h1 : ((1 : Nat) : Rat) = 1 := rfl
    have h2 := hp.sq
    generalize sumOf (fun x => x * x) r = A at *
    generalize spread (((n : Rat) + 1) / 2) rows.flatten = B at *
    grind

theorem sums_total (n m : Nat) (rows : Table) (hm : rows.length = m) (h : ∀ r ∈ rows, Placed n r) :
    (rankSums n rows).sum = (m : Rat) * ((n : Rat) * ((n : Rat) + 1) / 2) := by
  rw [rankSums_spec n rows (fun r hr => (h r hr).len), sum_columns n rows (fun r hr => (h r hr).len),
    sumOf_const _ _ _ (fun r hr => (h r hr).sum), hm]

theorem rankSums_length (n : Nat) (rows : Table) (h : ∀ r ∈ rows, r.length = n) : (rankSums n rows).length = n := by
  rw [rankSums_spec n rows h]; simp [columns]

theorem frac (P S W E : Rat) (hP : P ≠ 0) (hS : S ≠ 0) : 12 * W / E = P * W / S * (12 * S / (P * E)) := by
  have h1 : S * S⁻¹ = 1 := Rat.mul_inv_cancel _ hS
  have h2 : P * P⁻¹ = 1 := Rat.mul_inv_cancel _ hP
  have h4 : (P * E)⁻¹ = P⁻¹ * E⁻¹ := by
    rw [Rat.inv_mul_rev]; exact Rat.mul_comm _ _
  rw [Rat.div_def, Rat.div_def, Rat.div_def, h4]
  generalize S⁻¹ = s at *
  generalize P⁻¹ = p at *
  generalize E⁻¹ = e at *
  have : P * W * s * (12 * S * (p * e)) = (S * s) * (P * p) * (12 * W * e) := by grind
  rw [this, h1, h2]
  grind

/-- The statistic is Friedman's, with the adjustment for all ties. -/
theorem statistic_spec (n m : Nat) (rows : Table) (hn : 2 ≤ n) (hm1 : 1 ≤ m) (hm : rows.length = m) (h : ∀ r ∈ rows, Placed n r) :
    statistic n m (rankSums n rows) (1 - sumOf tied rows / ((m : Rat) * (n : Rat) * ((n : Rat) * (n : Rat) - 1))) =
      friedman m n rows := by
  have hl : ∀ r ∈ rows, r.length = n := fun r hr => (h r hr).len
  have h1 := spread_rows n rows h
  have h2 := sums_total n m rows hm h
  unfold friedman
  rw [← rankSums_spec n rows hl]
  have h3 := spread_spec ((m : Rat) * ((n : Rat) + 1) / 2) (rankSums n rows)
  rw [h2, rankSums_length n rows hl] at h3
  rw [h3]
  unfold statistic
  dsimp only
  rw [dsumSqr_spec]
  rw [hm] at h1
  have hn' : (2 : Rat) ≤ (n : Rat) := by
    have := Rat.natCast_le_natCast.mpr hn
    exact this
  have hm' : (1 : Rat) ≤ (m : Rat) := by
    have := Rat.natCast_le_natCast.mpr hm1
    exact this
  generalize sumOf (fun x => x * x) (rankSums n rows) = A at *
  generalize spread (((n : Rat) + 1) / 2) rows.flatten = S at *
  generalize sumOf tied rows = T at *
  generalize (n : Rat) = N at *
  generalize (m : Rat) = M at *
  have hD : 0 < M * N * (N * N - 1) := by
    have a1 : 0 < M * N := Rat.mul_pos (by grind) (by grind)
    have a2 : 0 < (N - 1) * (N + 1) := Rat.mul_pos (by grind) (by grind)
    have := Rat.mul_pos a1 a2
    grind
  have hD0 : M * N * (N * N - 1) ≠ 0 := by grind
  have hM0 : M ≠ 0 := by grind
  have hN0 : N ≠ 0 := by grind
  have hN1 : N + 1 ≠ 0 := by grind
  have hN2 : N - 1 ≠ 0 := by grind
  have hadj : 1 - T / (M * N * (N * N - 1)) = 12 * S / (M * N * (N * N - 1)) := by grind
  rw [hadj]
  by_cases hS : S = 0
  · subst hS
    rw [if_pos (by grind)]
    grind
  · rw [if_neg (by grind)]
    have hE : M * N * (N + 1) ≠ 0 := by grind
    generalize hW : A - 2 * (M * (N + 1) / 2) * (M * (N * (N + 1) / 2)) + N * (M * (N + 1) / 2 * (M * (N + 1) / 2)) = W
    have hX : 12 / (M * N * (N + 1)) * A - 3 * M * (N + 1) = 12 * W / (M * N * (N + 1)) := by grind
    rw [hX]
    have hDE : M * N * (N * N - 1) = (N - 1) * (M * N * (N + 1)) := by grind
    rw [hDE]
    generalize M * N * (N + 1) = E at hE
    have hc : 12 * S / ((N - 1) * E) ≠ 0 := by grind
    have hb : 12 * W / E = (N - 1) * W / S * (12 * S / ((N - 1) * E)) := frac (N - 1) S W E hN2 hS
    rw [hb]
    generalize 12 * S / ((N - 1) * E) = c at hc
    grind

end Verif.Anovar
