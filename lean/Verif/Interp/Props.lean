import Verif.Interp.Model
/-!
# Theorems on weights for interpolation
-/
set_option autoImplicit false
namespace Verif.Interp

theorem sum_congr (m : Nat) (f g : Nat → Rat) (h : ∀ i, i < m → f i = g i) : sum m f = sum m g := by
  induction m with
  | zero => rfl
  | succ m ih => rw [sum, sum, ih (fun i hi => h i (by omega)), h m (by omega)]

theorem sum_add (m : Nat) (f g : Nat → Rat) : sum m (fun i => f i + g i) = sum m f + sum m g := by
  induction m with
  | zero => simp only [sum]; grind
  | succ m ih => simp only [sum, ih]; grind

theorem sum_mul (m : Nat) (f : Nat → Rat) (c : Rat) : sum m (fun i => f i * c) = sum m f * c := by
  induction m with
  | zero => simp [sum]
  | succ m ih => simp only [sum, ih]; grind

theorem sum_nonneg (m : Nat) (f : Nat → Rat) (h : ∀ i, i < m → 0 ≤ f i) : 0 ≤ sum m f := by
  induction m with
  | zero => exact Rat.le_refl
  | succ m ih =>
    have a := ih (fun i hi => h i (by omega))
    have b := h m (by omega)
    rw [sum]
    grind

theorem sum_pos (m : Nat) (f : Nat → Rat) (h : ∀ i, i < m → 0 ≤ f i) (k : Nat) (hk : k < m) (hp : 0 < f k) : 0 < sum m f := by
  induction m with
  | zero => omega
  | succ m ih =>
    rw [sum]
    have b := h m (by omega)
    by_cases e : k = m
    · subst e
      have a := sum_nonneg k f (fun i hi => h i (by omega))
      grind
    · have a := ih (fun i hi => h i (by omega)) (by omega)
      grind

/-- Weights that are not negative, one of those to be changed positive. -/
def Good (m : Nat) (fixed : Nat → Bool) (l : Nat → Rat) : Prop := (∀ i, i < m → 0 ≤ l i) ∧ ∃ k, k < m ∧ fixed k = false ∧ 0 < l k

theorem div_nonneg {a b : Rat} (ha : 0 ≤ a) (hb : 0 < b) : 0 ≤ a / b := by
  rw [Rat.div_def]
  exact Rat.mul_nonneg ha (Rat.le_of_lt (Rat.inv_pos.2 hb))

theorem div_pos {a b : Rat} (ha : 0 < a) (hb : 0 < b) : 0 < a / b := by
  rw [Rat.div_def]
  exact Rat.mul_pos ha (Rat.inv_pos.2 hb)

theorem total_pos {m : Nat} {fixed : Nat → Bool} {l p : Nat → Rat} (h : Good m fixed l) (hp : ∀ i, i < m → 0 < p i) : 0 < total m l p := by
  obtain ⟨h1, k, hk, _, h2⟩ := h
  exact sum_pos m _ (fun i hi => Rat.mul_nonneg (h1 i hi) (Rat.le_of_lt (hp i hi))) k hk (Rat.mul_pos h2 (hp k hk))

theorem fractions_nonneg {m : Nat} {fixed : Nat → Bool} {l : Nat → Rat} (h : Good m fixed l) (items : List (Nat → Rat))
    (hp : ∀ p ∈ items, ∀ i, i < m → 0 < p i) (i : Nat) (hi : i < m) : 0 ≤ fractions m l i items := by
  induction items with
  | nil => exact Rat.le_refl
  | cons p r ih =>
    rw [fractions]
    have a := ih (fun p hp' => hp p (List.mem_cons_of_mem _ hp'))
    have b := div_nonneg (Rat.mul_nonneg (h.1 i hi) (Rat.le_of_lt (hp p (by simp) i hi))) (total_pos h (hp p (by simp)))
    grind

theorem fractions_pos {m : Nat} {fixed : Nat → Bool} {l : Nat → Rat} (h : Good m fixed l) (items : List (Nat → Rat)) (hne : items ≠ [])
    (hp : ∀ p ∈ items, ∀ i, i < m → 0 < p i) (i : Nat) (hi : i < m) (hl : 0 < l i) : 0 < fractions m l i items := by
  cases items with
  | nil => exact absurd rfl hne
  | cons p r =>
    rw [fractions]
    have a := fractions_nonneg h r (fun p hp' => hp p (List.mem_cons_of_mem _ hp')) i hi
    have b := div_pos (Rat.mul_pos hl (hp p (by simp) i hi)) (total_pos h (hp p (by simp)))
    grind

/-- The fractions of all models together are the number of items. -/
theorem fractions_total (m : Nat) (fixed : Nat → Bool) (l : Nat → Rat) (h : Good m fixed l) (items : List (Nat → Rat))
    (hp : ∀ p ∈ items, ∀ i, i < m → 0 < p i) : sum m (fun i => fractions m l i items) = (items.length : Rat) := by
  induction items with
  | nil =>
    have : ∀ k, sum k (fun i => fractions m l i []) = 0 := by
      intro k
      induction k with
      | zero => rfl
      | succ k ih => rw [sum, ih, fractions]; grind
    simpa using this m
  | cons p r ih =>
    have t := total_pos h (hp p (by simp))
    have e : sum m (fun i => fractions m l i (p :: r)) = sum m (fun i => l i * p i * (total m l p)⁻¹ + fractions m l i r) :=
      sum_congr m _ _ (fun i _ => by rw [fractions, Rat.div_def])
    rw [e, sum_add, ih (fun p hp' => hp p (List.mem_cons_of_mem _ hp')), sum_mul]
    have u : sum m (fun i => l i * p i) * (total m l p)⁻¹ = 1 := Rat.mul_inv_cancel _ (by rw [total] at t; grind)
    rw [u, List.length_cons]
    grind

/-- One step: the sum of all weights stays, those that are fixed stay, no weight is negative. -/
theorem step_keeps (m : Nat) (fixed : Nat → Bool) (n : Nat) (items : List (Nat → Rat)) (hne : items ≠ []) (l : Nat → Rat) (h : Good m fixed l)
    (hp : ∀ p ∈ items, ∀ i, i < m → 0 < p i) :
    Good m fixed (step m fixed n items l) ∧ sum m (step m fixed n items l) = sum m l ∧ ∀ i, fixed i = true → step m fixed n items l i = l i := by
  unfold step
  by_cases hn : n = 0
  · rw [if_pos (by simpa using hn)]
    exact ⟨h, rfl, fun _ _ => rfl⟩
  rw [if_neg (by simpa using hn)]
  have hN : (0 : Rat) < (n : Rat) := by
    have : 0 < n := by omega
    exact_mod_cast this
  obtain ⟨k, hk, hf, hl⟩ := h.2
  have TF : 0 < sum m (fun j => if fixed j then 0 else fractions m l j items) := by
    refine sum_pos m _ (fun i hi => ?_) k hk ?_
    · split
      · exact Rat.le_refl
      · exact fractions_nonneg h items hp i hi
    · rw [hf]
      exact fractions_pos h items hne hp k hk hl
  have TL : 0 < sum m (fun j => if fixed j then 0 else l j) := by
    refine sum_pos m _ (fun i hi => ?_) k hk ?_
    · split
      · exact Rat.le_refl
      · exact h.1 i hi
    · rw [hf]
      exact hl
  have C := div_pos TL (div_pos TF hN)
  refine ⟨⟨fun i hi => ?_, k, hk, hf, ?_⟩, ?_, fun i hi => ?_⟩
  · rw [reest]
    split
    · exact h.1 i hi
    · exact Rat.mul_nonneg (div_nonneg (fractions_nonneg h items hp i hi) hN) (Rat.le_of_lt C)
  · rw [reest, hf]
    exact Rat.mul_pos (div_pos (fractions_pos h items hne hp k hk hl) hN) C
  · have e : sum m (reest m fixed n l (fun i => fractions m l i items)) =
        sum m (fun i => (if fixed i then l i else 0) + (if fixed i then 0 else fractions m l i items) *
          ((n : Rat)⁻¹ * (sum m (fun j => if fixed j then 0 else l j) / (sum m (fun j => if fixed j then 0 else fractions m l j items) / (n : Rat))))) := by
      refine sum_congr m _ _ (fun i _ => ?_)
      rw [reest]
      cases fixed i
      · simp only [Bool.false_eq_true, if_false]
        rw [Rat.div_def (fractions m l i items)]
        grind
      · simp only [if_true]
        grind
    have e2 : sum m l = sum m (fun i => (if fixed i then l i else 0) + (if fixed i then 0 else l i)) := by
      refine sum_congr m _ _ (fun i _ => ?_)
      cases fixed i
      · simp only [Bool.false_eq_true, if_false]
        grind
      · simp only [if_true]
        grind
    rw [e, e2, sum_add, sum_add, sum_mul]
    generalize sum m (fun j => if fixed j then 0 else l j) = A at *
    generalize sum m (fun j => if fixed j then 0 else fractions m l j items) = B at *
    congr 1
    have hB : B ≠ 0 := by grind
    have hN' : (n : Rat) ≠ 0 := by grind
    grind
  · rw [reest, hi]
    rfl

/-- The weights after any number of iterations: the sum is that of the first weights, weights that are fixed do not change, none is negative. -/
theorem train_keeps (m : Nat) (fixed : Nat → Bool) (n : Nat) (items : List (Nat → Rat)) (hne : items ≠ []) (l : Nat → Rat) (h : Good m fixed l)
    (hp : ∀ p ∈ items, ∀ i, i < m → 0 < p i) (k : Nat) :
    sum m (train m fixed n items l k) = sum m l ∧ (∀ i, fixed i = true → train m fixed n items l k i = l i) ∧ ∀ i, i < m → 0 ≤ train m fixed n items l k i := by
  suffices H : Good m fixed (train m fixed n items l k) ∧ sum m (train m fixed n items l k) = sum m l ∧ ∀ i, fixed i = true → train m fixed n items l k i = l i from
    ⟨H.2.1, H.2.2, H.1.1⟩
  induction k with
  | zero => exact ⟨h, rfl, fun _ _ => rfl⟩
  | succ k ih =>
    obtain ⟨a, b, c⟩ := ih
    obtain ⟨a', b', c'⟩ := step_keeps m fixed n items hne _ a hp
    exact ⟨a', b'.trans b, fun i hi => (c' i hi).trans (c i hi)⟩

/-- Without fixed weights a step gives each model the mean of its parts of the probabilities of the items. -/
theorem step_mean (m n : Nat) (items : List (Nat → Rat)) (hne : items ≠ []) (hn : n ≠ 0) (l : Nat → Rat) (h : Good m (fun _ => false) l) (h1 : sum m l = 1)
    (hp : ∀ p ∈ items, ∀ i, i < m → 0 < p i) (i : Nat) :
    step m (fun _ => false) n items l i = (items.map (fun p => l i * p i / sum m (fun j => l j * p j))).sum / (items.length : Rat) := by
  have f : ∀ r : List (Nat → Rat), fractions m l i r = (r.map (fun p => l i * p i / sum m (fun j => l j * p j))).sum := by
    intro r
    induction r with
    | nil => rfl
    | cons p r ih => rw [fractions, ih, List.map_cons, List.sum_cons, total]
  have ft := fractions_total m (fun _ => false) l h items hp
  have hN' : (n : Rat) ≠ 0 := by exact_mod_cast hn
  have hL : (items.length : Rat) ≠ 0 := by
    have : items.length ≠ 0 := fun e => hne (List.length_eq_zero_iff.1 e)
    exact_mod_cast this
  unfold step
  rw [if_neg (by simpa using hn), reest]
  simp only [Bool.false_eq_true, if_false]
  have e : sum m (fun j => l j) = 1 := h1
  rw [e, ft, f items]
  generalize (items.map (fun p => l i * p i / sum m (fun j => l j * p j))).sum = A
  generalize (items.length : Rat) = L at *
  grind

/-- The numbers of items for training are right for the first part of the items. -/
theorem inTag_last (tags : List Nat) (ntest t : Nat) : inTag tags ntest t = (trained false ntest tags).count t := rfl

/-- A tag without items among the first ones keeps its first weights, whatever items it has for training. -/
theorem untrained (tags : List Nat) (ntest t : Nat) (h : t ∉ tags.take (tags.length - ntest)) (m : Nat) (fixed : Nat → Bool) (items : List (Nat → Rat)) (l : Nat → Rat) (k : Nat) :
    train m fixed (inTag tags ntest t) items l k = l := by
  have z : inTag tags ntest t = 0 := List.count_eq_zero.2 h
  rw [z]
  induction k with
  | zero => rfl
  | succ k ih =>
    rw [train, ih]
    rfl

/-- With -test_first the number may be zero for a tag that all items for training have. -/
theorem first_witness : inTag [0, 1] 1 1 = 0 ∧ trained true 1 [0, 1] = [1] := by decide

example : Good 2 (fun _ => false) (fun _ => 1 / 2) ∧ sum 2 (fun _ => 1 / 2) = 1 :=
  ⟨⟨fun _ _ => (by decide +kernel : (0 : Rat) ≤ 1 / 2), 0, by decide, rfl, by decide +kernel⟩, by decide +kernel⟩

example : train 2 (fun _ => false) 1 [fun i => if i = 0 then 1 / 4 else 3 / 4] (fun _ => 1 / 2) 2 1 = 9 / 10 := by decide +kernel

example : sum 3 (train 3 (fun i => i == 0) 2 [fun i => 1 / (i + 1 : Rat), fun _ => 1 / 5] (fun i => if i = 0 then 1 / 2 else 1 / 4) 2) = 1 ∧
    train 3 (fun i => i == 0) 2 [fun i => 1 / (i + 1 : Rat), fun _ => 1 / 5] (fun i => if i = 0 then 1 / 2 else 1 / 4) 1 1 > 1 / 4 := by decide +kernel

end Verif.Interp
