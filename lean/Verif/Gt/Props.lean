import Verif.Gt.Lemmas
/-!
# Theorems on Good-Turing discounts
-/
set_option autoImplicit false
namespace Verif.Gt

/-- The range that the loop begins with. -/
def begin (size range : Nat) : Nat := if size < range + 1 then size - 1 else range

/-- The exception: single words, with words that do not occur, discounted up to a count of one. -/
def Zeroton (n : Nat) (f : Nat → Nat) : Prop := n = 1 ∧ 0 < f 0

theorem lower_spec (n : Nat) (f : Nat → Nat) (cutoff k : Nat) (h1 : 0 < f 1) :
    (lower n f cutoff k).1 ≤ k ∧ (∀ j, (lower n f cutoff k).1 < j → j ≤ k → ¬ Fine f j) ∧
      ((lower n f cutoff k).1 = 0 ∨
        ((lower n f cutoff k).1 = 1 ∧ Zeroton n f ∧ (lower n f cutoff k).2 1 = .num (((f 1 : Nat) : Rat) / ((f 1 + f 0 : Nat) : Rat))) ∨
        (Fine f (lower n f cutoff k).1 ∧ (¬ ((lower n f cutoff k).1 = 1 ∧ Zeroton n f)) ∧ ∀ r, 1 ≤ r → r ≤ (lower n f cutoff k).1 →
          (lower n f cutoff k).2 r = .num (if r ≤ cutoff then 0 else katz f (lower n f cutoff k).1 r))) := by
  induction k with
  | zero => exact ⟨Nat.le_refl _, fun j a b => by omega, .inl rfl⟩
  | succ k ih =>
    unfold lower
    by_cases hz : (decide (n = 1) && decide (k = 0) && decide (0 < f 0)) = true
    · rw [if_pos hz]
      simp only [Bool.and_eq_true, decide_eq_true_eq] at hz
      exact ⟨by dsimp only; omega, fun j a b => by dsimp only at a; omega, .inr (.inl ⟨rfl, ⟨hz.1.1, hz.2⟩, rfl⟩)⟩
    · rw [if_neg hz]
      by_cases hfine : Fine f (k + 1)
      · obtain ⟨a, b⟩ := (fine_iff h1).2 hfine
        rw [if_neg a, if_neg b]
        refine ⟨Nat.le_refl _, fun j q1 q2 => by dsimp only at q1; omega, .inr (.inr ⟨hfine, ?_, ?_⟩)⟩
        · rintro ⟨e, z1, z2⟩
          apply hz
          simp only [Bool.and_eq_true, decide_eq_true_eq]
          dsimp only at e
          exact ⟨⟨z1, by omega⟩, z2⟩
        · intro r q1 q2
          dsimp only at q2 ⊢
          by_cases hr : r ≤ cutoff
          · rw [if_pos (by omega), if_pos hr]
          · rw [if_neg (by omega), if_neg hr]
            exact disc_eq q1 (hfine.2.1 r q1 (by omega))
      · have hstep : (if (decide (common f (k + 1) ≤ 0) || decide (1 ≤ common f (k + 1))) = true then lower n f cutoff k
            else if (List.range (k + 1)).any (fun i => bad (disc f (k + 1) (i + 1))) = true then lower n f cutoff k
            else (k + 1, fun r => if r ≤ min cutoff (k + 1) then .num 0 else disc f (k + 1) r)) = lower n f cutoff k := by
          by_cases a : (decide (common f (k + 1) ≤ 0) || decide (1 ≤ common f (k + 1))) = true
          · rw [if_pos a]
          · rw [if_neg a]
            by_cases b : (List.range (k + 1)).any (fun i => bad (disc f (k + 1) (i + 1))) = true
            · rw [if_pos b]
            · exact absurd ((fine_iff h1).1 ⟨a, b⟩) hfine
        rw [hstep]
        obtain ⟨i1, i2, i3⟩ := ih
        refine ⟨by omega, fun j q1 q2 => ?_, i3⟩
        by_cases e : j = k + 1
        · rw [e]
          exact hfine
        · exact i2 j q1 (by omega)

/-! ## C320: Good-Turing discounts -/

/-- The range is never raised, and every discount in it is a number from zero to one, also where counts are missing and zero is divided by. -/
theorem discounts_bounded (n : Nat) (f : Nat → Nat) (size range cutoff : Nat) :
    (discounts n f size range cutoff).1 ≤ range ∧
      ∀ r, 1 ≤ r → r ≤ (discounts n f size range cutoff).1 → ∃ q, (discounts n f size range cutoff).2 r = .num q ∧ 0 ≤ q ∧ q ≤ 1 := by
  unfold discounts
  by_cases hs : size = 0
  · rw [if_pos hs]
    exact ⟨Nat.le_refl _, fun r _ _ => ⟨0, rfl, by decide, by decide⟩⟩
  · rw [if_neg hs]
    by_cases h1 : f 1 = 0
    · rw [if_pos h1]
      exact ⟨Nat.zero_le _, fun r a b => by dsimp only at b; omega⟩
    · rw [if_neg h1]
      have hk : (if decide (size < range + 1) = true then size - 1 else range) ≤ range := by
        split
        · rename_i h
          simp only [decide_eq_true_eq] at h
          omega
        · exact Nat.le_refl _
      generalize (if decide (size < range + 1) = true then size - 1 else range) = k at hk
      obtain ⟨a, _, c⟩ := lower_spec n f cutoff k (by omega)
      refine ⟨by omega, fun r q1 q2 => ?_⟩
      rcases c with c | ⟨c1, c2, c3⟩ | ⟨c1, _, c3⟩
      · omega
      · have : r = 1 := by omega
        subst this
        refine ⟨_, c3, ?_, ?_⟩
        · have hp : (0 : Rat) < ((f 1 + f 0 : Nat) : Rat) := cast_pos (by omega)
          have hp1 : (0 : Rat) < ((f 1 : Nat) : Rat) := cast_pos (by omega)
          refine Rat.not_lt.1 fun h => ?_
          rw [Rat.div_lt_iff hp] at h
          grind
        · have hp : (0 : Rat) < ((f 1 + f 0 : Nat) : Rat) := cast_pos (by omega)
          have hle : ((f 1 : Nat) : Rat) ≤ ((f 1 + f 0 : Nat) : Rat) := Rat.natCast_le_natCast.2 (by omega)
          refine Rat.not_lt.1 fun h => ?_
          rw [Rat.lt_div_iff hp] at h
          grind
      · refine ⟨_, c3 r q1 q2, ?_⟩
        split
        · exact ⟨by decide, by decide⟩
        · exact c1.2.2.2 r q1 q2

/-- The range is the largest, up to the one asked for and the counts there are, for which the discounts make sense, or none does; the discounts are those of Katz,
and zero up to the cutoff. The exception are words when some do not occur and the range comes down to one. -/
theorem discounts_katz (n : Nat) (f : Nat → Nat) (size range cutoff : Nat) (hs : size ≠ 0) (h1 : f 1 ≠ 0) :
    (∀ j, (discounts n f size range cutoff).1 < j → j ≤ begin size range → ¬ Fine f j) ∧
      ((discounts n f size range cutoff).1 = 0 ∨ ((discounts n f size range cutoff).1 = 1 ∧ Zeroton n f ∧
          (discounts n f size range cutoff).2 1 = .num (((f 1 : Nat) : Rat) / ((f 1 + f 0 : Nat) : Rat))) ∨
        (Fine f (discounts n f size range cutoff).1 ∧ ¬ ((discounts n f size range cutoff).1 = 1 ∧ Zeroton n f) ∧ ∀ r, 1 ≤ r → r ≤ (discounts n f size range cutoff).1 →
          (discounts n f size range cutoff).2 r = .num (if r ≤ cutoff then 0 else katz f (discounts n f size range cutoff).1 r))) := by
  have e : discounts n f size range cutoff = lower n f cutoff (begin size range) := by
    unfold discounts begin
    rw [if_neg hs, if_neg h1]
    simp
  rw [e]
  obtain ⟨_, b, c⟩ := lower_spec n f cutoff (begin size range) (by omega)
  refine ⟨b, ?_⟩
  rcases c with c | c | c
  · exact .inl c
  · exact .inr (.inl c)
  · exact .inr (.inr c)

/-- For a range that makes sense the counts freed by the discounts are as many as there are n-grams that occur once. -/
theorem katz_freed (f : Nat → Nat) (k : Nat) (h : Fine f k) : freed f (katz f k) k = (f 1 : Rat) := by
  obtain ⟨h0, hf, hlt, _⟩ := h
  have hp1 := cast_pos (hf 1 (Nat.le_refl _) (by omega))
  have hcast : ((k : Rat) + 1) * (f (k + 1) : Rat) = (((k + 1) * f (k + 1) : Nat) : Rat) := by
    rw [Rat.natCast_mul, Rat.natCast_add k 1]
    rfl
  have hlt' : ((k : Rat) + 1) * (f (k + 1) : Rat) < (f 1 : Rat) := by
    rw [hcast, Rat.natCast_lt_natCast]
    exact hlt
  have hc : ((k : Rat) + 1) * (f (k + 1) : Rat) / (f 1 : Rat) < 1 := by
    rw [Rat.div_lt_iff hp1]
    grind
  rw [freed_eq hf _ (by grind) rfl k (Nat.le_refl _)]
  generalize ((k : Rat) + 1) * (f (k + 1) : Rat) = y at *
  generalize (f 1 : Rat) = z at *
  have h2 : 1 - y / z ≠ 0 := by grind
  have h3 : z ≠ 0 := by grind
  grind

/-- In the exception a word that does not occur gets as much as one that occurs once. -/
theorem zeroton_same (f : Nat → Nat) (size cutoff : Nat) (h0 : 0 < f 0) (h1 : f 1 ≠ 0) (hs : 2 ≤ size) :
    ∃ q, (discounts 1 f size 1 cutoff).1 = 1 ∧ (discounts 1 f size 1 cutoff).2 1 = .num q ∧ (f 1 : Rat) * (1 - q) / (f 0 : Rat) = 1 * q := by
  have e : discounts 1 f size 1 cutoff = lower 1 f cutoff 1 := by
    unfold discounts
    rw [if_neg (by omega), if_neg h1, if_neg (by simp; omega)]
  have hz : (decide ((1 : Nat) = 1) && decide ((0 : Nat) = 0) && decide (0 < f 0)) = true := by simp [h0]
  have e2 : lower 1 f cutoff 1 = (1, fun r => if r = 1 then .num (((f 1 : Nat) : Rat) / ((f 1 + f 0 : Nat) : Rat)) else .num 0) := by
    unfold lower
    rw [if_pos hz]
  rw [e, e2]
  refine ⟨_, rfl, rfl, ?_⟩
  have hp0 := cast_pos h0
  have hp1 := cast_pos (Nat.pos_of_ne_zero h1)
  rw [Rat.natCast_add]
  generalize (f 0 : Rat) = x at *
  generalize (f 1 : Rat) = z at *
  have h2 : z + x ≠ 0 := by grind
  have h3 : x ≠ 0 := by grind
  grind

/-- Numbers of n-grams by count, for the examples. -/
def sample (r : Nat) : Nat := [0, 100, 40, 20, 10, 5].getD r 0

example : (discounts 2 sample 5 4 0).1 = 4 ∧ (discounts 2 sample 5 4 0).2 1 = .num (11 / 15) ∧ (discounts 2 sample 5 4 1).2 1 = .num 0 ∧
    (discounts 2 (fun r => [0, 100, 40, 0, 0, 5].getD r 0) 5 4 0).1 = 1 := by decide +kernel

end Verif.Gt
