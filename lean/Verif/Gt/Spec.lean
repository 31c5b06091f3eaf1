/-!
# Specification for Good-Turing discounts
-/
set_option autoImplicit false
namespace Verif.Gt

/-- The discount of Katz for n-grams that occur `r` times, if those that occur up to `k` times are discounted. -/
def katz (f : Nat → Nat) (k r : Nat) : Rat :=
  let c : Rat := ((k : Rat) + 1) * (f (k + 1) : Rat) / (f 1 : Rat)
  (((r : Rat) + 1) * (f (r + 1) : Rat) / ((r : Rat) * (f r : Rat)) - c) / (1 - c)

/-- A range for which the discounts make sense: there are n-grams of all counts, and all discounts are from zero to one. -/
def Fine (f : Nat → Nat) (k : Nat) : Prop :=
  0 < k ∧ (∀ r, 1 ≤ r → r ≤ k + 1 → 0 < f r) ∧ (k + 1) * f (k + 1) < f 1 ∧ ∀ r, 1 ≤ r → r ≤ k → 0 ≤ katz f k r ∧ katz f k r ≤ 1

/-- The counts taken from the n-grams that occur up to `k` times, with discounts `d`. -/
def freed (f : Nat → Nat) (d : Nat → Rat) : Nat → Rat
  | 0 => 0
  | k + 1 => freed f d k + ((k : Rat) + 1) * (f (k + 1) : Rat) * (1 - d (k + 1))

end Verif.Gt
