import Verif.Range.Spec
/-!
# Summaries: vocabulary for the properties
-/
set_option autoImplicit false
namespace Verif.Summary
open Verif.Range Verif.Anovar

/-- The number `c` with `p` decimal places (`c = 123`, `p = 1` is 12.3) is the number `x` correctly rounded: halves go up. -/
def Shows (p : Nat) (c : Int) (x : Rat) : Prop := (c : Rat) ≤ x * (10 : Rat) ^ p + 1 / 2 ∧ x * (10 : Rat) ^ p < (c : Rat) + 1 / 2

/-- `x` in per cent of `n`. -/
def percent (x n : Rat) : Rat := 100 * x / n

/-- Mean, square of the standard deviation (dividing by the number of values less one), and median of the values. -/
def Describes (t : Rat × Rat × Rat) (l : List Rat) : Prop :=
  t.1 = mean l ∧ (2 ≤ l.length → t.2.1 = spread (mean l) l / ((l.length : Rat) - 1)) ∧ (l.length = 1 → t.2.1 = 0) ∧ IsMedian l t.2.2

/-- The entropy of `n` correct among `n + k` words, `-(n log (n/N) + k log (k/N))`. -/
def uncertainty (lg : Rat → Rat) (n k : Nat) : Rat :=
  -((n : Rat) * lg ((n : Rat) / ((n + k : Nat) : Rat)) + (k : Rat) * lg ((k : Rat) / ((n + k : Nat) : Rat)))

/-- What is needed of the logarithm: negative on (0,1) and increasing. -/
structure LogLike (lg : Rat → Rat) : Prop where
  neg : ∀ x, 0 < x → x < 1 → lg x < 0
  mono : ∀ x y, 0 < x → x ≤ y → lg x ≤ lg y

end Verif.Summary
