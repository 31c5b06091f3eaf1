/-!
# Good-Turing discounts (src/sclite/slm_v2/src/compute_discount.c)

Numbers are rational numbers, without rounding; the results of divisions by zero are values of their own. Not modelled: messages.
-/
set_option autoImplicit false
namespace Verif.Gt

/-- A number, or the result of a division by zero: src/sclite/slm_v2/src/compute_discount.c 94-98. -/
inductive V where
  | num (q : Rat)
  | inf
  | nan
  deriving DecidableEq

/-- `first_term`, where `f r` is the number of n-grams that occur `r` times: src/sclite/slm_v2/src/compute_discount.c 95-96. -/
def first (f : Nat → Nat) (r : Nat) : V :=
  if r * f r = 0 then (if (r + 1) * f (r + 1) = 0 then .nan else .inf)
  else .num ((((r + 1) * f (r + 1) : Nat) : Rat) / ((r * f r : Nat) : Rat))

/-- `common_term`: src/sclite/slm_v2/src/compute_discount.c 87-88. -/
def common (f : Nat → Nat) (k : Nat) : Rat := (((k + 1) * f (k + 1) : Nat) : Rat) / ((f 1 : Nat) : Rat)

/-- `D[r]`: src/sclite/slm_v2/src/compute_discount.c 97. -/
def disc (f : Nat → Nat) (k r : Nat) : V :=
  match first f r with
  | .num q => .num ((q - common f k) / (1 - common f k))
  | .inf => .inf
  | .nan => .nan

/-- The test `D[r]<0 || D[r]>1.0`, which no comparison with a result of zero by zero meets: src/sclite/slm_v2/src/compute_discount.c 106. -/
def bad : V → Bool
  | .num q => decide (q < 0) || decide (1 < q)
  | .inf => true
  | .nan => false

/-- The loop: the range and the discounts; values left beyond the range are given as zero, and no cutoff is applied in the exception: src/sclite/slm_v2/src/compute_discount.c 66-116. -/
def lower (n : Nat) (f : Nat → Nat) (cutoff : Nat) : Nat → Nat × (Nat → V)
  | 0 => (0, fun _ => .num 0)
  | k + 1 =>
    if decide (n = 1) && decide (k = 0) && decide (0 < f 0) then
      (1, fun r => if r = 1 then .num (((f 1 : Nat) : Rat) / ((f 1 + f 0 : Nat) : Rat)) else .num 0)
    else if decide (common f (k + 1) ≤ 0) || decide (1 ≤ common f (k + 1)) then lower n f cutoff k
    else if (List.range (k + 1)).any (fun i => bad (disc f (k + 1) (i + 1))) then lower n f cutoff k
    else (k + 1, fun r => if r ≤ min cutoff (k + 1) then .num 0 else disc f (k + 1) r)

/-- `compute_gt_discount`: src/sclite/slm_v2/src/compute_discount.c 27-118. -/
def discounts (n : Nat) (f : Nat → Nat) (size range cutoff : Nat) : Nat × (Nat → V) :=
  if size = 0 then (range, fun _ => .num 0)
  else if f 1 = 0 then (0, fun _ => .num 0)
  else lower n f cutoff (if decide (size < range + 1) then size - 1 else range)

end Verif.Gt
