/-!
# Cutting the inputs of ROVER at common silences: vocabulary for the properties
-/
set_option autoImplicit false
namespace Verif.Mfa

/-- A time-marked word: file, channel, begin time, duration, text. -/
structure Word where
  conv : Nat
  chan : Nat
  t1 : Rat
  dur : Rat
  text : Nat
deriving DecidableEq

/-- The smaller and the larger of two times. -/
def smaller (a b : Rat) : Rat := if a ≤ b then a else b
def larger (a b : Rat) : Rat := if a ≤ b then b else a

/-- Between the `c`-th word and the next one a system is silent from `lo` to `hi`. -/
def SilentAfter (lo hi : Rat) (ws : List Word) (c : Nat) : Prop :=
  1 ≤ c ∧ (∃ w, ws[c - 1]? = some w ∧ w.t1 + w.dur ≤ lo) ∧ ∀ v, ws[c]? = some v → hi ≤ v.t1

end Verif.Mfa
