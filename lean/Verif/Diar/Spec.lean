import Verif.Diar.Model
/-!
# What the scoring of speaker diarization is to say, instant by instant
-/
set_option autoImplicit false
namespace Verif.Diar

/-- A sort of events with the comparison `le`; the order of events that `le` does not tell apart is left open. -/
def Sorts (le : Ev → Ev → Bool) (sort : List Ev → List Ev) : Prop :=
  ∀ l, (sort l).Perm l ∧ (sort l).Pairwise (fun a b => le a b = true)

/-- The instant `x` lies in an interval of the list. -/
def Inside (iv : List (Int × Int)) (x : Int) : Prop := ∃ u ∈ iv, u.1 ≤ x ∧ x < u.2

instance (iv : List (Int × Int)) (x : Int) : Decidable (Inside iv x) := inferInstanceAs (Decidable (∃ u ∈ iv, u.1 ≤ x ∧ x < u.2))

/-- The speaker `s` speaks at `x`. -/
def Speaks (l : List Turn) (x : Int) (s : Nat) : Prop := ∃ t ∈ l, t.spkr = s ∧ t.tb ≤ x ∧ x < t.te

instance (l : List Turn) (x : Int) (s : Nat) : Decidable (Speaks l x s) :=
  inferInstanceAs (Decidable (∃ t ∈ l, t.spkr = s ∧ t.tb ≤ x ∧ x < t.te))

/-- No two intervals have an instant in common. -/
def Apart (iv : List (Int × Int)) : Prop := iv.Pairwise (fun u v => ∀ x, ¬ ((u.1 ≤ x ∧ x < u.2) ∧ (v.1 ≤ x ∧ x < v.2)))

/-- The speakers at `x`, each once. -/
def at_ (l : List Turn) (x : Int) : List Nat := ((l.filter (fun t => t.tb ≤ x ∧ x < t.te)).map Turn.spkr).eraseDups

/-- The sum of `f` over the instants `lo`, `lo + 1`, ..., `lo + n - 1`. -/
def total (lo : Int) (n : Nat) (f : Int → Int) : Int := ((List.range n).map (fun i => f (lo + (i : Nat)))).sum

/-- A mapping gives no two speakers the same speaker. -/
def OneToOne (map : Nat → Option Nat) : Prop := ∀ r r' s, map r = some s → map r' = some s → r = r'

end Verif.Diar
