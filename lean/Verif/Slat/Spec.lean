import Verif.Slat.Model
/-!
# What a user expects of the report on latencies
-/
set_option autoImplicit false
namespace Verif.Slat

/-- A value, times the number `n` of ranges, belongs to a range: at or above its lower limit and below its upper one; the last range has
its upper limit too. -/
def Belongs (n : Nat) (x : Int) (b : Bin) : Prop := b.lo ≤ n * x ∧ (n * x < b.hi ∨ (b.idx + 1 = n ∧ n * x = b.hi))

instance (n : Nat) (x : Int) (b : Bin) : Decidable (Belongs n x b) := by unfold Belongs; infer_instance

/-- The sum of the values. -/
def sumOf (l : List Int) : Int := l.foldr (fun x s => x + s) 0

/-- The entry of a line that has a latency. -/
def Line.entry (l : Line) : Option Entry := l.slat.map (fun s => ⟨l.key, l.beg, l.dur.getD 0, s⟩)

/-- An empty condition allows every name, another one the names in it. -/
def Allows (l : List Nat) (x : Nat) : Prop := l = [] ∨ x ∈ l

end Verif.Slat
