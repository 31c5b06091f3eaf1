/-!
# Specification for shorter n-grams and vocabularies
-/
set_option autoImplicit false
namespace Verif.Mgram

/-- The sum of the counts of the n-grams that begin with `h`. -/
def under (m : Nat) (h : List Nat) : List (List Nat × Int) → Int
  | [] => 0
  | (g, c) :: r => (if g.take m = h then c else 0) + under m h r

/-- The sum of the counts of an n-gram. -/
def total (h : List Nat) : List (List Nat × Int) → Int
  | [] => 0
  | (g, c) :: r => (if g = h then c else 0) + total h r

/-- In order, equal n-grams may follow each other. -/
def Ordered : List (List Nat × Int) → Prop
  | [] => True
  | [_] => True
  | a :: b :: r => ¬ b.1 < a.1 ∧ Ordered (b :: r)

end Verif.Mgram
