/-!
# Specification of the hash table of words
-/
set_option autoImplicit false
namespace Verif.Sih

/-- A prime number. -/
def Prime (p : Nat) : Prop := 2 ≤ p ∧ ∀ d, d ∣ p → d = 1 ∨ d = p

/-- What a dictionary says after words have been given their values one after the other. -/
def said (m : List Char → Option Int) (s : List Char) (v : Int) : List Char → Option Int := fun t => if t = s then some v else m t

def saidAll (m : List Char → Option Int) : List (List Char × Int) → List Char → Option Int
  | [] => m
  | (s, v) :: ops => saidAll (said m s v) ops

/-- Nothing has been given a value. -/
def silent : List Char → Option Int := fun _ => none

end Verif.Sih
