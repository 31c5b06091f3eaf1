/-!
# Comparing several systems: vocabulary for the properties
-/
set_option autoImplicit false
namespace Verif.Corresp

/-- An entry of an alignment: an inserted word, or a reference word that was recognised correctly or not. -/
inductive Entry (W : Type) where
  | ins (h : W)
  | ref (r : W) (ok : Bool)
deriving DecidableEq

/-- The reference words of an alignment. -/
def refs {W : Type} : List (Entry W) → List W
  | [] => []
  | .ins _ :: es => refs es
  | .ref r _ :: es => r :: refs es

/-- Which reference words were recognised. -/
def oks {W : Type} : List (Entry W) → List Bool
  | [] => []
  | .ins _ :: es => oks es
  | .ref _ ok :: es => ok :: oks es

/-- The alignment does not end with an insertion. -/
def NoTail {W : Type} (es : List (Entry W)) : Prop := ∀ h, es.getLast? ≠ some (.ins h)

/-- A sentence with its identifier, and a speaker. -/
structure Path (I W : Type) where
  id : I
  entries : List (Entry W)
deriving DecidableEq

structure Spkr (N I W : Type) where
  name : N
  paths : List (Path I W)
deriving DecidableEq

end Verif.Corresp
