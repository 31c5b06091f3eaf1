/-!
# Identifiers of objects: vocabulary for the properties
-/
set_option autoImplicit false
namespace Verif.Ident

/-- The kinds of object that carry an identifier: tokens and segments (both timed objects) and groups of segments. -/
inductive Kind where
  | token
  | segment
  | group
  deriving DecidableEq, Repr

/-- What a user of the program sees: the objects made, in the order in which they were made, with their identifiers. -/
abbrev Made := List (Kind × Nat)

/-- No two objects of one kind have the same identifier. -/
def Unique (m : Made) : Prop :=
  ∀ (i j : Nat) (k : Kind) (x : Nat), m[i]? = some (k, x) → m[j]? = some (k, x) → i = j

end Verif.Ident
