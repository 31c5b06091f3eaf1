import Verif.Ident.Spec
/-!
# Model of the identifiers (asclite `id.cpp`, `timedobject.h`, `segmentsgroup.h`)
-/
set_option autoImplicit false
namespace Verif.Ident

/-- `ID::id` when the program starts (id.cpp:20). -/
def start : Nat := 0

/-- `ID::GetID` (id.cpp:22-25): increments the counter, an `unsigned long` of `w` bits (stdinc.h:45), and returns the new value. The result is
the identifier and the new counter. -/
def getID (w : Nat) (id : Nat) : Nat × Nat := ((id + 1) % 2 ^ w, (id + 1) % 2 ^ w)

/-- The constructors `TimedObject::TimedObject()` (timedobject.h:71; base of `Token` and of `Segment`, token.cpp:33-45, segment.cpp:30-42) and
`SegmentsGroup::SegmentsGroup()` (segmentsgroup.h:34): each takes a new identifier from the one counter. -/
def make (w : Nat) (k : Kind) (id : Nat) : (Kind × Nat) × Nat :=
  match k with
  | .token => ((k, (getID w id).1), (getID w id).2)
  | .segment => ((k, (getID w id).1), (getID w id).2)
  | .group => ((k, (getID w id).1), (getID w id).2)

/-- A run of the program makes objects one after the other (the constructors are the only callers of `GetID`). -/
def run (w : Nat) : List Kind → Nat → Made
  | [], _ => []
  | k :: ks, id => (make w k id).1 :: run w ks (make w k id).2

end Verif.Ident
