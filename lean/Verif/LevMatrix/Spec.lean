/-!
# Specification vocabulary for the cost tables

A cost table is used through stores and reads at coordinates (one natural number per
dimension).  The specification keeps the whole contents as a function from
coordinates to costs; `-1` is the documented "not calculated" value.  Nothing here
mentions how the tables are stored.
-/
set_option autoImplicit false
namespace Verif.LevMatrix

/-- A coordinate: one index per dimension. -/
abbrev Coord := List Nat

/-- Operations a client can perform on a cost table. -/
inductive Op where
  | set (c : Coord) (v : Int)
  | get (c : Coord)
  deriving Repr, DecidableEq

/-- A coordinate is in range when it has one index per dimension, each below the
dimension's size. -/
def InRange : List Nat → Coord → Prop
  | [], [] => True
  | d :: ds, x :: xs => x < d ∧ InRange ds xs
  | _, _ => False

instance instDecInRange : ∀ ds c, Decidable (InRange ds c)
  | [], [] => isTrue trivial
  | d :: ds, x :: xs =>
    have := instDecInRange ds xs
    inferInstanceAs (Decidable (x < d ∧ InRange ds xs))
  | [], _ :: _ => isFalse id
  | _ :: _, [] => isFalse id

/-- Coordinate touched by an operation. -/
def Op.coord : Op → Coord
  | .set c _ => c
  | .get c => c

/-- The stores of a history, oldest first. -/
def stores : List Op → List (Coord × Int)
  | [] => []
  | .set c v :: ops => (c, v) :: stores ops
  | .get _ :: ops => stores ops

/-- What a read of `c` must return after `past` (oldest first): the last value stored
at `c`, and `-1` if there is none. -/
def readAfter (past : List Op) (c : Coord) : Int :=
  match (stores past).reverse.find? (fun p => p.1 = c) with
  | some p => p.2
  | none => -1

/-- The answers a client must see for a history that follows `past`. -/
def answers (past : List Op) : List Op → List Int
  | [] => []
  | .set c v :: ops => answers (past ++ [.set c v]) ops
  | .get c :: ops => readAfter past c :: answers (past ++ [.get c]) ops

/-- Number of distinct coordinates ever stored. -/
def distinctStored (h : List Op) : Nat :=
  ((stores h).map (·.1)).eraseDups.length

end Verif.LevMatrix
