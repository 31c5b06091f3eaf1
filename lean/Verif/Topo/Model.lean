import Verif.Topo.Spec
/-!
# Model of the listing of a segment's tokens (asclite `segment.cpp`)
-/
set_option autoImplicit false
namespace Verif.Topo

/-- The loop over the successors of a token (segment.cpp:244-253); `visit` is the recursive call. -/
def over (visit : Nat → List Nat → Option (List Nat)) : List Nat → List Nat → Option (List Nat)
  | [], done => some done
  | t :: ts, done =>
    if t ∈ done then over visit ts done
    else
      match visit t (done ++ [t]) with
      | none => none
      | some done' => over visit ts done'

/-- `Segment::ToTopologicalOrderedStruct(Token*, vector<Token*>*)` (segment.cpp:240-255); the first argument bounds the depth of the
recursion, `none` stands for exceeding it. -/
def visit (s : Seg) : Nat → Nat → List Nat → Option (List Nat)
  | 0, _, _ => none
  | f + 1, start, done => if s.last start then some done else over (visit s f) (s.next start) done

/-- The loop of `Segment::ToTopologicalOrderedStruct()` (segment.cpp:223-235): first tokens are added without a test. -/
def roots (s : Seg) (f : Nat) : List Nat → List Nat → Option (List Nat)
  | [], done => some done
  | t :: ts, done =>
    match visit s f t (done ++ [t]) with
    | none => none
    | some done' => roots s f ts done'

/-- `Segment::ToTopologicalOrderedStruct()` (segment.cpp:223-235). -/
def listing (s : Seg) (f : Nat) : Option (List Nat) := roots s f s.first []

/-- The destructor of a segment deletes the tokens of the listing one by one (segment.cpp:126-142); `none`: a token is deleted twice. -/
def deleteAll : List Nat → List Nat → Option (List Nat)
  | [], gone => some gone
  | t :: ts, gone => if t ∈ gone then none else deleteAll ts (t :: gone)

end Verif.Topo
