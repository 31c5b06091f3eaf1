import Verif.Lines.Spec
import Verif.Chan.Model
/-!
# Reading long files through tables of limited size: vocabulary for the properties
-/
set_option autoImplicit false
namespace Verif.Feed

/-- What the reader of time-marked files makes of a line: a comment, a reported error, undefined behaviour, or a record. -/
inductive Line (X : Type) where
  | comment
  | fail
  | undef
  | data (x : X)
deriving DecidableEq

/-- The records of the lines that are no comments, in order. -/
def records {L X : Type} (read : L → Line X) (lines : List L) : List X :=
  lines.filterMap (fun l => match read l with | .data x => some x | _ => none)

/-- Every line is a comment or a record. -/
def Clean {L X : Type} (read : L → Line X) (lines : List L) : Prop :=
  ∀ l ∈ lines, read l = .comment ∨ ∃ x, read l = .data x

/-- The lines of a file: each but possibly the last is ended by a newline. -/
def Ended {L : Type} (ends : L → Bool) (lines : List L) : Prop := ∀ l ∈ lines.dropLast, ends l = true

/-- Records, each completed with the help of the completed record before it. -/
def completed {X Y : Type} (tag : Option Y → X → Y) : Option Y → List X → List Y
  | _, [] => []
  | p, x :: xs => tag p x :: completed tag (some (tag p x)) xs

/-- The segments of a file of references: the lines that are not to be skipped, and the last one if no newline ends it. -/
def segments {L Y : Type} (ends skip : L → Bool) (parse : L → Y) (lines : List L) : List Y :=
  (lines.filter (fun l => !(skip l && ends l))).map parse

/-- A text, as bytes, has these words: maximal sequences of characters other than space, tab and newline. -/
def HasWords (e : Text.Enc) (text : List Nat) (ts : List (List (List Nat))) : Prop :=
  ∃ cs : List (List Nat), text = cs.flatten ∧ (∀ c ∈ cs, Text.IsChar e c) ∧ Lines.Fields (Lines.IsSep [32, 9, 10]) cs ts

/-- The label among the fields after the fifth of a reference segment: the first of them, if it begins with `<`. -/
def labelOf : List (List (List Nat)) → Option (List Nat)
  | [] => none
  | t :: _ => if t.flatten.head? = some 60 then some t.flatten else none

/-- The words among the fields after the fifth. -/
def wordsOf : List (List (List Nat)) → List (List (List Nat))
  | [] => []
  | t :: ts => if t.flatten.head? = some 60 then ts else t :: ts

/-- A time from a field that may be marked as bad by a leading `&&`. -/
def timeOf {N : Type} (num : List Nat → N) (f : List Nat) : N := if [38, 38].isPrefixOf f then num (f.drop 2) else num f

/-- A confidence from the field after the word, if there is one and it is not `NA` in whatever case. -/
def confOf {N : Type} (num : List Nat → N) : List (List Nat) → Option N
  | [] => none
  | f :: _ => if f.map (fun b => if 97 ≤ b ∧ b ≤ 122 then b - 32 else b) = [78, 65] then none else some (num f)

end Verif.Feed
