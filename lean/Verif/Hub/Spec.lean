import Verif.TextVal.Spec
/-!
# What a user expects of the driver of evaluations
-/
set_option autoImplicit false
namespace Verif.Hub
open Verif.TextVal

/-- A line without the white space before it. -/
def bare (l : List Char) : List Char := l.dropWhile white

/-- The records of a file: the lines that are neither empty nor comments. -/
def records (lines : List (List Char)) : List (List Char) := (lines.map bare).filter (fun l => !(l.take 2 == [';', ';']) && l != [])

/-- The comments of a file. -/
def comments (lines : List (List Char)) : List (List Char) := (lines.map bare).filter (fun l => l.take 2 == [';', ';'])

/-- A field of a record, empty if there is none. -/
def nth (fs : List (List Char)) (n : Nat) : List Char := (fs[n]?).getD []

/-- Records in order: by file, then by channel, then by the time in field `n`. -/
def InOrder (num : List Char → Int) (n : Nat) (fs gs : List (List Char)) : Prop :=
  nth fs 0 < nth gs 0 ∨ (nth fs 0 = nth gs 0 ∧ (nth fs 1 < nth gs 1 ∨ (nth fs 1 = nth gs 1 ∧ num (nth fs n) ≤ num (nth gs n))))

/-- The same white space follows the name of the file in every record. -/
def OneSep (g : List Char) (lines : List (List Char)) : Prop :=
  ∀ l ∈ records lines, ∃ f rest, l = f ++ g ++ rest ∧ (∀ c ∈ f, white c = false) ∧ ∀ c r, rest = c :: r → white c = false

/-- Fields on one line. -/
def spaced : List (List Char) → List Char
  | [] => []
  | [f] => f
  | f :: fs => f ++ ' ' :: spaced fs

end Verif.Hub
