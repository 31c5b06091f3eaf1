import Verif.TextVal.Spec
/-!
# What a user expects of the conversion of RTTM files
-/
set_option autoImplicit false
namespace Verif.Rttm2Ctm
open Verif.TextVal

/-- A time or a confidence of an RTTM file: a decimal number, with or without digits before the point, or `<NA>`. -/
def Time (s : List Char) : Prop :=
  Some Char.isDigit s ∨ (∃ a b, s = a ++ '.' :: b ∧ (∀ c ∈ a, c.isDigit = true) ∧ Some Char.isDigit b) ∨ s = "<NA>".toList

/-- A subtype: letters, digits, `_`, `&` and `-`, or `<NA>`. -/
def Subtype (s : List Char) : Prop :=
  Some (fun c => c.isAlpha || c.isDigit || c == '_' || c == '&' || c == '-') s ∨ s = "<NA>".toList

/-- The types of RTTM records. -/
def Kind (s : List Char) : Prop :=
  ∃ k ∈ ["SPKR-INFO", "SEGMENT", "LEXEME", "NON-LEX", "CB", "SU", "EDIT", "FILLER", "IP", "NOSCORE", "SPEAKER", "NORTMETADATA", "NON-SPEECH", "A/P"],
    s = k.toList

/-- A record of an RTTM file: type, file, channel, begin, duration, token, subtype, speaker, confidence, and perhaps more. -/
def Rttm (fs : List (List Char)) : Prop :=
  ∃ kind file chan beg dur token sub spkr conf more, fs = kind :: file :: chan :: beg :: dur :: token :: sub :: spkr :: conf :: more ∧
    Kind kind ∧ Some Char.isDigit chan ∧ Time beg ∧ Time dur ∧ Subtype sub ∧ Time conf

/-- The fields of the CTM record for a record, if it is a word. -/
def ctm (fs : List (List Char)) : Option (List (List Char)) :=
  match fs with
  | kind :: file :: chan :: beg :: dur :: token :: sub :: _ :: conf :: _ =>
    if kind = "LEXEME".toList ∧ sub = "lex".toList then some [file, chan, beg, dur, token, conf] else none
  | _ => none

/-- Fields on one line. -/
def line : List (List Char) → List Char
  | [] => []
  | [f] => f
  | f :: fs => f ++ ' ' :: line fs

/-- A line of an RTTM file: a comment, or the fields of a record, without two semicolons next to one another. -/
def Entry (l : List Char) : Option (List (List Char)) → Prop
  | none => Comment l
  | some fs => Layout fs l ∧ Rttm fs ∧ ¬ Contains ";;" l

end Verif.Rttm2Ctm
