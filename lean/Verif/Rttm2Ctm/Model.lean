import Verif.TextVal.Model
/-!
# Conversion of RTTM files to CTM files (src/rttm2ctm/rttm2ctm.pl)

Lines come without their end of line, which the program keeps: it is white space after the last field. Characters stand for bytes, and the matching of
whole fields is that of the validators (`Verif.TextVal.run`). The options and the files are not modelled, nor is the order of types, which is not used.
-/
set_option autoImplicit false
namespace Verif.Rttm2Ctm
open Verif.TextVal

/-- The types in the expression: src/rttm2ctm/rttm2ctm.pl 41. -/
def kinds : List String :=
  ["SPKR-INFO", "SEGMENT", "LEXEME", "NON-LEX", "CB", "SU", "EDIT", "FILLER", "IP", "NOSCORE", "SPEAKER", "NORTMETADATA", "NON-SPEECH", "A/P"]

/-- `/;;/`: src/rttm2ctm/rttm2ctm.pl 37. -/
def skipped : List Char → Bool
  | [] => false
  | c :: s => (c == ';' && s.head? == some ';') || skipped s

/-- `\d*\.?\d+|<NA>` up to white space: src/rttm2ctm/rttm2ctm.pl 41. -/
def time : Re :=
  .alt (.seq (.star (.cls Char.isDigit)) (.seq (Re.opt (chr '.')) (Re.cls Char.isDigit).plus)) (txt "<NA>")

/-- `[\w&-]+|<NA>`: src/rttm2ctm/rttm2ctm.pl 41. -/
def subtype : Re := .alt (Re.cls (fun c => c.isAlpha || c.isDigit || c == '_' || c == '&' || c == '-')).plus (txt "<NA>")

/-- `(\d*\.?\d+|<NA>)` at the end of the expression, where anything may follow: digits, a point and digits as far as they go:
src/rttm2ctm/rttm2ctm.pl 41. -/
def leading (s : List Char) : Option (List Char) :=
  let a := s.takeWhile Char.isDigit
  match s.dropWhile Char.isDigit with
  | '.' :: t =>
    let b := t.takeWhile Char.isDigit
    if b.isEmpty then (if a.isEmpty then none else some a) else some (a ++ '.' :: b)
  | _ => if a.isEmpty then (if "<NA>".toList.isPrefixOf s then some "<NA>".toList else none) else some a

/-- The type a field ends with; the expression is not anchored, and no type is the end of another: src/rttm2ctm/rttm2ctm.pl 41. -/
def kindOf (f : List Char) : Option String := kinds.find? (fun k => k.toList.isSuffixOf f)

/-- What is captured: type, file, channel, begin, duration, token, subtype, confidence (the speaker is not used): src/rttm2ctm/rttm2ctm.pl 43. -/
structure Captured where
  kind : String
  file : List Char
  chan : List Char
  beg : List Char
  dur : List Char
  token : List Char
  sub : List Char
  conf : List Char
  deriving DecidableEq

/-- The expression from a field that ends with the type on. Every part but the last is followed by white space, so that it is a whole field; the class of
the token and that of the speaker have all characters but white space: src/rttm2ctm/rttm2ctm.pl 38-41. -/
def matchAt (fs : List (List Char)) : Option Captured :=
  match fs with
  | f :: file :: chan :: beg :: dur :: token :: sub :: _ :: conf :: _ =>
    match kindOf f, leading conf with
    | some k, some v =>
      if run (Re.cls Char.isDigit).plus chan && run time beg && run time dur && run subtype sub then some ⟨k, file, chan, beg, dur, token, sub, v⟩ else none
    | _, _ => none
  | _ => none

/-- The leftmost match: src/rttm2ctm/rttm2ctm.pl 41. -/
def find : List (List Char) → Option Captured
  | [] => none
  | f :: fs =>
    match matchAt (f :: fs) with
    | some r => some r
    | none => find fs

/-- `"$file $chan $beg $dur $token $conf\n"`: src/rttm2ctm/rttm2ctm.pl 45. -/
def written (r : Captured) : List Char :=
  r.file ++ ' ' :: r.chan ++ ' ' :: r.beg ++ ' ' :: r.dur ++ ' ' :: r.token ++ ' ' :: r.conf

/-- The lines written for a match: src/rttm2ctm/rttm2ctm.pl 44-46. -/
def emit (r : Captured) : List (List Char) := if r.kind == "LEXEME" && r.sub == "lex".toList then [written r] else []

/-- The lines written, and whether the program got to the end: src/rttm2ctm/rttm2ctm.pl 36-50. -/
def convert : List (List Char) → List (List Char) × Bool
  | [] => ([], true)
  | l :: ls =>
    if skipped l then convert ls
    else
      match find (words [] l) with
      | some r => (emit r ++ (convert ls).1, (convert ls).2)
      | none => ([], false)

end Verif.Rttm2Ctm
