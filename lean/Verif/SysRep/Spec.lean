import Verif.Summary.Spec
/-!
# asclite's summary reports: vocabulary for the properties
-/
set_option autoImplicit false
namespace Verif.SysRep
open Verif.Range

abbrev Str := List Char

/-- The columns of words: correct, substituted, said by another speaker, deleted, inserted, and all errors. -/
inductive Col
  | corr | sub | spk | del | ins | err
  deriving DecidableEq, Repr

/-- The columns in the order of the table; the one on speakers only if asked for. -/
def columns (withSpk : Bool) : List Col := if withSpk then [.corr, .sub, .spk, .del, .ins, .err] else [.corr, .sub, .del, .ins, .err]

/-- What the report knows of a word of the system or of the reference. -/
inductive Verdict
  | correct | substitution | speaker | deletion | insertion
  deriving DecidableEq, Repr

/-- A number written with one decimal: the tenths `k`. -/
def oneDecimal (k : Int) : Str := (if k < 0 then ['-'] else []) ++ Nat.toDigits 10 (k.natAbs / 10) ++ ['.'] ++ Nat.toDigits 10 (k.natAbs % 10)

/-- `s` at the right end of a field of `w` places. -/
def rightIn (w : Nat) (s : Str) : Str := List.replicate (w - s.length) ' ' ++ s

/-- The part of a line from place `a` on, `w` places wide. -/
def field (line : Str) (a w : Nat) : Str := (line.drop a).take w

end Verif.SysRep
