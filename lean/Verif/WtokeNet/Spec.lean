import Verif.Split.Model
/-!
# Networks from time-marked words: vocabulary for the properties
-/
set_option autoImplicit false
namespace Verif.WtokeNet
open Verif.Split Verif.Text

/-- A line of a time-marked file: text, begin time, duration and confidence; whether it is left out of scoring, and whether it
belongs to an alternation. -/
structure Tok where
  sp : List Nat
  t1 : Rat
  dur : Rat
  conf : Rat
  ignore : Bool
  alternate : Bool
deriving DecidableEq

/-- A word of a network: its text parts, times and confidence. -/
structure Wd where
  parts : Parts
  t1 : Rat
  t2 : Rat
  conf : Rat
deriving DecidableEq

/-- ASCII capitals to lower case. -/
def low (b : Nat) : Nat := if 65 ≤ b ∧ b ≤ 90 then b + 32 else b

/-- `s` is the text `m` (given in lower case) in any case. -/
def Is (m s : List Nat) : Prop := s.map low = m

/-- `<alt_begin>` -/
def beginMark : List Nat := [60, 97, 108, 116, 95, 98, 101, 103, 105, 110, 62]
/-- `<alt>` -/
def orMark : List Nat := [60, 97, 108, 116, 62]
/-- `<alt_end>` -/
def endMark : List Nat := [60, 97, 108, 116, 95, 101, 110, 100, 62]
/-- `<alt` -/
def stem : List Nat := [60, 97, 108, 116]

/-- An ordinary word: the text does not begin with `<ALT`. -/
def Plain (t : Tok) : Prop := (t.sp.map low).take 4 ≠ stem

/-- What a word list consists of: words left out, single words, and alternations: the `<ALT_BEGIN>` line, the words of the first
alternative, for each further one its `<ALT>` line and its words, and the `<ALT_END>` line. -/
inductive Item where
  | skip (t : Tok)
  | single (t : Tok)
  | block (b : Tok) (first : List Tok) (more : List (Tok × List Tok)) (e : Tok)

/-- The lines of an item. -/
def Item.lines : Item → List Tok
  | .skip t => [t]
  | .single t => [t]
  | .block b first more e => b :: first ++ more.flatMap (fun x => x.1 :: x.2) ++ [e]

/-- The word of a line: text and tags, begin, end, and the confidence, -1 in a file without confidences. -/
def IsWord (enc : Enc) (hasConf : Bool) (t : Tok) (w : Wd) : Prop :=
  parseText enc t.sp = some w.parts ∧ w.t1 = t.t1 ∧ w.t2 = t.t1 + t.dur ∧ w.conf = if hasConf then t.conf else -1

/-- The words of lines. -/
inductive AreWords (enc : Enc) (hasConf : Bool) : List Tok → List Wd → Prop where
  | nil : AreWords enc hasConf [] []
  | cons (t : Tok) (w : Wd) (ts : List Tok) (ws : List Wd) : IsWord enc hasConf t w → AreWords enc hasConf ts ws →
      AreWords enc hasConf (t :: ts) (w :: ws)

/-- The null word "@" standing for an empty alternative after the line `s`. -/
def nullWord (hasConf : Bool) (s : Tok) : Wd := ⟨⟨[64], none, none⟩, 0, 0, if hasConf then s.conf else -1⟩

/-- The word sequences an item can be read as. -/
inductive Item.Reads (enc : Enc) (hasConf : Bool) : Item → List Wd → Prop where
  | skip (t : Tok) : Item.Reads enc hasConf (.skip t) []
  | single (t : Tok) (w : Wd) : IsWord enc hasConf t w → Item.Reads enc hasConf (.single t) [w]
  | first (b : Tok) (first : List Tok) (more : List (Tok × List Tok)) (e : Tok) (ws : List Wd) :
      AreWords enc hasConf first ws → Item.Reads enc hasConf (.block b first more e) ws
  | other (b : Tok) (first : List Tok) (more : List (Tok × List Tok)) (e s : Tok) (alt : List Tok) (ws : List Wd) :
      (s, alt) ∈ more → alt ≠ [] → AreWords enc hasConf alt ws → Item.Reads enc hasConf (.block b first more e) ws
  | empty (b : Tok) (first : List Tok) (more : List (Tok × List Tok)) (e s : Tok) :
      (s, []) ∈ more → Item.Reads enc hasConf (.block b first more e) [nullWord hasConf s]

/-- The word sequences a list of items can be read as: each item in one of its readings, in order. -/
inductive Reads (enc : Enc) (hasConf : Bool) : List Item → List Wd → Prop where
  | nil : Reads enc hasConf [] []
  | cons (i : Item) (is : List Item) (us vs : List Wd) : i.Reads enc hasConf us → Reads enc hasConf is vs →
      Reads enc hasConf (i :: is) (us ++ vs)

/-- The text of the line can be taken apart (it has no dangling escape). -/
def HasWord (enc : Enc) (t : Tok) : Prop := ∃ p, parseText enc t.sp = some p

/-- Properly marked items: lines outside alternations are not marked as belonging to one, an alternation has its marks, its
alternatives consist of ordinary words, and none but the last of several is empty. -/
def Item.Ok (enc : Enc) : Item → Prop
  | .skip t => t.ignore = true
  | .single t => t.ignore = false ∧ t.alternate = false ∧ HasWord enc t
  | .block b first more e => b.ignore = false ∧ b.alternate = true ∧ Is beginMark b.sp ∧ Is endMark e.sp ∧
      first ≠ [] ∧ (∀ t ∈ first, Plain t ∧ HasWord enc t) ∧
      (∀ x ∈ more, Is orMark x.1.sp ∧ ∀ t ∈ x.2, Plain t ∧ HasWord enc t) ∧ (∀ x ∈ more.dropLast, x.2 ≠ [])

/-- The lines of a list of items. -/
def linesOf (is : List Item) : List Tok := is.flatMap Item.lines

end Verif.WtokeNet
