import Verif.Lines.Model
import Verif.Split.Model
/-!
# Model of the alignment lines in sclite's SGML reports

One alignment path is one line of the report: entries separated by colons, each an evaluation letter, the words in quotes
and the auxiliary values requested in the path's attributes.  Numbers are the texts that `fprintf` prints and `atof`
reads; the conversions themselves are not modelled.
-/
set_option autoImplicit false
namespace Verif.Sgml
open Verif.Text

/-- Evaluations with two words, src/sclite/path.h:1-6. -/
inductive Ev2 where
  | corr | sub | mrg | spl
  deriving Repr, DecidableEq

/-- One element of `pset`, src/sclite/path.h:8-12: an insertion has only a hypothesis word, a deletion only a reference
word. -/
inductive Entry (W : Type) where
  | ins (b : W)
  | del (a : W)
  | pair (ev : Ev2) (a b : W)
  deriving Repr, DecidableEq

/-- The auxiliary values of words, src/sclite/path.h:18-25. -/
inductive Kind where
  | rTimes | hTimes | rConf | hConf | rWeight | hWeight
  deriving Repr, DecidableEq

/-- A word to be written, src/sclite/word.h:5-24; the numbers as printed by `%.3f` and `%f`. -/
structure Word where
  parts : Split.Parts
  t1 : List Nat
  t2 : List Nat
  conf : List Nat
  weight : List Nat
  deriving Repr, DecidableEq

/-- A word as loaded: its value and the texts given to `atof`; `none` = not set. -/
structure LWord where
  value : List Nat
  times : Option (List Nat × List Nat)
  conf : Option (List Nat)
  weight : Option (List Nat)
  deriving Repr, DecidableEq

/-- The reference word. -/
def Entry.ref {W : Type} : Entry W → Option W
  | .ins _ => none
  | .del a => some a
  | .pair _ a _ => some a

/-- The hypothesis word. -/
def Entry.hyp {W : Type} : Entry W → Option W
  | .ins b => some b
  | .del _ => none
  | .pair _ _ b => some b

/-! ## Writing -/

/-- The letters of the evaluations with two words, src/sclite/scores.c:264-275. -/
def letter : Ev2 → Nat
  | .corr => 67
  | .sub => 83
  | .mrg => 77
  | .spl => 84

/-- A word in quotes, src/sclite/scores.c:257-279 with `formatWordForSGML`. -/
def quoted (w : Word) : List Nat := 34 :: Split.format w.parts ++ [34]

/-- Evaluation letter and words of an entry, src/sclite/scores.c:255-280, with the separator ",". -/
def dumpHead : Entry Word → List Nat
  | .ins b => [73, 44, 44] ++ quoted b
  | .del a => [68, 44] ++ quoted a ++ [44]
  | .pair ev a b => [letter ev, 44] ++ quoted a ++ [44] ++ quoted b

/-- The text of one auxiliary value, without the separator in front; `none` = the word is missing, so that nothing is
printed after the separator, src/sclite/scores.c:281-330. -/
def auxText (k : Kind) (en : Entry Word) : Option (List Nat) :=
  match k with
  | .rTimes => en.ref.map fun w => w.t1 ++ 43 :: w.t2
  | .hTimes => en.hyp.map fun w => w.t1 ++ 43 :: w.t2
  | .rConf => en.ref.map (·.conf)
  | .hConf => en.hyp.map (·.conf)
  | .rWeight => en.ref.map (·.weight)
  | .hWeight => en.hyp.map (·.weight)

/-- The auxiliary values of an entry, src/sclite/scores.c:281-330. -/
def dumpAux (ks : List Kind) (en : Entry Word) : List Nat := ks.flatMap fun k => 44 :: (auxText k en).getD []

/-- One entry, src/sclite/scores.c:254-330. -/
def dumpEntry (ks : List Kind) (en : Entry Word) : List Nat := dumpHead en ++ dumpAux ks en

/-- The line of a path, src/sclite/scores.c:254-333 with the separator ":". -/
def dumpPath (ks : List Kind) : List (Entry Word) → List Nat
  | [] => [10]
  | [en] => dumpEntry ks en ++ [10]
  | en :: ens => dumpEntry ks en ++ 58 :: dumpPath ks ens

/-! ## Loading -/

/-- `strchr`: the bytes before the first `c` and those after it; `none` = not found (the caller then computes with a null
pointer). -/
def cut (c : Nat) (p : List Nat) : Option (List Nat × List Nat) :=
  match p.dropWhile (· ≠ c) with
  | [] => none
  | _ :: r => some (p.takeWhile (· ≠ c), r)

/-- A word in quotes after one more byte, src/sclite/scores.c:632-640 and 653-662; `none` = parse error or no closing quote. -/
def loadQuoted (p : List Nat) : Option (List Nat × List Nat) :=
  match p with
  | _ :: 34 :: r => cut 34 r
  | _ => none

/-- A new word with this value, src/sclite/scores.c:604-614. -/
def LWord.new (v : List Nat) : LWord := ⟨v, none, none, none⟩

/-- Evaluation letter and words of an entry, src/sclite/scores.c:587-663: the entry and the rest of the text from the byte
`p1` points to; `none` = reported as an error, or a read outside of the entry. -/
def loadHead (tok : List Nat) : Option (Entry LWord × List Nat) :=
  match tok with
  | [] => none
  | t :: p =>
    if t = 73 then
      match p with
      | _ :: 44 :: r => (loadQuoted (44 :: r)).map fun x => (.ins (.new x.1), x.2)
      | _ => none
    else if t = 68 then
      match loadQuoted p with
      | some (v, _ :: r) => if r.head? = some 44 ∨ r = [] then some (.del (.new v), r) else none
      | _ => none
    else
      match (if t = 83 then some Ev2.sub else if t = 67 then some .corr else if t = 77 then some .mrg
        else if t = 84 then some .spl else none) with
      | none => none
      | some ev =>
        match loadQuoted p with
        | none => none
        | some (v, r) => (loadQuoted r).map fun x => (.pair ev (.new v) (.new x.1), x.2)

/-- Changing the reference word. -/
def Entry.mapRef {W : Type} (f : W → W) : Entry W → Entry W
  | .ins b => .ins b
  | .del a => .del (f a)
  | .pair ev a b => .pair ev (f a) b

/-- Changing the hypothesis word. -/
def Entry.mapHyp {W : Type} (f : W → W) : Entry W → Entry W
  | .ins b => .ins (f b)
  | .del a => .del a
  | .pair ev a b => .pair ev a (f b)

/-- Storing one auxiliary value, src/sclite/scores.c:684-731; `none` = times without a plus sign (the code then writes
through a null pointer). -/
def assign (k : Kind) (item : List Nat) (en : Entry LWord) : Option (Entry LWord) :=
  match k with
  | .rTimes => if en.ref.isSome then (cut 43 item).map fun t => en.mapRef fun w => { w with times := some t } else some en
  | .hTimes => if en.hyp.isSome then (cut 43 item).map fun t => en.mapHyp fun w => { w with times := some t } else some en
  | .rConf => some (en.mapRef fun w => { w with conf := some item })
  | .hConf => some (en.mapHyp fun w => { w with conf := some item })
  | .rWeight => some (en.mapRef fun w => { w with weight := some item })
  | .hWeight => some (en.mapHyp fun w => { w with weight := some item })

/-- The loop over the auxiliary values, src/sclite/scores.c:669-740; `ks` are the declared kinds not yet used.  A value
beyond the declared ones is interpreted by whatever the table holds: `none`. -/
def auxLoop : Nat → List Kind → List Nat → Entry LWord → Option (Entry LWord)
  | _, _, [], en => some en
  | 0, _, _ :: _, _ => none
  | fuel + 1, ks, _ :: r, en =>
    match r.takeWhile (· ≠ 44), ks with
    | [], ks => auxLoop fuel (ks.drop 1) (r.dropWhile (· ≠ 44)) en
    | _ :: _, [] => none
    | c :: item, k :: ks =>
      match assign k (c :: item) en with
      | none => none
      | some en' => auxLoop fuel ks (r.dropWhile (· ≠ 44)) en'

/-- One entry, src/sclite/scores.c:586-742; without declared values the rest is ignored (with a warning). -/
def loadEntry (ks : List Kind) (tok : List Nat) : Option (Entry LWord) :=
  match loadHead tok with
  | none => none
  | some (en, p) => if ks = [] then some en else auxLoop p.length ks p en

/-- The entries of a list of tokens, each loaded in turn. -/
def loadEntries (ks : List Kind) : List (List Nat) → Option (List (Entry LWord))
  | [] => some []
  | t :: ts =>
    match loadEntry ks t with
    | none => none
    | some en => (loadEntries ks ts).map (en :: ·)

/-- A line of a path, src/sclite/scores.c:580-745: tokens by `TEXT_strqtok`, each loaded.  Simplified: the code loads each
token before it takes the next one; loading does not touch the tokeniser's state. -/
def loadPath (e : Enc) (ks : List Kind) (line : List Nat) : Option (List (Entry LWord)) :=
  match Lines.strqtokAll e [58, 10] (line.length + 1) none (some line) with
  | none => none
  | some ts => loadEntries ks ts

end Verif.Sgml
