import Verif.Net.Model
import Verif.Text.Model
import Verif.Lines.Model
import Verif.Score.Model
import Verif.CtmIn.Model
import Verif.Rfilter.Model
/-!
# Alignment by times and by word weights

The word distances `wwd_time_WORD`, `wwd_weight_WORD` and `wwd_WORD_rover` of src/sclite/word.c, the word weight lists of
src/sclite/wwscr_f.c, and what the weights of a path add to the scores.  Distances are exact whole numbers where the code has `float`
and `double`.
-/
set_option autoImplicit false
namespace Verif.Weigh
open Verif.Text

/-! ## Distances -/

/-- `wwd_time_WORD`, src/sclite/word.c:111-128, in thousandths (times in milliseconds), from the tests on words and the times it uses.
For two missing words the code exits; the alignment never asks for that. -/
def wwdTime {W : Type} (isNull : W → Bool) (equal : W → W → Bool) (t1 t2 dur : W → Int) : Option W → Option W → Int
  | none, none => 0
  | some x, none => if isNull x then 1 else dur x
  | none, some y => if isNull y then 1 else dur y
  | some x, some y => ((t1 x - t1 y).natAbs : Int) + ((t2 x - t2 y).natAbs : Int) + (if equal x y then 0 else 1)

/-- `wwd_weight_WORD`, src/sclite/word.c:130-150, in thousandths. -/
def wwdWeight {W : Type} (isNull : W → Bool) (equal : W → W → Bool) (weight : W → Int) : Option W → Option W → Int
  | none, none => 0
  | some x, none => if isNull x then 1 else weight x
  | none, some y => if isNull y then 1 else weight y
  | some x, some y => if equal x y then 0 else weight x + weight y

/-- `wwd_WORD_rover`, src/sclite/word.c:52-109, in hundred thousandths.  `sync x`: the text of `x` contains `%sync%time`; `same`:
the texts are equal (`TEXT_strcmp`).  The cost 15 of lines 103-106 is kept, though the tests before it leave no case for it. -/
def wwdRover {W : Type} (isNull optDel sync : W → Bool) (equal same : W → W → Bool) : Option W → Option W → Int
  | none, none => 0
  | some x, none => if isNull x then 100 else if sync x then 1 else if optDel x then 200000 else 300000
  | none, some y => if isNull y then 100 else if sync y then 1 else if optDel y then 200000 else 300000
  | some x, some y =>
    if (sync x || sync y) && same x y then -300000
    else if sync x || sync y then 2000000
    else if isNull x && isNull y then 100000
    else if equal x y then 0
    else if isNull x || isNull y then 100000
    else if sync x || sync y then 1500000
    else 400000

/-! ## Word weight lists -/

/-- `WWL`, src/sclite/wwscr_f.h:11-20: the words with their weight in the column in use (`curw`, always the first one: sclite.c:169)
and the weight of all others.  `numW`: the number of headings. -/
structure Wwl where
  words : List (List Nat × Int)
  dflt : Int
  numW : Nat
  deriving Repr, DecidableEq

/-- The loop of `get_weight_from_WW`, src/sclite/wwscr_f.c:558-573; `none` = undefined (an index outside of the list, or texts
that `TEXT_strcmp` cannot compare). -/
def search (e : Enc) (key : List Nat) (t : Wwl) : Nat → Int → Int → Option Int
  | 0, _, _ => none
  | fuel + 1, low, high =>
    let mid := (low + high).tdiv 2
    if mid < (t.words.length : Int) then
      match t.words[mid.toNat]? with
      | none => none
      | some s =>
        match strcmp e key s.1 with
        | none => none
        | some r =>
          if r = 0 then some s.2
          else
            let low' := if r < 0 then low else mid + 1
            let high' := if r < 0 then mid - 1 else high
            if low' ≤ high' then search e key t fuel low' high' else some t.dflt
    else if low ≤ high then search e key t fuel low high else some t.dflt

/-- `get_weight_from_WW`, src/sclite/wwscr_f.c:543-577. -/
def getWeight (e : Enc) (t : Wwl) (key : List Nat) : Option Int :=
  search e key t (t.words.length + 1) 0 ((t.words.length : Int) - 1)

/-- `Weight_wwl`, src/sclite/wwscr_f.c:260-281; 61 is the equals sign; `none` = undefined: a text with an equals sign is copied into a
buffer of 100 bytes. -/
def weightWwl (e : Enc) (t : Wwl) (str : List Nat) : Option Int :=
  if 61 ∉ str then getWeight e t str
  else if 100 ≤ str.length then none
  else
    match Lines.strtokAll e [61] (str.length + 1) none (some str) with
    | none => none
    | some ps => (ps.mapM (getWeight e t)).map List.sum

/-- `lookup_word_weight`, src/sclite/align.c:735-749, for a word with a text; 64 is the commercial at. -/
def lookupWeight (e : Enc) (t : Wwl) (w : Word) : Option Int :=
  match strcmp e w.value [64] with
  | none => none
  | some r => if r = 0 then some 0 else if w.optDel then some 0 else weightWwl e t w.value

/-- The list for the file name `unity`, src/sclite/wwscr_f.c:353-363: the word `the`, and the weight 1 (in thousandths) for all. -/
def unity : Wwl := ⟨[([116, 104, 101], 1000)], 1000, 0⟩

/-- `TEXT_strstr` for an ASCII text, src/sclite/text.c:653-673: what follows the first occurrence, upper and lower case not
distinguished.  Folding is that of ASCII letters only. -/
def after (pat l : List Nat) : Option (List Nat) :=
  (Rfilter.strstr (pat.map (cCase true)) (l.map (cCase true))).map fun i => l.drop (i + pat.length)

/-- `'Headings'` -/
def kwHeadings : List Nat := [39, 72, 101, 97, 100, 105, 110, 103, 115, 39]
/-- `'Word Spelling'` -/
def kwSpelling : List Nat := [39, 87, 111, 114, 100, 32, 83, 112, 101, 108, 108, 105, 110, 103, 39]
/-- `Default missing weight` -/
def kwDefault : List Nat :=
  [68, 101, 102, 97, 117, 108, 116, 32, 109, 105, 115, 115, 105, 110, 103, 32, 119, 101, 105, 103, 104, 116]

/-- The descriptions of the columns, src/sclite/wwscr_f.c:415-424; 39 is the quote; `none` = undefined: a quote without a partner (the
search goes on from the address 1), or more than 10 descriptions (`MAX_W`). -/
def headings : Nat → Nat → List Nat → Option Nat
  | 0, _, _ => none
  | fuel + 1, n, p =>
    match Rfilter.strchr 39 p with
    | none => some n
    | some i =>
      let q := p.drop (i + 1)
      match Rfilter.strchr 39 q with
      | none => none
      | some j => if 10 ≤ n then none else headings fuel (n + 1) (q.drop (j + 1))

/-- `TEXT_is_comment`, src/sclite/text.c:1404-1417. -/
def isComment (l : List Nat) : Bool := l.head? = some 59 && l[1]? = some 59

/-- `TEXT_is_empty`, src/sclite/text.c:1383-1397; `none` = exit. -/
def isEmpty (e : Enc) : List Nat → Option Bool
  | [] => some true
  | b :: p =>
    match nbytes e b with
    | none => none
    | some n => if 1 < n then some false else if !Lines.isSpace b then some false else isEmpty e p

/-- What reading one line leads to. -/
inductive Load where
  | undef
  | fail
  | ok (t : Wwl)
  deriving Repr, DecidableEq

/-- A comment or a blank line in `load_WWL`, src/sclite/wwscr_f.c:405-436: headings or the default weight.  `atof` is the conversion of
numbers (in thousandths). -/
def loadInfo (atof : List Nat → Int) (t : Wwl) (l : List Nat) : Load :=
  match after kwHeadings l with
  | some p =>
    match after kwSpelling p with
    | none => .ok t
    | some q =>
      match headings (q.length + 1) t.numW q with
      | none => .undef
      | some n => .ok { t with numW := n }
  | none =>
    match after kwDefault l with
    | none => .ok t
    | some _ =>
      match Rfilter.strchr 39 l with
      | none => .ok t
      | some i =>
        let q := l.drop (i + 1)
        match Rfilter.strchr 39 q with
        | none => .ok t
        | some j => .ok { t with dflt := atof (q.take j) }

/-- One line in `load_WWL`, src/sclite/wwscr_f.c:374-437.  Only the first weight is kept; the growing of the array is left out. -/
def loadLine (e : Enc) (atof : List Nat → Int) (t : Wwl) (l : List Nat) : Load :=
  if isComment l then loadInfo atof t l
  else
    match isEmpty e l with
    | none => .undef
    | some true => loadInfo atof t l
    | some false =>
      match (CtmIn.wordsFrom [] l).take 6 with
      | w :: x :: _ => .ok { t with words := t.words ++ [(w, atof x)] }
      | _ => .fail

/-- The lines of a file, src/sclite/wwscr_f.c:374-437; lines are the buffers read by `TEXT_fgets` (1000 bytes; a longer line makes the
program ask and abort). -/
def loadLines (e : Enc) (atof : List Nat → Int) : Wwl → List (List Nat) → Load
  | t, [] => .ok t
  | t, l :: ls =>
    match loadLine e atof t l with
    | .ok t' => loadLines e atof t' ls
    | .fail => .fail
    | .undef => .undef

/-- `load_WWL` for a file that can be opened, src/sclite/wwscr_f.c:324-459, up to the sorting of the words (`qsort`, line 455). -/
def load (e : Enc) (atof : List Nat → Int) (ls : List (List Nat)) : Load := loadLines e atof ⟨[], 0, 0⟩ ls

/-! ## Scores -/

/-- The entries of a path as `add_PATH_score` sees them, src/sclite/scores.c:1015-1039: by evaluation, with the words read there;
`none` = a missing word would be read. -/
def asScore {W : Type} (p : Net.Entry W) : Option (Sgml.Entry W) :=
  match p.eval, p.a, p.b with
  | .ins, _, some b => some (.ins b)
  | .del, some a, _ => some (.del a)
  | .corr, some a, some b => some (.pair .corr a b)
  | .sub, some a, some b => some (.pair .sub a b)
  | _, _, _ => none

/-- The group after `add_PATH_score` on the path of an alignment, src/sclite/scores.c:1012-1052 (path not kept). -/
def scorePath {W : Type} (weight : W → Int) (g : Score.Grp W) (path : List (Net.Entry W)) : Option (Score.Grp W) :=
  match path.mapM asScore with
  | none => none
  | some es => Score.addToGrp weight g es false

end Verif.Weigh
