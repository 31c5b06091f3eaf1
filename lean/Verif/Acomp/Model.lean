/-!
# The splitter of German compounds (src/acomp/acomp.pl)

Text is a list of bytes (the script works on Latin-1), a word is a list of bytes without white space.
-/
set_option autoImplicit false
namespace Verif.Acomp

/-- Text, as bytes. -/
abbrev Text := List Nat

/-- The bytes of a string; used for writing texts down. Models nothing in the code. -/
def b (s : String) : Text := s.toList.map Char.toNat

/-- `tr/a-z/A-Z/` and `tr/\340-\377/\300-\337/` on one byte: src/acomp/acomp.pl 144-145 and 297-298. -/
def up (c : Nat) : Nat :=
  if 97 ≤ c ∧ c ≤ 122 then c - 32 else if 224 ≤ c ∧ c ≤ 255 then c - 32 else c

/-- `\s` of Perl: src/acomp/acomp.pl 99, 103, 146, 151. -/
def isWs (c : Nat) : Bool := c == 32 || (9 ≤ c && c ≤ 13)

/-- `[-_]`: src/acomp/acomp.pl 300-301. -/
def isDash (c : Nat) : Bool := c == 45 || c == 95

/-- The parts between the maximal runs of such bytes, the empty ones at both ends included.
With `isDash` these are the words that `s/[-_]+/ /g` separates by spaces: src/acomp/acomp.pl 301. -/
def parts (p : Nat → Bool) : Text → List Text
  | [] => [[]]
  | c :: cs =>
    if p c then
      match cs with
      | [] => [[], []]
      | d :: _ => if p d then parts p cs else [] :: parts p cs
    else
      match parts p cs with
      | [] => [[c]]
      | w :: ws => (c :: w) :: ws

/-- A list without the empty parts at its end, which Perl's split drops: src/acomp/acomp.pl 103, 146, 151, 303. -/
def dropEnd : List Text → List Text
  | [] => []
  | w :: ws =>
    match dropEnd ws with
    | [] => if w = [] then [] else [w]
    | v :: vs => w :: v :: vs

/-- `split(/\s+/,$s)`: src/acomp/acomp.pl 103, 146, 151, 303. -/
def split (s : Text) : List Text := dropEnd (parts isWs s)

/-- Words with a space between two of them: src/acomp/acomp.pl 152, 159 and 162 (a space after each, the last one removed),
232 (the constituents found so far and the last one) and 301. -/
def join : List Text → Text
  | [] => []
  | [w] => w
  | w :: v :: ws => w ++ 32 :: join (v :: ws)

/-- The options -m, -t, -s and -f: src/acomp/acomp.pl 37-43, 58-61. -/
structure Opts where
  min : Nat := 2
  triplets : Bool := true
  inserts : Bool := true
  frag : Bool := false

/-- What LoadLex fills: `%LexHash`, `%CompHash` (newest entry first) and `$MaxLen`: src/acomp/acomp.pl 34-36. -/
structure Dict where
  lex : List Text
  comp : List (Text × Text)
  maxLen : Nat

/-- `$CompHash{$text}`, the empty text if there is none: src/acomp/acomp.pl 172-174. -/
def Dict.get (d : Dict) (t : Text) : Text :=
  match d.comp.find? (fun e => e.1 == t) with
  | some e => e.2
  | none => []

/-- One word of the lexicon, in capitals: src/acomp/acomp.pl 300-316. -/
def addWord (d : Dict) (w : Text) : Dict :=
  if w.any isDash then
    let sep := join (parts isDash w)
    let cmp := w.filter (fun c => c != 95)
    let d1 := (split sep).foldl (fun d sw =>
      { d with lex := sw :: d.lex, maxLen := if d.maxLen < sw.length then sw.length else d.maxLen }) d
    let d2 := { d1 with comp := (cmp, sep) :: d1.comp }
    if cmp.any (fun c => c == 45) then
      { d2 with comp := (cmp.filter (fun c => c != 45), sep) :: d2.comp }
    else d2
  else { d with lex := w :: d.lex, comp := (w, w) :: d.comp }

/-- LoadLex: src/acomp/acomp.pl 288-320. A line is given by its first field (the empty text for a blank line). -/
def load (ws : List Text) : Dict :=
  (ws.map (fun w => w.map up)).foldl addWord { lex := [], comp := [], maxLen := 0 }

/-- `/^[sS]/`: src/acomp/acomp.pl 268, 270. -/
def startsS : Text → Bool
  | c :: _ => c == 115 || c == 83
  | [] => false

/-- `/^[eE][nN]/`: src/acomp/acomp.pl 268, 271. -/
def startsEN : Text → Bool
  | c :: d :: _ => (c == 101 || c == 69) && (d == 110 || d == 78)
  | _ => false

/-- The letters `bcdfghjklmnpqrstvwxyz`: src/acomp/acomp.pl 255. -/
def consonants : List Nat :=
  [98, 99, 100, 102, 103, 104, 106, 107, 108, 109, 110, 112, 113, 114, 115, 116, 118, 119, 120, 121, 122]

/-- `/([bcdfghjklmnpqrstvwxyz])\1$/`: src/acomp/acomp.pl 255. -/
def geminate (w : Text) : Bool :=
  match w.reverse with
  | c :: d :: _ => c == d && consonants.contains c
  | _ => false

/-- What a call of is_Compound does to the list of expansions, and whether it returns 1; `none` for a search that does not end.
A stored expansion is the list of its constituents, the code stores them with spaces in between: src/acomp/acomp.pl 216-286. -/
abbrev Found := Option (List (List Text) × Bool)

/-- The body of the loop over the prefixes of the word, for the prefix of length `i`; `rec` is the recursive call: src/acomp/acomp.pl 239-282. -/
def tryAt (rec : List Text → Text → List (List Text) → Found) (o : Opts) (d : Dict) (hist : List Text) (val : Text) (i : Nat)
    (comps : List (List Text)) : Found :=
  let sval := val.take i
  if d.lex.contains sval then
    match (if o.min ≤ (val.drop i).length then rec (hist ++ [sval]) (val.drop i) comps else some (comps, false)) with
    | none => none
    | some (c1, true) => some (c1, true)
    | some (c1, false) =>
      let gem := o.triplets && geminate sval
      let resid := if gem then val.drop (i - 1) else val.drop i
      match (if gem && decide (o.min ≤ resid.length) then rec (hist ++ [sval]) resid c1 else some (c1, false)) with
      | none => none
      | some (c2, true) => some (c2, true)
      | some (c2, false) =>
        if o.inserts && (startsS resid || startsEN resid) then
          let resid1 := if startsS resid then val.drop (i + 1) else resid
          let resid2 := if startsEN resid1 then val.drop (i + 2) else resid1
          if o.min ≤ resid2.length then rec (hist ++ [sval]) resid2 c2 else some (c2, false)
        else some (c2, false)
  else some (comps, false)

/-- The loop over the lengths `i`, from the given one down to the minimum: src/acomp/acomp.pl 238-283. -/
def loop (rec : List Text → Text → List (List Text) → Found) (o : Opts) (d : Dict) (hist : List Text) (val : Text) :
    Nat → List (List Text) → Found
  | 0, comps => if 0 < o.min then some (comps, false) else tryAt rec o d hist val 0 comps
  | i + 1, comps =>
    if i + 1 < o.min then some (comps, false)
    else
      match tryAt rec o d hist val (i + 1) comps with
      | some (c, false) => loop rec o d hist val i c
      | r => r

/-- is_Compound: src/acomp/acomp.pl 216-286. The first argument bounds the depth of the recursion, `none` if it is reached. -/
def isCompound (o : Opts) (d : Dict) : Nat → List Text → Text → List (List Text) → Found
  | 0, _, _, _ => none
  | f + 1, hist, val, comps =>
    if d.lex.contains val then some (comps ++ [hist ++ [val]], true)
    else loop (isCompound o d f) o d hist val (if val.length < d.maxLen then val.length else d.maxLen) comps

/-- The expansions of one word: src/acomp/acomp.pl 185 and 196. -/
def expansions (o : Opts) (d : Dict) (t : Text) : Option (List (List Text)) :=
  (isCompound o d (t.length + 1) [] t []).map (fun r => r.1)

/-- The loop over the beginnings of a fragment: src/acomp/acomp.pl 183-193. -/
def fragLoop (o : Opts) (d : Dict) (t : Text) : Nat → Option (List (List Text))
  | 0 =>
    if 0 < o.min then some []
    else (expansions o d (t.take 0)).map (fun cs => cs.map (fun e => e ++ [t.drop 0]))
  | i + 1 =>
    if i + 1 < o.min then some []
    else
      match expansions o d (t.take (i + 1)) with
      | none => none
      | some [] => fragLoop o d t i
      | some cs => some (cs.map (fun e => e ++ [t.drop (i + 1)]))

/-- The test whether a word ends with a hyphen: src/acomp/acomp.pl 150, 176. -/
def endsDash (t : Text) : Bool := t.getLast? == some 45

/-- The expansions looked for: src/acomp/acomp.pl 176-197. -/
def search (o : Opts) (d : Dict) (t : Text) : Option (List (List Text)) :=
  if o.frag && endsDash t then
    if 2 ≤ t.length then fragLoop o d t (t.length - 2) else some []
  else expansions o d t

/-- What is written for a word with these expansions: src/acomp/acomp.pl 199-209. -/
def render (t : Text) : List (List Text) → Text
  | [] => t
  | [e] => join e
  | es => 123 :: (es.flatMap (fun e => 32 :: join e ++ [32, 47])).dropLast ++ [125]

/-- Comp_LU: src/acomp/acomp.pl 166-214. -/
def compLU (o : Opts) (d : Dict) (t : Text) : Option (Text × Dict) :=
  if d.get t ≠ [] then some (d.get t, d)
  else (search o d t).map (fun es => (render t es, { d with comp := (t, render t es) :: d.comp }))

/-- `/^\(.*\)$/`: src/acomp/acomp.pl 147. -/
def isParen (w : Text) : Bool := 2 ≤ w.length && w.head? == some 40 && w.getLast? == some 41

/-- `s/(\S+-)$/aq($1)/`, which is no call of a function: the text `aq(`, the fragment and `)`: src/acomp/acomp.pl 155. -/
def aq (s : Text) : Text :=
  let r := s.reverse.takeWhile (fun c => !isWs c)
  if 2 ≤ r.length && r.head? == some 45 then
    (s.reverse.dropWhile (fun c => !isWs c)).reverse ++ [97, 113, 40] ++ r.reverse ++ [41]
  else s

/-- What is written for one word of a text: src/acomp/acomp.pl 147-160. -/
def wordLU (o : Opts) (d : Dict) (w : Text) : Option (List Text × Dict) :=
  if isParen w then
    let v := (w.drop 1).dropLast
    match compLU o d v with
    | none => none
    | some (l, d1) =>
      if !endsDash v || !o.frag then some ((split l).map (fun ne => 40 :: ne ++ [41]), d1)
      else some ([aq l], d1)
  else
    match compLU o d w with
    | none => none
    | some (l, d1) => some ([l], d1)

/-- The words of a text one after the other: src/acomp/acomp.pl 146-161. -/
def wordsLU (o : Opts) : Dict → List Text → Option (List Text × Dict)
  | d, [] => some ([], d)
  | d, w :: ws =>
    match wordLU o d w with
    | none => none
    | some (x, d1) =>
      match wordsLU o d1 ws with
      | none => none
      | some (y, d2) => some (x ++ y, d2)

/-- String_LU: src/acomp/acomp.pl 140-164. -/
def stringLU (o : Opts) (d : Dict) (s : Text) : Option (Text × Dict) :=
  (wordsLU o d (split (s.map up))).map (fun r => (join r.1, r.2))

/-- One line of a plain text, its last byte removed by `chop`: src/acomp/acomp.pl 86-90. -/
def lineLU (o : Opts) (d : Dict) (l : Text) : Option (Text × Dict) :=
  if [59, 59].isPrefixOf l.dropLast then some (l.dropLast ++ [10], d)
  else (stringLU o d l.dropLast).map (fun r => (r.1 ++ [10], r.2))

/-- The main loop for plain text: src/acomp/acomp.pl 85-90. The result has one line for each line read. -/
def fileLU (o : Opts) : Dict → List Text → Option (List Text)
  | _, [] => some []
  | d, l :: ls =>
    match lineLU o d l with
    | none => none
    | some (x, d1) => (fileLU o d1 ls).map (fun y => x :: y)

/-- A record of a CTM file, its times in any unit; without a fifth field the word is empty: src/acomp/acomp.pl 99-102. -/
structure Ctm where
  file : Text
  chan : Text
  beg : Int
  dur : Int
  word : Text
  conf : Text
  deriving DecidableEq

/-- A record written for a CTM file: its times are `beg / den` and `dur / den` (the rounding of `%.2f` is not modelled): src/acomp/acomp.pl 105-107. -/
structure Part where
  file : Text
  chan : Text
  beg : Int
  dur : Int
  den : Nat
  word : Text
  conf : Text
  deriving DecidableEq

/-- The records written for the words from index `i` on: src/acomp/acomp.pl 104-108. -/
def partsFrom (r : Ctm) (n : Nat) : Nat → List Text → List Part
  | _, [] => []
  | i, w :: ws => ⟨r.file, r.chan, r.beg * n + i * r.dur, r.dur, n, w, r.conf⟩ :: partsFrom r n (i + 1) ws

/-- One record of a CTM file: src/acomp/acomp.pl 91-108. -/
def ctmLU (o : Opts) (d : Dict) (r : Ctm) : Option (List Part × Dict) :=
  match stringLU o d r.word with
  | none => none
  | some (t, d1) => some (partsFrom r (split t).length 0 (split t), d1)

end Verif.Acomp
