import Verif.CtmIn.Model
import Verif.Rfilter.Model
/-!
# Reading STM and TRN files

`STMInputParser::loadFile`, src/asclite/core/stm_inputparser.cpp, and `TRNInputParser::loadFile`,
src/asclite/core/trn_inputparser.cpp.  Lines are lists of bytes without the newline.  The conversion of times (`ParseString`) is the
parameter `ms`.  The parsing of a transcript into tokens (`ParseWords`) is the subject of `Verif.LineStyle`; here a segment keeps the
text that is given to it.
-/
set_option autoImplicit false
namespace Verif.StmIn
open Verif.Lines (cstr)
open Verif.CtmIn (scan Out)
open Verif.Rfilter (strstr)

/-- `tolower` (C locale) as used in src/asclite/core/stm_inputparser.cpp:36, 51 and 214. -/
def lowerByte (b : Nat) : Nat := if 65 ≤ b ∧ b ≤ 90 then b + 32 else b

/-- `STMInputParser::LowerCase`, src/asclite/core/stm_inputparser.cpp:45-54, and the `transform` in line 214. -/
def lower (s : List Nat) : List Nat := s.map lowerByte

/-- `inter_segment_gap`, src/asclite/core/stm_inputparser.cpp:42. -/
def gapName : List Nat := [105, 110, 116, 101, 114, 95, 115, 101, 103, 109, 101, 110, 116, 95, 103, 97, 112]

/-- `ignore_time_segment_in_scoring`, src/asclite/core/stm_inputparser.cpp:25. -/
def ignoreMark : List Nat :=
  [105, 103, 110, 111, 114, 101, 95, 116, 105, 109, 101, 95, 115, 101, 103, 109, 101, 110, 116, 95, 105, 110, 95, 115, 99, 111, 114, 105,
    110, 103]

/-- `STMInputParser::CompareToISGCaseInsensitive`, src/asclite/core/stm_inputparser.cpp:28-43.  The copy of the name is not ended by a
NUL, `junk` is what the memory behind it holds. -/
def isGap (junk spkr : List Nat) : Bool := cstr (lower spkr ++ junk) = gapName

/-- What a line of an STM file gives: src/asclite/core/stm_inputparser.cpp:153-234, without the numbers. -/
structure Raw where
  file : List Nat
  chan : List Nat
  spkr : List Nat
  start : Int
  stop : Int
  label : List Nat
  /-- `none` for a segment that is excluded from scoring -/
  text : Option (List Nat)
  deriving Repr, DecidableEq

/-- The label, src/asclite/core/stm_inputparser.cpp:165-169: from the first `<` of the line to its first `>`; when that does not come
after it the length is negative, which as `size_t` means the rest of the line. -/
def labelOf (line : List Nat) : List Nat :=
  match strstr [60] line with
  | none => []
  | some i =>
    match strstr [62] line with
    | none => if i = 0 then [] else line.drop i
    | some j => if i ≤ j + 1 then (line.drop i).take (j + 1 - i) else line.drop i

/-- The place where the transcript begins, src/asclite/core/stm_inputparser.cpp:171 and 176-184; `s` and `e` are the texts of the two
times. -/
def textBegin (line s e : List Nat) (sixth : Option (List Nat)) : Nat :=
  if sixth.bind (·.head?) = some 60 then
    match strstr [62] line with
    | none => 0
    | some j => j + 1
  else
    let q := (strstr s line).getD 0 + 1
    q + (strstr e (line.drop q)).getD 0 + e.length

/-- A line that is not a comment, src/asclite/core/stm_inputparser.cpp:151-234.  With fewer than five fields uninitialised buffers
are used (`undef`), as for fields that do not fit.  The calls of `ParseString` in lines 173-174 and 180-181 give the same. -/
def raw (ms : List Nat → Int) (junk line : List Nat) : Out Raw :=
  if (scan line).any (fun f => 255 ≤ f.length) then .undef
  else
    match scan line with
    | f :: c :: k :: s :: e :: more =>
      let spkr := if isGap junk k then lower k else k
      let text := line.drop (textBegin line s e more.head?)
      .ok ⟨f, c, spkr, ms s, ms e, labelOf line, if (strstr ignoreMark (lower text)).isSome then none else some text⟩
    | _ => .undef

/-- A segment with its numbers, src/asclite/core/stm_inputparser.cpp:236-245. -/
structure Seg where
  raw : Raw
  line : Nat
  elem : Int
  num : Nat
  deriving Repr, DecidableEq

/-- An entry for a category or a label, src/asclite/core/speechset.cpp:94-102. -/
structure Cat where
  type : List Nat
  id : List Nat
  title : List Nat
  desc : List Nat
  deriving Repr, DecidableEq

/-- The order of `std::string` (bytes), by which `map<string, Speech*>` is sorted, src/asclite/core/stm_inputparser.cpp:77. -/
def strLt : List Nat → List Nat → Bool
  | _, [] => false
  | [], _ :: _ => true
  | a :: s, b :: t => if a < b then true else if b < a then false else strLt s t

/-- `res[spkr]` (created when missing) and `speech->AddSegment(seg)`: a `std::map` is a list sorted by key,
src/asclite/core/stm_inputparser.cpp:203-209 and 250; in the same way src/asclite/core/trn_inputparser.cpp:73-79 and 86. -/
def insert {α : Type} (k : List Nat) (x : α) : List (List Nat × List α) → List (List Nat × List α)
  | [] => [(k, [x])]
  | (k', xs) :: m => if k = k' then (k', xs ++ [x]) :: m else if strLt k k' then (k, [x]) :: (k', xs) :: m else (k', xs) :: insert k x m

/-- `speech->NbOfSegments()` for the speech of a speaker, src/asclite/core/stm_inputparser.cpp:240. -/
def count {α : Type} (k : List Nat) : List (List Nat × List α) → Nat
  | [] => 0
  | (k', xs) :: m => if k = k' then xs.length else count k m

/-- The variables of `STMInputParser::loadFile`, src/asclite/core/stm_inputparser.cpp:62-77. -/
structure St where
  res : List (List Nat × List Seg)
  ignored : List Nat → Nat
  lineNum : Nat
  elemNum : Int
  cats : List Cat

/-- src/asclite/core/stm_inputparser.cpp:62-77; `lineNum` is the number of the next line. -/
def st0 : St := ⟨[], fun _ => 0, 0, -1, []⟩

/-- The parts of a comment, `strtok(..., " \t\r\n")`, src/asclite/core/stm_inputparser.cpp:94 and 143. -/
def tokFrom (cur : List Nat) : List Nat → List (List Nat)
  | [] => if cur = [] then [] else [cur]
  | c :: s => if c = 32 ∨ c = 9 ∨ c = 13 ∨ c = 10 then (if cur = [] then [] else [cur]) ++ tokFrom [] s else tokFrom (cur ++ [c]) s

/-- `CATEGORY`, src/asclite/core/stm_inputparser.cpp:102. -/
def kwCategory : List Nat := [67, 65, 84, 69, 71, 79, 82, 89]
/-- `LABEL`, src/asclite/core/stm_inputparser.cpp:105. -/
def kwLabel : List Nat := [76, 65, 66, 69, 76]

/-- One word of a comment, src/asclite/core/stm_inputparser.cpp:96-139: `token` is the string collected so far.  (Two different quotes
in the word: `qfpos != qlpos`.) -/
def catWord (index : Nat) (token : List Nat) (c : Cat) (w : List Nat) : List Nat × Cat :=
  if index = 0 then (token, c)
  else if index = 1 then (token, if w = kwCategory then { c with type := kwCategory } else if w = kwLabel then { c with type := kwLabel } else c)
  else
    let t := if 2 ≤ w.count 34 then w else (if token = [] then token else token ++ [32]) ++ w
    if w.getLast? = some 34 then
      let v := t.filter (· ≠ 34)
      ([], if index = 2 then { c with id := v } else if index = 3 then { c with title := v } else if index = 4 then { c with desc := v } else c)
    else (t, c)

/-- The loop over the words of a comment, src/asclite/core/stm_inputparser.cpp:93-145. -/
def catWords : Nat → List Nat → Cat → List (List Nat) → Cat
  | _, _, c, [] => c
  | i, t, c, w :: ws => catWords (i + 1) (catWord i t c w).1 (catWord i t c w).2 ws

/-- A comment, src/asclite/core/stm_inputparser.cpp:84-149. -/
def comment (line : List Nat) : Cat := catWords 0 [] ⟨[], [], [], []⟩ (tokFrom [] (cstr line))

/-- A line, src/asclite/core/stm_inputparser.cpp:78-252.  `w` is the number of bits of `size_t`, in which the number of the
identifier is computed. -/
def step (w : Nat) (ms : List Nat → Int) (junk : List Nat) (st : St) (line : List Nat) : Out St :=
  if line.head? = some 59 then
    .ok { st with lineNum := st.lineNum + 1, cats := if (comment line).id = [] then st.cats else st.cats ++ [comment line] }
  else
    match raw ms junk line with
    | .ok r =>
      let ign := if r.text = none then st.ignored r.spkr + 1 else st.ignored r.spkr
      let elem := if r.text = none then st.elemNum else st.elemNum + 1
      let num := (count r.spkr st.res + 2 ^ w - ign) % 2 ^ w
      .ok { st with res := insert r.spkr ⟨r, st.lineNum, elem, num⟩ st.res, ignored := fun k => if k = r.spkr then ign else st.ignored k,
                    lineNum := st.lineNum + 1, elemNum := elem }
    | .fatal => .fatal
    | .undef => .undef

/-- The loop over the lines; `junk` gives the memory contents met in each line, src/asclite/core/stm_inputparser.cpp:79-252. -/
def run (w : Nat) (ms : List Nat → Int) (junk : Nat → List Nat) : St → List (List Nat) → Out St
  | st, [] => .ok st
  | st, l :: ls =>
    match step w ms (junk st.lineNum) st l with
    | .ok st' => run w ms junk st' ls
    | .fatal => .fatal
    | .undef => .undef

/-- `STMInputParser::loadFile`, src/asclite/core/stm_inputparser.cpp:60-310. -/
def load (w : Nat) (ms : List Nat → Int) (junk : Nat → List Nat) (lines : List (List Nat)) : Out (List (List Nat × List Seg) × List Cat) :=
  match run w ms junk st0 lines with
  | .ok st => if st.res = [] then .fatal else .ok (st.res, st.cats)
  | .fatal => .fatal
  | .undef => .undef

/-- `setw(3)` and `setfill('0')`, src/asclite/core/stm_inputparser.cpp:244. -/
def pad3 (n : Nat) : List Char := List.replicate (3 - (Nat.toDigits 10 n).length) '0' ++ Nat.toDigits 10 n

/-- The identifier, src/asclite/core/stm_inputparser.cpp:242-245. -/
def idText (s : Seg) : List Nat := [40] ++ s.raw.spkr ++ [45] ++ (pad3 s.num).map Char.toNat ++ [41]

/-- The calls of `Attach`, src/asclite/core/stm_inputparser.cpp:263-284: `full` tells the segments that have first and last tokens. -/
def attach {α : Type} (full : α → Bool) : Option α → List α → List (α × α)
  | _, [] => []
  | prev, x :: xs =>
    if full x then
      (match prev with
       | some p => [(p, x)]
       | none => []) ++ attach full (some x) xs
    else attach full prev xs

/-! ## TRN -/

/-- `line.find_last_of(c)` for a single character, src/asclite/core/trn_inputparser.cpp:57-58. -/
def findLast (c : Nat) : List Nat → Option Nat
  | [] => none
  | a :: s =>
    match findLast c s with
    | some i => some (i + 1)
    | none => if a = c then some 0 else none

/-- `uid.find_last_of("_-")`, src/asclite/core/trn_inputparser.cpp:65. -/
def findLastSep : List Nat → Option Nat
  | [] => none
  | a :: s =>
    match findLastSep s with
    | some i => some (i + 1)
    | none => if a = 95 ∨ a = 45 then some 0 else none

/-- An utterance of a TRN file, src/asclite/core/trn_inputparser.cpp:81-86. -/
structure Utt where
  id : List Nat
  spkr : List Nat
  text : List Nat
  line : Nat
  elem : Nat
  deriving Repr, DecidableEq

/-- A line of a TRN file, src/asclite/core/trn_inputparser.cpp:57-83, with `spu_id` as the type of the identifiers.  `npos + 1 = 0`;
a size that is negative or `npos` stands for the rest of the line. -/
def uttOf (line : List Nat) : List Nat × List Nat × List Nat :=
  let i := match findLast 40 line with
    | some i => i + 1
    | none => 0
  let uid := match findLast 41 line with
    | some j => if i ≤ j then (line.drop i).take (j - i) else line.drop i
    | none => line.drop i
  let spkr := match findLastSep uid with
    | some j => uid.take j
    | none => uid
  (uid, spkr, if i = 0 then line else line.take (i - 1))

/-- The loop of `TRNInputParser::loadFile`, src/asclite/core/trn_inputparser.cpp:46-86: number of the line, number of the element,
speeches. -/
def trnRun : Nat → Nat → List (List Nat × List Utt) → List (List Nat) → List (List Nat × List Utt)
  | _, _, m, [] => m
  | n, e, m, l :: ls =>
    if l.head? = some 59 then trnRun (n + 1) e m ls
    else
      let u := uttOf l
      trnRun (n + 1) (e + 1) (insert u.2.1 ⟨[40] ++ u.1 ++ [41], u.2.1, u.2.2, n, e⟩ m) ls

/-- `TRNInputParser::loadFile`, src/asclite/core/trn_inputparser.cpp:30-111. -/
def trnLoad (lines : List (List Nat)) : Out (List (List Nat × List Utt)) :=
  match trnRun 0 0 [] lines with
  | [] => .fatal
  | m => .ok m

end Verif.StmIn
