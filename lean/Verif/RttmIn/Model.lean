import Verif.StmIn.Model
/-!
# Reading RTTM files

`RTTMInputParser::loadFile`, src/asclite/core/rttm_inputparser.cpp.  Lines are lists of bytes without the newline.  The conversion of
times (`ParseString`) is the parameter `ms`; the sum of start and duration is not bounded by the width of `int`; texts of confidences
are kept.  The parsing of the word of a segment into tokens (`ParseWordsEx`, mode with one word per segment) is the subject of
`Verif.LineStyle`; here a segment keeps the text that is given to it.  Messages are left out; that about a wrong number of fields is
printed into a buffer that the name of the file is assumed to fit.
-/
set_option autoImplicit false
namespace Verif.RttmIn
open Verif.Lines (cstr)
open Verif.CtmIn (Out Word wordsFrom)
open Verif.StmIn (lower insert count)

/-- `LEXEME`, src/asclite/core/rttm_inputparser.cpp:69 and 295. -/
def kwLexeme : List Nat := [76, 69, 88, 69, 77, 69]
/-- `SPEAKER`, src/asclite/core/rttm_inputparser.cpp:237. -/
def kwSpeaker : List Nat := [83, 80, 69, 65, 75, 69, 82]
/-- `<NA>`, src/asclite/core/rttm_inputparser.cpp:132 and 368. -/
def noConf : List Nat := [60, 78, 65, 62]

/-- `fp`, `frag`, `un-lex`, `for-lex`, src/asclite/core/rttm_inputparser.cpp:149-152 and 358-361. -/
def optKinds : List (List Nat) :=
  [[102, 112], [102, 114, 97, 103], [117, 110, 45, 108, 101, 120], [102, 111, 114, 45, 108, 101, 120]]

/-- Those and `lex`, `alpha`, `acronym`, `interjection`, `propernoun`, src/asclite/core/rttm_inputparser.cpp:109-117 and 333-341. -/
def kinds : List (List Nat) :=
  [[108, 101, 120]] ++ optKinds ++ [[97, 108, 112, 104, 97], [97, 99, 114, 111, 110, 121, 109],
    [105, 110, 116, 101, 114, 106, 101, 99, 116, 105, 111, 110], [112, 114, 111, 112, 101, 114, 110, 111, 117, 110]]

/-- `sscanf` with `n` times `%s`, src/asclite/core/rttm_inputparser.cpp:84-93, 251-259 and 309-317; nothing if a field does not fit
into its buffer of 255 bytes. -/
def scanN (n : Nat) (line : List Nat) : Option (List (List Nat)) :=
  let fs := (wordsFrom [] (cstr line)).take n
  if fs.any (fun f => 255 ≤ f.length) then none else some fs

/-! ## One word per segment -/

/-- What a line says about a segment, src/asclite/core/rttm_inputparser.cpp:128-158. -/
structure Lex where
  file : List Nat
  chan : List Nat
  spkr : List Nat
  start : Int
  stop : Int
  word : List Nat
  opt : Bool
  deriving Repr, DecidableEq

/-- A segment: its confidence, if it has one, and its numbers, src/asclite/core/rttm_inputparser.cpp:158-169. -/
structure LSeg where
  lex : Lex
  conf : Option (List Nat)
  line : Nat
  elem : Nat
  num : Nat
  deriving Repr, DecidableEq

/-- A line, src/asclite/core/rttm_inputparser.cpp:69-139: nothing, or the segment and the text of the confidence.  Buffers that
were not filled are `undef` when used. -/
def lexLine (ms : List Nat → Int) (line : List Nat) : Out (Option (Lex × List Nat)) :=
  if line.take 6 ≠ kwLexeme then .ok none
  else
    match scanN 10 line with
    | some (_ :: f :: c :: s :: d :: w :: t :: more) =>
      if lower t ∈ kinds then
        match more with
        | k :: cf :: _ =>
          if 34 ∈ w then .fatal else .ok (some (⟨f, c, k, ms s, ms s + ms d, w, decide (lower t ∈ optKinds)⟩, cf))
        | _ => .undef
      else .ok none
    | _ => .undef

/-- The variables of `loadFileLexeme`, src/asclite/core/rttm_inputparser.cpp:48-63; `lineNum` and `elemNum` are the next numbers. -/
structure LSt where
  res : List (List Nat × List LSeg)
  useConf : Bool
  lineNum : Nat
  elemNum : Nat

/-- src/asclite/core/rttm_inputparser.cpp:50-63. -/
def lst0 : LSt := ⟨[], true, 0, 0⟩

/-- A segment is added to the speech of its speaker, src/asclite/core/rttm_inputparser.cpp:120-134 and 158-176. -/
def lexAdd (st : LSt) (x : Lex) (cf : List Nat) : LSt :=
  let use := if cf = noConf then false else st.useConf
  { res := insert x.spkr ⟨x, if use then some cf else none, st.lineNum, st.elemNum, count x.spkr st.res⟩ st.res,
    useConf := use, lineNum := st.lineNum + 1, elemNum := st.elemNum + 1 }

/-- A line, src/asclite/core/rttm_inputparser.cpp:65-178. -/
def lexStep (ms : List Nat → Int) (st : LSt) (line : List Nat) : Out LSt :=
  match lexLine ms line with
  | .ok none => .ok { st with lineNum := st.lineNum + 1 }
  | .ok (some (x, cf)) => .ok (lexAdd st x cf)
  | .fatal => .fatal
  | .undef => .undef

/-- The loop over the lines, src/asclite/core/rttm_inputparser.cpp:65-179. -/
def lexRun (ms : List Nat → Int) : LSt → List (List Nat) → Out LSt
  | st, [] => .ok st
  | st, l :: ls =>
    match lexStep ms st l with
    | .ok st' => lexRun ms st' ls
    | .fatal => .fatal
    | .undef => .undef

/-- `loadFileLexeme`, src/asclite/core/rttm_inputparser.cpp:46-203. -/
def lexLoad (ms : List Nat → Int) (lines : List (List Nat)) : Out (List (List Nat × List LSeg)) :=
  match lexRun ms lst0 lines with
  | .ok st => if st.res = [] then .fatal else .ok st.res
  | .fatal => .fatal
  | .undef => .undef

/-- The calls of `Attach`, src/asclite/core/rttm_inputparser.cpp:171-174: a segment with the one before it. -/
def lexAttach {α : Type} : List α → List (α × α)
  | x :: y :: l => (x, y) :: lexAttach (y :: l)
  | _ => []

/-! ## Segments of several words -/

/-- What a `SPEAKER` line says, src/asclite/core/rttm_inputparser.cpp:268-280. -/
structure Turn where
  file : List Nat
  chan : List Nat
  spkr : List Nat
  start : Int
  stop : Int
  deriving Repr, DecidableEq

/-- A segment with its numbers and its chain of tokens, src/asclite/core/rttm_inputparser.cpp:276-293: `mapPrevTokenbySegment` is the
last token of the chain. -/
structure SSeg where
  turn : Turn
  line : Nat
  num : Nat
  toks : List Word
  deriving Repr, DecidableEq

/-- What a line says: nothing, a segment, or a word of a speaker.  A line may also lack the confidence, whose buffer is then
`undef` when it is used (`none`). -/
inductive Ev where
  | none
  | turn (t : Turn)
  | word (spkr text : List Nat) (start dur : Int) (conf : Option (List Nat))
  deriving Repr, DecidableEq

/-- The word with parentheses, src/asclite/core/rttm_inputparser.cpp:356-364. -/
def optWord (t w : List Nat) : List Nat := if lower t ∈ optKinds then [40] ++ w ++ [41] else w

/-- A line, src/asclite/core/rttm_inputparser.cpp:233-341. -/
def spkLine (ms : List Nat → Int) (line : List Nat) : Out Ev :=
  if line.take 2 = [59, 59] then .ok .none
  else if line.take 7 = kwSpeaker then
    match scanN 9 line with
    | some (_ :: f :: c :: s :: d :: _ :: _ :: k :: _) => .ok (.turn ⟨f, c, k, ms s, ms s + ms d⟩)
    | _ => .undef
  else if line.take 6 = kwLexeme then
    match scanN 9 line with
    | some (_ :: _ :: _ :: s :: d :: w :: t :: more) =>
      if lower t ∈ kinds then
        match more with
        | k :: cfs => .ok (.word k (optWord t w) (ms s) (ms d) cfs.head?)
        | [] => .undef
      else .ok .none
    | _ => .undef
  else .ok .none

/-- The speeches and the next line number, src/asclite/core/rttm_inputparser.cpp:209 and 220-227.  The current segment of a speaker
(`mapCurrentSegmentbySpkr`) is always the last one of the speech, as both are set in lines 291-292 and nowhere else. -/
structure SSt where
  res : List (List Nat × List SSeg)
  lineNum : Nat

/-- The message about a word without a segment does not fit into its buffer, src/asclite/core/rttm_inputparser.cpp:347-348. -/
def longMessage (k : List Nat) (line : Nat) : Bool := 255 ≤ 29 + k.length + 9 + (Nat.toDigits 10 line).length

/-- Changing the last segment of a speaker; nothing if there is none, src/asclite/core/rttm_inputparser.cpp:343-353. -/
def modLast (k : List Nat) (f : SSeg → Out SSeg) : List (List Nat × List SSeg) → Out (Option (List (List Nat × List SSeg)))
  | [] => .ok none
  | (k', xs) :: m =>
    if k = k' then
      match xs.getLast? with
      | none => .ok none
      | some s =>
        match f s with
        | .ok s' => .ok (some ((k', xs.dropLast ++ [s']) :: m))
        | .fatal => .fatal
        | .undef => .undef
    else
      match modLast k f m with
      | .ok none => .ok none
      | .ok (some m') => .ok (some ((k', xs) :: m'))
      | .fatal => .fatal
      | .undef => .undef

/-- `AddFirstToken` of a word, src/asclite/core/segment.cpp:184-199: whether it is accepted. -/
def fitsFirst (t : Turn) (w : Word) : Bool := !(w.start ≠ -1 && w.start < t.start)

/-- `AddLastToken` of a word, src/asclite/core/segment.cpp:202-217: whether it is accepted. -/
def fitsLast (t : Turn) (w : Word) : Bool := !(w.stop ≠ -1 && w.stop > t.stop)

/-- A word is added to a segment, src/asclite/core/rttm_inputparser.cpp:353-381. -/
def addTok (text : List Nat) (start dur : Int) (conf : Option (List Nat)) (s : SSeg) : Out SSeg :=
  match conf with
  | none => .undef
  | some cf =>
    let w : Word := ⟨start, start + dur, text, if cf = noConf then none else some cf⟩
    if s.toks = [] then (if fitsFirst s.turn w then .ok { s with toks := [w] } else .fatal)
    else .ok { s with toks := s.toks ++ [w] }

/-- A line, src/asclite/core/rttm_inputparser.cpp:229-385. -/
def spkStep (ms : List Nat → Int) (st : SSt) (line : List Nat) : Out SSt :=
  match spkLine ms line with
  | .ok .none => .ok { st with lineNum := st.lineNum + 1 }
  | .ok (.turn t) => .ok ⟨insert t.spkr ⟨t, st.lineNum, count t.spkr st.res, []⟩ st.res, st.lineNum + 1⟩
  | .ok (.word k text start dur conf) =>
    match modLast k (addTok text start dur conf) st.res with
    | .ok (some m) => .ok ⟨m, st.lineNum + 1⟩
    | .ok none => if longMessage k st.lineNum then .undef else .ok { st with lineNum := st.lineNum + 1 }
    | .fatal => .fatal
    | .undef => .undef
  | .fatal => .fatal
  | .undef => .undef

/-- The loop over the lines, src/asclite/core/rttm_inputparser.cpp:229-385. -/
def spkRun (ms : List Nat → Int) : SSt → List (List Nat) → Out SSt
  | st, [] => .ok st
  | st, l :: ls =>
    match spkStep ms st l with
    | .ok st' => spkRun ms st' ls
    | .fatal => .fatal
    | .undef => .undef

/-- The last token of a segment is accepted, if there is one, src/asclite/core/rttm_inputparser.cpp:390-399. -/
def endFits (s : SSeg) : Bool :=
  match s.toks.getLast? with
  | none => true
  | some w => fitsLast s.turn w

/-- `loadFileSpeaker`, src/asclite/core/rttm_inputparser.cpp:205-452.  (Lines 401-434, the calls of `Attach`, are those of
`Verif.StmIn.attach`.) -/
def spkLoad (ms : List Nat → Int) (lines : List (List Nat)) : Out (List (List Nat × List SSeg)) :=
  match spkRun ms ⟨[], 0⟩ lines with
  | .ok st => if st.res.all (fun x => x.2.all endFits) then .ok st.res else .fatal
  | .fatal => .fatal
  | .undef => .undef

/-- The links between the tokens of a speech: within the segments (src/asclite/core/rttm_inputparser.cpp:371-381) and those made by
`Attach` (lines 401-434 and 455-465) between segments that have tokens; here a segment has one first and one last token. -/
def wordLinks (segs : List SSeg) : List (Word × Word) :=
  segs.flatMap (fun s => lexAttach s.toks) ++ (Verif.StmIn.attach (fun s : SSeg => !s.toks.isEmpty) none segs).flatMap (fun p =>
    match p.1.toks.getLast?, p.2.toks.head? with
    | some x, some y => [(x, y)]
    | _, _ => [])

/-- The identifier, src/asclite/core/rttm_inputparser.cpp:166-169 and 286-289. -/
def idText (spkr : List Nat) (num : Nat) : List Nat := [40] ++ spkr ++ [45] ++ (Verif.StmIn.pad3 num).map Char.toNat ++ [41]

end Verif.RttmIn
