import Verif.Lines.Model
/-!
# Model of asclite's reading of CTM files

Lines are lists of bytes.  Tokens and segments live in tables; a pointer is an index.  The conversion of a text to
milliseconds (`ParseString`, src/asclite/core/inputparser.h:44) is a parameter `ms`, confidence texts are kept as texts, and
the sum of start and duration is not bounded by the width of `int`.
-/
set_option autoImplicit false
namespace Verif.CtmIn
open Verif.Lines (cstr isSpace)

/-- What a token carries: times (src/asclite/core/timedobject.cpp:46-51), text, confidence text if set. -/
structure Word where
  start : Int
  stop : Int
  text : List Nat
  conf : Option (List Nat)
  deriving Repr, DecidableEq

/-- A `Token`, src/asclite/core/token.h, with its parent segment. -/
structure Tok where
  word : Word
  seg : Nat
  deriving Repr, DecidableEq

/-- A `Segment`, src/asclite/core/segment.h: the tokens after `f_token` and `l_token` are `firsts` and `lasts`. -/
structure Seg where
  file : List Nat
  chan : List Nat
  start : Int
  stop : Int
  firsts : List Nat
  lasts : List Nat
  deriving Repr, DecidableEq

/-- The tokens with their links and the segments of the speech. -/
structure Net where
  toks : List Tok
  next : Nat → List Nat
  prec : Nat → List Nat
  segs : List Seg

/-- What the reading comes to: a result, a fatal error that is reported, or undefined behaviour (null pointer, uninitialised
buffer, buffer overflow). -/
inductive Out (α : Type) where
  | ok (a : α)
  | fatal
  | undef
  deriving Repr, DecidableEq

/-- The variables of `CTMInputParser::loadFile` for the graph, src/asclite/core/ctm_inputparser.cpp:47-48, 56-57 and 61-68. -/
structure St where
  net : Net
  precTok : Option Nat
  isFirst : Bool
  precAltTok : Option Nat
  altSeg : Option Nat
  precAltSeg : Option Nat
  altBegin : Bool
  inside : Bool
  alt : Bool
  altEnd : Bool

/-- The variables of `CTMInputParser::loadFile` for the lines, src/asclite/core/ctm_inputparser.cpp:49-55 and 59: `buf` are the
contents of the buffers filled so far, in the order `f_file`, `channel`, `start`, `dur`, `text`, `conf` (`sscanf` fills them in this
order). -/
structure Rd where
  buf : List (List Nat)
  useConf : Bool
  st : St

/-- src/asclite/core/ctm_inputparser.cpp:47-68. -/
def st0 : St := ⟨⟨[], fun _ => [], fun _ => [], []⟩, none, true, none, none, none, false, false, false, false⟩

/-- Storing a value in an array. -/
def upd {α : Type} (f : Nat → α) (k : Nat) (v : α) : Nat → α := fun x => if x = k then v else f x

/-- `p->AddNextToken(t); t->AddPrecToken(p)`, src/asclite/core/token.h:51-53. -/
def link (n : Net) (p t : Nat) : Net := { n with next := upd n.next p (n.next p ++ [t]), prec := upd n.prec t (n.prec t ++ [p]) }

/-- The loops over last tokens, src/asclite/core/ctm_inputparser.cpp:143-147, 191-195 and 232-236. -/
def linkAll (n : Net) : List Nat → Nat → Net
  | [], _ => n
  | p :: ps, t => linkAll (link n p t) ps t

/-- `BuildToken`, src/asclite/core/inputparser.cpp:28-33: the new token has the next free number. -/
def addTok (n : Net) (w : Word) (g : Nat) : Net := { n with toks := n.toks ++ [⟨w, g⟩] }

/-- Changing a segment. -/
def setSeg (n : Net) (g : Nat) (s : Seg) : Net := { n with segs := n.segs.set g s }

/-- `Segment::AddFirstToken`, src/asclite/core/segment.cpp:184-199. -/
def addFirst (s : Seg) (t : Nat) (w : Word) : Out Seg :=
  if w.start ≠ -1 ∧ w.start < s.start then .fatal else .ok { s with firsts := s.firsts ++ [t] }

/-- `Segment::AddLastToken`, src/asclite/core/segment.cpp:202-217. -/
def addLast (s : Seg) (t : Nat) (w : Word) : Out Seg :=
  if w.stop ≠ -1 ∧ w.stop > s.stop then .fatal else .ok { s with lasts := s.lasts ++ [t] }

/-- `seg->AddLastToken(tok)` for numbers of a segment and a token. -/
def addLastAt (n : Net) (g t : Option Nat) : Out Net :=
  match g, t with
  | some g, some t =>
    match n.segs[g]?, n.toks[t]? with
    | some s, some tok =>
      match addLast s t tok.word with
      | .ok s' => .ok (setSeg n g s')
      | .fatal => .fatal
      | .undef => .undef
    | _, _ => .undef
  | _, _ => .undef

/-- The last tokens of a segment. -/
def lastsOf (n : Net) (g : Nat) : List Nat :=
  match n.segs[g]? with
  | some s => s.lasts
  | none => []

/-- A new segment with its first token, src/asclite/core/ctm_inputparser.cpp:131-135, 158 and 165 (the segment starts with the
token, so that `AddFirstToken` succeeds). -/
def openSeg (n : Net) (file chan : List Nat) (w : Word) : Net :=
  { addTok n w n.segs.length with segs := n.segs ++ [⟨file, chan, w.start, w.stop, [n.toks.length], []⟩] }

/-- A new segment of one token whose parent is segment `g`, src/asclite/core/ctm_inputparser.cpp:224-229 and 252-257. -/
def wordSeg (n : Net) (file chan : List Nat) (w : Word) (g : Nat) : Net :=
  { addTok n w g with segs := n.segs ++ [⟨file, chan, w.start, w.stop, [n.toks.length], [n.toks.length]⟩] }

/-- After ALT_BEGIN, src/asclite/core/ctm_inputparser.cpp:129-169. -/
def onBegin (st : St) (file chan : List Nat) (w : Word) : Out St :=
  let n := openSeg st.net file chan w
  let t := st.net.toks.length
  let done (n : Net) (e : Bool) : St :=
    { st with net := n, altEnd := e, isFirst := false, precAltTok := some t, precAltSeg := st.altSeg,
              altSeg := some st.net.segs.length, altBegin := false }
  if st.isFirst then .ok (done n st.altEnd)
  else if st.altEnd then
    match addLastAt n st.altSeg st.precAltTok with
    | .ok n' => .ok (done (linkAll n' (lastsOf n' (st.altSeg.getD 0)) t) false)
    | .fatal => .fatal
    | .undef => .undef
  else
    match st.precTok with
    | some p => .ok (done (link n p t) false)
    | none => .undef

/-- The end of the segment moves with its tokens, src/asclite/core/ctm_inputparser.cpp:174-177 and 210-213. -/
def stretch (s : Seg) (w : Word) : Seg := if w.stop > s.stop then { s with stop := w.stop } else s

/-- The tokens before an alternative, src/asclite/core/ctm_inputparser.cpp:183-196. -/
def altLinks (st : St) (n : Net) (t : Nat) : Net :=
  match st.precAltSeg with
  | none =>
    match st.precTok with
    | some p => link n p t
    | none => n
  | some b => linkAll n (lastsOf n b) t

/-- After ALT, src/asclite/core/ctm_inputparser.cpp:170-205. -/
def onAlt (st : St) (w : Word) : Out St :=
  match st.altSeg with
  | none => .undef
  | some g =>
    match st.net.segs[g]? with
    | none => .undef
    | some s =>
      match addFirst (stretch s w) st.net.toks.length w with
      | .ok s' =>
        let t := st.net.toks.length
        let n := setSeg (addTok st.net w g) g s'
        match addLastAt (altLinks st n t) (some g) st.precAltTok with
        | .ok n'' => .ok { st with net := n'', precAltTok := some t, alt := false }
        | .fatal => .fatal
        | .undef => .undef
      | .fatal => .fatal
      | .undef => .undef

/-- Inside an alternative, src/asclite/core/ctm_inputparser.cpp:206-221. -/
def onInside (st : St) (w : Word) : Out St :=
  match st.altSeg, st.precAltTok with
  | some g, some p =>
    match st.net.segs[g]? with
    | none => .undef
    | some s =>
      .ok { st with net := link (setSeg (addTok st.net w g) g (stretch s w)) p st.net.toks.length,
                    precAltTok := some st.net.toks.length }
  | _, _ => .undef

/-- After ALT_END, src/asclite/core/ctm_inputparser.cpp:222-249; the parent of the token is the segment of the group. -/
def onEnd (st : St) (file chan : List Nat) (w : Word) : Out St :=
  let t := st.net.toks.length
  match addLastAt (wordSeg st.net file chan w (st.altSeg.getD 0)) st.altSeg st.precAltTok with
  | .ok n =>
    .ok { st with net := linkAll n (lastsOf n (st.altSeg.getD 0)) t, precTok := some t, precAltTok := none, altSeg := none,
                  precAltSeg := none, altEnd := false, inside := false }
  | .fatal => .fatal
  | .undef => .undef

/-- Outside of groups, src/asclite/core/ctm_inputparser.cpp:250-272. -/
def onPlain (st : St) (file chan : List Nat) (w : Word) : Out St :=
  let n := wordSeg st.net file chan w st.net.segs.length
  let t := st.net.toks.length
  if st.isFirst then .ok { st with net := n, isFirst := false, precTok := some t }
  else
    match st.precTok with
    | some p => .ok { st with net := link n p t, isFirst := false, precTok := some t }
    | none => .undef

/-- A word, src/asclite/core/ctm_inputparser.cpp:127-273. -/
def onWord (st : St) (file chan : List Nat) (w : Word) : Out St :=
  if st.altBegin then onBegin st file chan w
  else if st.alt then onAlt st w
  else if st.inside then onInside st w
  else if st.altEnd then onEnd st file chan w
  else onPlain st file chan w

/-- The white-space separated parts of a text, `cur` the part read so far. -/
def wordsFrom (cur : List Nat) : List Nat → List (List Nat)
  | [] => if cur = [] then [] else [cur]
  | c :: s => if isSpace c then (if cur = [] then [] else [cur]) ++ wordsFrom [] s else wordsFrom (cur ++ [c]) s

/-- `sscanf(line.c_str(), "%s %s %s %s %s %s", ...)`, src/asclite/core/ctm_inputparser.cpp:76 (and 82, which reads the same line
again). -/
def scan (line : List Nat) : List (List Nat) := (wordsFrom [] (cstr line)).take 6

/-- `<ALT_BEGIN>` -/
def tagBegin : List Nat := [60, 65, 76, 84, 95, 66, 69, 71, 73, 78, 62]
/-- `<ALT_END>` -/
def tagEnd : List Nat := [60, 65, 76, 84, 95, 69, 78, 68, 62]
/-- `<ALT>` -/
def tagAlt : List Nat := [60, 65, 76, 84, 62]

/-- A line, src/asclite/core/ctm_inputparser.cpp:72-274.  `find_first_of(";;")` finds a single semicolon.  With fewer than five
fields an error is logged and the line is processed with what is in the buffers.  The buffers have 255 bytes
(src/asclite/core/stdinc.h:49). -/
def step (ms : List Nat → Int) (r : Rd) (line : List Nat) : Out Rd :=
  if line.head? = some 59 then .ok r
  else if (scan line).any (fun f => 255 ≤ f.length) then .undef
  else
    let fs := scan line
    let buf := fs ++ r.buf.drop fs.length
    let uc := if fs.length = 5 then false else if fs.length = 6 then true else r.useConf
    match buf[0]?, buf[1]?, buf[2]?, buf[3]?, buf[4]? with
    | some f, some c, some s, some d, some t =>
      if t = tagBegin then .ok ⟨buf, uc, { r.st with altBegin := true, inside := true }⟩
      else if t = tagEnd then .ok ⟨buf, uc, { r.st with altEnd := true, inside := false }⟩
      else if t = tagAlt then .ok ⟨buf, uc, { r.st with alt := true }⟩
      else if uc = true ∧ buf[5]? = none then .undef
      else
        match onWord r.st f c ⟨ms s, ms s + ms d, t, if uc then buf[5]? else none⟩ with
        | .ok st' => .ok ⟨buf, uc, st'⟩
        | .fatal => .fatal
        | .undef => .undef
    | _, _, _, _, _ => .undef

/-- The loop over the lines, src/asclite/core/ctm_inputparser.cpp:70-277. -/
def run (ms : List Nat → Int) : Rd → List (List Nat) → Out Rd
  | r, [] => .ok r
  | r, l :: ls =>
    match step ms r l with
    | .ok r' => run ms r' ls
    | .fatal => .fatal
    | .undef => .undef

/-- `CTMInputParser::loadFile` for the lines of a file, src/asclite/core/ctm_inputparser.cpp:35-291. -/
def load (ms : List Nat → Int) (lines : List (List Nat)) : Out Net :=
  match run ms ⟨[], true, st0⟩ lines with
  | .ok r => if r.st.net.segs = [] then .fatal else .ok r.st.net
  | .fatal => .fatal
  | .undef => .undef

end Verif.CtmIn
