import Verif.AscSgml.Model
/-!
# Model of asclite's alignment log and of its reading by align2html

src/asclite/core: token.cpp (GetCSVInformation), segmentsgroup.cpp (LoggingAlignment, GetMinTime, GetMaxTime,
GetTotalDuration), graphalignedsegment.cpp (LoggingAlignment), stt_scorer.cpp (the logged line), recording.cpp (which
groups are logged), logger.cpp; src/align2html: align2html-main.pl (loadAlignFile, addSGLine, addAlignments),
SegmentGroup.pm, Segment.pm.  Texts are lists of bytes; times are whole milliseconds; confidences are given as printed.
-/
set_option autoImplicit false
namespace Verif.AlignLog
open Verif.AscSgml (dec secs)

/-- Text of the program. -/
def bytes (s : String) : List Nat := s.toList.map Char.toNat

/-! ## Writing -/

/-- What is logged of a segment, src/asclite/core/segmentsgroup.cpp:312-346. -/
structure Seg where
  id : Nat
  start : Int
  stop : Int
  speaker : List Nat
  file : List Nat
  channel : List Nat
  deriving Repr, DecidableEq

/-- What is logged of a token, src/asclite/core/token.cpp:422-508; `conf` is the printed confidence. -/
structure Tok where
  id : Nat
  start : Int
  stop : Int
  text : List Nat
  conf : Option (List Nat)
  prev : List Nat
  next : List Nat
  seg : Seg
  deriving Repr, DecidableEq

/-- A time in seconds, nothing if it is negative, src/asclite/core/token.cpp:433-468, segmentsgroup.cpp:318-334. -/
def timeField (n : Int) : List Nat := if 0 ≤ n then secs n else []

/-- Identifiers separated by bars, src/asclite/core/token.cpp:481-505. -/
def barred : List Nat → List Nat
  | [] => []
  | [i] => dec i
  | i :: j :: l => dec i ++ 124 :: barred (j :: l)

/-- `GetCSVInformation`, src/asclite/core/token.cpp:422-508. -/
def csv (t : Tok) : List Nat :=
  dec t.seg.id ++ 44 :: timeField t.seg.start ++ 44 :: timeField t.seg.stop ++ 44 :: t.seg.speaker ++ 44 :: dec t.id ++
    44 :: timeField t.start ++ 44 :: timeField t.stop ++ 44 :: t.text ++ 44 :: t.conf.getD [] ++ 44 :: barred t.prev ++
    44 :: barred t.next

/-- The columns of an empty segment, src/asclite/core/segmentsgroup.cpp:343, 400. -/
def csvSeg (s : Seg) : List Nat :=
  dec s.id ++ 44 :: timeField s.start ++ 44 :: timeField s.stop ++ 44 :: s.speaker ++ bytes ",,,,,,,"

/-- Empty columns of one side, e.g. src/asclite/core/segmentsgroup.cpp:287. -/
def blank : List Nat := bytes ",,,,,,,,,,"

/-- A line, src/asclite/core/segmentsgroup.cpp:299, 341, 365, 403, stt_scorer.cpp:154. -/
def line (type : List Nat) (sg : Nat) (file channel eval ref hyp : List Nat) : List Nat :=
  type ++ 44 :: dec sg ++ 44 :: file ++ 44 :: channel ++ 44 :: eval ++ 44 :: ref ++ 44 :: hyp

/-- Lines of a reference segment with its tokens in topological order, src/asclite/core/segmentsgroup.cpp:276-348. -/
def refLines (generic : Bool) (type : List Nat) (sg : Nat) (x : Seg × List Tok) : List (List Nat) :=
  let other := if generic then [] else blank
  if x.2 = [] then [line type sg x.1.file x.1.channel [] (csvSeg x.1) other]
  else x.2.map (fun t => line type sg t.seg.file t.seg.channel [] (csv t) other)

/-- Lines of a hypothesis segment, src/asclite/core/segmentsgroup.cpp:350-405. -/
def hypLines (type : List Nat) (sg : Nat) (x : Seg × List Tok) : List (List Nat) :=
  if x.2 = [] then [line type sg x.1.file x.1.channel [] blank (csvSeg x.1)]
  else x.2.map (fun t => line type sg t.seg.file t.seg.channel [] blank (csv t))

/-- A group: its number and its segments with their tokens, all dimensions of a side one after the other. -/
structure Group where
  id : Nat
  refs : List (Seg × List Tok)
  hyps : List (Seg × List Tok)
  deriving Repr, DecidableEq

/-- `SegmentsGroup::LoggingAlignment`, src/asclite/core/segmentsgroup.cpp:268-407. -/
def groupLines (generic : Bool) (type : List Nat) (g : Group) : List (List Nat) :=
  g.refs.flatMap (refLines generic type g.id) ++ g.hyps.flatMap (hypLines type g.id)

/-- The line of a pair of words with its verdict, src/asclite/core/stt_scorer.cpp:127-155. -/
def yesLine (sg : Nat) (eval : List Nat) (ref hyp : Option Tok) : List Nat :=
  let place := match ref, hyp with
    | some r, _ => (r.seg.file, r.seg.channel)
    | none, some h => (h.seg.file, h.seg.channel)
    | none, none => ([], [])
  line (bytes "YES") sg place.1 place.2 eval ((ref.map csv).getD blank) ((hyp.map csv).getD blank)

/-- The columns of one dimension with the comma before them, src/asclite/core/graphalignedsegment.cpp:207-221. -/
def dimColumns (t : Option Tok) : List Nat :=
  match t with
  | some t => 44 :: csv t
  | none => bytes ",,,,,,,,,,,"

/-- File and channel of the last token of a column, src/asclite/core/graphalignedsegment.cpp:213-214. -/
def gasPlace (col : List (Option Tok)) : List Nat × List Nat :=
  col.foldl (fun a t => match t with | some t => (t.seg.file, t.seg.channel) | none => a) ([], [])

/-- `GraphAlignedSegment::LoggingAlignment`, src/asclite/core/graphalignedsegment.cpp:193-225, one column. -/
def gasLine (sg : Nat) (col : List (Option Tok)) : List Nat :=
  bytes "YES," ++ dec sg ++ 44 :: (gasPlace col).1 ++ 44 :: (gasPlace col).2 ++ 44 :: (col.map dimColumns).flatten

/-- The header of a log with references, src/asclite/core/recording.cpp:623. -/
def header : List Nat :=
  bytes "Aligned,SegGrpID,File,Channel,Eval,RefSegID,RefSegBT,RefSegET,RefSpkrID,RefTknID,RefTknBT,RefTknET,RefTknTxt,RefTknConf,RefTknPrev,RefTknNext,HypSegID,HypSegBT,HypSegET,HypSpkrID,HypTknID,HypTknBT,HypTknET,HypTknTxt,HypTknConf,HypTknPrev,HypTknNext"

/-- What `AlignHypRef` logs of a group, src/asclite/core/recording.cpp:647-651, 796-829: `gapOnly` is `emptyHypvsISG`. -/
def runGroup (x : Group × Bool × Bool) : List (List Nat) :=
  let aligned := x.2.1
  let gapOnly := x.2.2
  (if !aligned && !gapOnly then groupLines false (bytes "NO") x.1 else []) ++
    (if !gapOnly then groupLines false (bytes "SG") x.1 else [])

/-- The log of all groups, src/asclite/core/recording.cpp:622-836. -/
def runLog (gs : List (Group × Bool × Bool)) : List (List Nat) := gs.flatMap runGroup

/-! ## The number of the group of a stored pair -/

/-- `m_SegGrpID` of a reference segment after pairs were stored, src/asclite/core/alignment.cpp:157-161,
alignedsegment.h:73-81: pairs (segment, group) in the order they were stored; the last one counts.  `none`: never set. -/
def segGrp (stored : List (Nat × Nat)) (seg : Nat) : Option Nat :=
  stored.foldl (fun a x => if x.1 = seg then some x.2 else a) none

/-- A stored pair: the segment it is stored with, the group it was aligned in, verdict, words. -/
structure Row where
  seg : Nat
  sg : Nat
  eval : List Nat
  ref : Option Tok
  hyp : Option Tok
  deriving Repr, DecidableEq

/-- The lines of `STTScorer::Score`, src/asclite/core/stt_scorer.cpp:64-157, pairs in the order of the report; where words are
stored is modelled in `Verif.Store`. -/
def yesLines (stored : List (Nat × Nat)) (rows : List Row) : List (List Nat) :=
  rows.map (fun r => yesLine ((segGrp stored r.seg).getD 0) r.eval r.ref r.hyp)

/-! ## The logger -/

/-- Is a message shown?  src/asclite/core/logger.cpp:67-81. -/
def shows (level logLevel : Int) : Bool :=
  if level = 6 ∧ logLevel = 7 then true else decide (level ≤ logLevel ∧ logLevel ≠ 7)

/-- `isAlignLogON`, src/asclite/core/logger.h:66. -/
def alignOn (logLevel : Int) : Bool := logLevel = 6 || logLevel = 7

/-- The text before a message of the log, src/asclite/core/logger.cpp:83-99. -/
def logged (l : List Nat) : List Nat := bytes "[ALIGNMENT] " ++ l

/-! ## The time span of a group -/

/-- `GetMinTime`, src/asclite/core/segmentsgroup.cpp:409-436. -/
def minTime (segs : List Seg) : Int := segs.foldl (fun m s => if s.start < m then s.start else m) 2147483647

/-- `GetMaxTime`, src/asclite/core/segmentsgroup.cpp:438-465. -/
def maxTime (segs : List Seg) : Int := segs.foldl (fun m s => if s.stop > m then s.stop else m) 0

/-- `GetTotalDuration`, src/asclite/core/segmentsgroup.cpp:467-480, called for each group aligned (graph.cpp:126); `none` =
`exit(E_INVALID)`. -/
def duration (segs : List Seg) : Option Int :=
  if maxTime segs - minTime segs ≤ 0 then none else some (maxTime segs - minTime segs)

/-- The segment added to a group without hypothesis, src/asclite/core/recording.cpp:650-655. -/
def noHyp : Seg := ⟨0, 0, 0, [], [], []⟩

/-- The segments of a group as they are aligned, src/asclite/core/recording.cpp:650-655. -/
def withHyp (refs hyps : List Seg) : List Seg := refs ++ (if hyps = [] then [noHyp] else hyps)

/-! ## Reading -/

/-- `\s` of Perl. -/
def isWs (b : Nat) : Bool := b = 32 || (9 ≤ b && b ≤ 13)

/-- Splitting at commas, src/align2html/align2html-main.pl:184-188: a blank is put behind each comma first, so that
empty fields at the end are kept. -/
def splitComma : List Nat → List (List Nat)
  | [] => [[]]
  | b :: l =>
    if b = 44 then [] :: splitComma l
    else
      match splitComma l with
      | [] => [[b]]
      | f :: fs => (b :: f) :: fs

/-- The fields of a line of the log, `none` if it is skipped, src/align2html/align2html-main.pl:179-188. -/
def fieldsOf (l : List Nat) : Option (List (List Nat)) :=
  if (bytes "[ALIGNMENT]").isPrefixOf l then
    let r := l.drop 11
    if (bytes "Aligned").isPrefixOf (r.dropWhile isWs) then none
    else some (splitComma (r.filter (fun b => !isWs b)))
  else none

/-- A token as read, src/align2html/align2html-main.pl:97, 110, Token.pm:27-55; the duration is not computed from the times,
the lists of neighbours are kept as text. -/
structure RTok where
  id : List Nat
  bt : List Nat
  et : List Nat
  text : List Nat
  conf : List Nat
  prev : List Nat
  next : List Nat
  segBT : List Nat
  segET : List Nat
  deriving Repr, DecidableEq

/-- A segment as read, src/align2html/Segment.pm:22-43. -/
structure RSeg where
  id : List Nat
  speaker : List Nat
  toks : List RTok
  deriving Repr, DecidableEq

/-- A group as read, src/align2html/SegmentGroup.pm. -/
structure RGroup where
  id : List Nat
  file : List Nat
  channel : List Nat
  ref : List RSeg
  sys : List RSeg
  deriving Repr, DecidableEq

/-- Changing the entry of a hash, which is created if there is none (hashes are lists in the order of creation). -/
def upsert {α : Type} (p : α → Bool) (new : α) (f : α → α) : List α → List α
  | [] => [f new]
  | x :: l => if p x then f x :: l else x :: upsert p new f l

/-- `AddToken`, src/align2html/Segment.pm:39-43. -/
def addTok (t : RTok) (s : RSeg) : RSeg :=
  { s with toks := upsert (fun u => u.id = t.id) t (fun _ => t) s.toks }

/-- A segment of one side with a further token, src/align2html/align2html-main.pl:119-134. -/
def addSeg (id speaker : List Nat) (t : RTok) (l : List RSeg) : List RSeg :=
  upsert (fun s => s.id = id) ⟨id, speaker, []⟩ (addTok t) l

/-- What has been read: groups, pairs (group, verdict, identifiers of the words). -/
structure St where
  groups : List RGroup
  pairs : List (List Nat × List Nat × List Nat × List Nat)
  deriving Repr, DecidableEq

/-- The token in the columns from `k` on (5: reference, 16: system), src/align2html/align2html-main.pl:97, 110. -/
def tokAt (fs : List (List Nat)) (k : Nat) : RTok :=
  ⟨fs.getD (k + 4) [], fs.getD (k + 5) [], fs.getD (k + 6) [], fs.getD (k + 7) [], fs.getD (k + 8) [], fs.getD (k + 9) [],
   fs.getD (k + 10) [], fs.getD (k + 1) [], fs.getD (k + 2) []⟩

/-- `addSGLine`, src/align2html/align2html-main.pl:71-138. -/
def addSG (st : St) (fs : List (List Nat)) : St :=
  let g0 : RGroup := ⟨fs.getD 1 [], fs.getD 2 [], fs.getD 3 [], [], []⟩
  let isRef := fs.getD 5 [] ≠ [] ∧ fs.getD 9 [] ≠ []
  let isSys := fs.getD 16 [] ≠ [] ∧ fs.getD 20 [] ≠ []
  let sysOf := fun (g : RGroup) =>
    { g with sys := addSeg (fs.getD 16 []) (bytes "hyp:" ++ fs.getD 19 []) (tokAt fs 16) g.sys }
  let refOf := fun (g : RGroup) =>
    { g with ref := addSeg (fs.getD 5 []) (bytes "ref:" ++ fs.getD 8 []) (tokAt fs 5) g.ref }
  if isSys then { st with groups := upsert (fun g => g.id = fs.getD 1 []) g0 sysOf st.groups }
  else if isRef then { st with groups := upsert (fun g => g.id = fs.getD 1 []) g0 refOf st.groups }
  else st

/-- `GetToken`, src/align2html/SegmentGroup.pm:95-109: is there a token of this identifier? -/
def hasTok (g : RGroup) (id : List Nat) : Bool :=
  g.ref.any (fun s => s.toks.any (fun t => t.id = id)) || g.sys.any (fun s => s.toks.any (fun t => t.id = id))

/-- `addAlignments`, src/align2html/align2html-main.pl:140-163; `none`: a method is called on something undefined and the
program dies. -/
def addYes (st : St) (fs : List (List Nat)) : Option St :=
  let g := st.groups.find? (fun g => g.id = fs.getD 1 [])
  let ok := fun (id : List Nat) => id = [] ∨ g.any (fun g => hasTok g id) = true
  if ok (fs.getD 9 []) ∧ ok (fs.getD 20 []) then
    some { st with pairs := st.pairs ++ [(fs.getD 1 [], fs.getD 4 [], fs.getD 9 [], fs.getD 20 [])] }
  else none

/-- One line, src/align2html/align2html-main.pl:173-192. -/
def readLine (st : St) (l : List Nat) : Option St :=
  match fieldsOf l with
  | none => some st
  | some fs =>
    if fs.getD 0 [] = bytes "SG" then some (addSG st fs)
    else if fs.getD 0 [] = bytes "YES" then addYes st fs
    else some st

/-- `loadAlignFile`, src/align2html/align2html-main.pl:165-196. -/
def load : St → List (List Nat) → Option St
  | st, [] => some st
  | st, l :: ls => (readLine st l).bind (fun st' => load st' ls)

end Verif.AlignLog
