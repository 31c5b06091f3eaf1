import Verif.Scorer.Model
/-!
# Model of the storing of alignments and of the scoring of what is stored

src/asclite/core/alignment.cpp, alignedspeech.cpp, alignedsegment.cpp, tokenalignment.cpp, graphalignedsegment.cpp
(access to columns), segmentsgroup.cpp (segment by time, difficulty), stt_scorer.cpp (the loop over the systems) and the
decision of `Recording::AlignHypRef` which groups of segments are aligned.

Pointers to tokens, segments and speeches are values with an identity number.  The maps from pointers are lists in
order of creation; the program walks through them in the order of addresses, which is not determined, so the theorems
speak of numbers and of lists up to order.
-/
set_option autoImplicit false
namespace Verif.Store
open Verif.Scorer

/-- What is read of a `Segment`, src/asclite/core/segment.h: identity, the speech it belongs to, source, channel and
speaker, the times in milliseconds. -/
structure Seg where
  id : Nat
  speech : Nat
  source : Str
  channel : Str
  speaker : Str
  start : Int
  stop : Int
  deriving Repr, DecidableEq

/-- What is read of a `Token`, src/asclite/core/token.h: identity, times (negative when there are none), text,
`IsOptional` and the parent segment. -/
structure Token where
  id : Nat
  start : Int
  stop : Int
  text : Str
  optional : Bool
  seg : Seg
  deriving Repr, DecidableEq

/-- The token as the scorer sees it, src/asclite/core/stt_scorer.cpp:81-125. -/
def Token.seen (t : Token) : Tok := ⟨t.text, t.optional, t.seg.source, t.seg.channel, t.seg.speaker⟩

/-- `TimedObject::OverlapWith`, src/asclite/core/timedobject.cpp:25-44, on start and end times. -/
def overlapWith (s e s' e' : Int) : Bool :=
  if s ≤ s' then decide (e ≥ s') else decide (e' ≥ s)

/-! ## Columns of an alignment -/

/-- `GraphAlignedToken`: one column, hypotheses first. -/
abbrev Col := List (Option Token)

/-- First token that is not `NULL`. -/
def firstTok : Col → Option Token
  | [] => none
  | some t :: _ => some t
  | none :: c => firstTok c

/-- `GetNonNullReference`, src/asclite/core/graphalignedsegment.cpp:227-245; `k` is `m_HypRefIndex`. -/
def refOf (k : Nat) (c : Col) : Option Token := firstTok (c.drop k)

/-- `GetNonNullHypothesis`, src/asclite/core/graphalignedsegment.cpp:247-265. -/
def hypOf (k : Nat) (c : Col) : Option Token := firstTok (c.take k)

/-- `GetNextNonNullReference`, src/asclite/core/graphalignedsegment.cpp:285-303, on the columns to the right. -/
def nextRef (k : Nat) : List Col → Option Token
  | [] => none
  | c :: cs =>
    match refOf k c with
    | some t => some t
    | none => nextRef k cs

/-! ## The segment of an insertion -/

/-- `SegmentsGroup::GetRefSegmentByTime`, src/asclite/core/segmentsgroup.cpp:85-104, on the reference segments in order;
`none` = the program stops. -/
def byTime (h : Token) : List Seg → Option Seg
  | [] => none
  | s :: ss => if overlapWith s.start s.stop h.start h.stop then some s else byTime h ss

/-- State of the search after a turn. -/
inductive Turn where
  /-- a candidate (`NULL` possible) and the two flags -/
  | cand (s : Option Seg) (didL didR : Bool)
  /-- `exit` in `GetRefSegmentByTime` -/
  | exit
  deriving Repr, DecidableEq

/-- Body of the do-loop, src/asclite/core/alignment.cpp:110-148: `l` is the segment of the last reference token,
`r` that of the next one. -/
def turn (l r : Option Seg) (group : List Seg) (h : Token) (didL didR : Bool) : Turn :=
  let (s, didL, didR) :=
    if l.isSome && !didL then (l, true, didR)
    else if !didR then (r, didL, true)
    else (none, didL, didR)
  match s with
  | some s => .cand (some s) didL didR
  | none =>
    if didR then
      match byTime h group with
      | some s => .cand (some s) didL didR
      | none => .exit
    else .cand r didL true

/-- The condition of the do-loop, src/asclite/core/alignment.cpp:149: go on? -/
def again (h : Token) (s : Option Seg) : Bool :=
  !(match s with
    | some s => overlapWith h.start h.stop s.start s.stop
    | none => false) && decide (h.start ≥ 0) && decide (h.stop ≥ 0)

/-- Outcome of the search. -/
inductive Seek where
  | found (s : Option Seg)
  | exit
  | running
  deriving Repr, DecidableEq

/-- The do-loop, src/asclite/core/alignment.cpp:110-149, observed for at most `n` turns. -/
def seek (l r : Option Seg) (group : List Seg) (h : Token) : Nat → Bool → Bool → Seek
  | 0, _, _ => .running
  | n + 1, didL, didR =>
    match turn l r group h didL didR with
    | .exit => .exit
    | .cand s didL' didR' => if again h s then seek l r group h n didL' didR' else .found s

/-! ## What is stored -/

/-- `TokenAlignment::REFERENCE_KEY`, src/asclite/core/tokenalignment.cpp:30. -/
def refKey : Str := "REFERENCE".toList

/-- `TokenAlignment`: the entry under `REFERENCE_KEY` and the others. -/
structure TA where
  ref : Option Token
  evals : List (Str × Option Token)
  deriving Repr, DecidableEq

/-- `GetAlignmentFor`, src/asclite/core/tokenalignment.h:60; `none` = `NULL`. -/
def TA.get (t : TA) (k : Str) : Option (Option Token) :=
  if k = refKey then some t.ref else (t.evals.find? fun e => e.1 = k).map Prod.snd

/-- `AddAlignmentFor`, src/asclite/core/tokenalignment.cpp:58-66: an existing entry is kept. -/
def TA.add (t : TA) (k : Str) (h : Option Token) : TA :=
  match t.get k with
  | some _ => t
  | none => { t with evals := (k, h) :: t.evals }

/-- `GetTokenAlignmentFor` and `AddTokenAlignment`, src/asclite/core/alignedsegment.cpp:59-89: the entry of the
reference token, or a new one; a new one for every insertion. -/
def putTok : List TA → Option Token → Str → Option Token → List TA
  | [], r, k, h => [TA.add ⟨r, []⟩ k h]
  | t :: ts, r, k, h =>
    if r.isSome ∧ t.ref = r then t.add k h :: ts else t :: putTok ts r k h

/-- `AlignedSegment`, src/asclite/core/alignedsegment.h. -/
structure ASeg where
  seg : Seg
  toks : List TA
  deriving Repr, DecidableEq

/-- `GetOrCreateAlignedSegmentFor`, src/asclite/core/alignedspeech.cpp:52-69, followed by an update. -/
def putSeg : List ASeg → Seg → (List TA → List TA) → List ASeg
  | [], s, f => [⟨s, f []⟩]
  | a :: as, s, f => if a.seg = s then ⟨s, f a.toks⟩ :: as else a :: putSeg as s f

/-- `AlignedSpeech`, src/asclite/core/alignedspeech.h. -/
structure ASpeech where
  speech : Nat
  segs : List ASeg
  deriving Repr, DecidableEq

/-- `GetOrCreateAlignedSpeechFor`, src/asclite/core/alignment.cpp:69-80, followed by an update. -/
def putSpeech : List ASpeech → Nat → (List ASeg → List ASeg) → List ASpeech
  | [], p, f => [⟨p, f []⟩]
  | a :: as, p, f => if a.speech = p then ⟨p, f a.segs⟩ :: as else a :: putSpeech as p f

/-- `Alignment::m_references`. -/
abbrev Alignment := List ASpeech

/-- Storing one column, src/asclite/core/alignment.cpp:157-160. -/
def storeAt (A : Alignment) (s : Seg) (r : Option Token) (k : Str) (h : Option Token) : Alignment :=
  putSpeech A s.speech fun segs => putSeg segs s fun ts => putTok ts r k h

/-- Creating an aligned segment without tokens, src/asclite/core/alignment.cpp:173-175. -/
def touchAt (A : Alignment) (s : Seg) : Alignment :=
  putSpeech A s.speech fun segs => putSeg segs s fun ts => ts

/-- A group of segments with its alignment: `m_HypRefIndex`, the columns in reading order (`GetGraphAlignedToken` turns
the vector round, src/asclite/core/graphalignedsegment.cpp:53-63), the reference segments by speaker. -/
structure Group where
  split : Nat
  cols : List Col
  refs : List (List Seg)
  deriving Repr, DecidableEq

/-- Outcome of storing. -/
inductive Res where
  | stored (A : Alignment)
  /-- `exit(E_INVALID)` -/
  | exit
  /-- the do-loop does not end -/
  | hang
  /-- `NULL` is dereferenced -/
  | crash
  deriving Repr, DecidableEq

/-- The loop over the columns of `AddGraphAlignedSegment`, src/asclite/core/alignment.cpp:98-162.  `last` is
`lastNonNullRef`.  Four turns of the search tell whether it ends (`seek_forever`).  `SetSegGrpID` is left out. -/
def storeCols (k : Nat) (group : List Seg) (key : Str) : Alignment → Option Token → List Col → Res
  | A, _, [] => .stored A
  | A, last, c :: cs =>
    match refOf k c with
    | some r => storeCols k group key (storeAt A r.seg (some r) key (hypOf k c)) (some r) cs
    | none =>
      match hypOf k c with
      | none => .crash
      | some h =>
        match seek (last.map Token.seg) ((nextRef k cs).map Token.seg) group h 4 false false with
        | .exit => .exit
        | .running => .hang
        | .found none => .crash
        | .found (some s) => storeCols k group key (storeAt A s none key (some h)) last cs

/-- `AddGraphAlignedSegment`, src/asclite/core/alignment.cpp:82-179. -/
def addGroup (A : Alignment) (key : Str) (g : Group) : Res :=
  if g.cols = [] then .stored (g.refs.flatten.foldl touchAt A)
  else storeCols g.split g.refs.flatten key A none g.cols

/-- All aligned groups of one system, src/asclite/core/recording.cpp:632-833. -/
def addGroups (key : Str) : Alignment → List Group → Res
  | A, [] => .stored A
  | A, g :: gs =>
    match addGroup A key g with
    | .stored A' => addGroups key A' gs
    | r => r

/-- All systems in turn, src/asclite/core/recording.cpp:619-836. -/
def addSystems : Alignment → List (Str × List Group) → Res
  | A, [] => .stored A
  | A, (key, gs) :: ss =>
    match addGroups key A gs with
    | .stored A' => addSystems A' ss
    | r => r

/-! ## Scoring -/

/-- All aligned segments. -/
def segsOf (A : Alignment) : List ASeg := A.flatMap ASpeech.segs

/-- Parameters of the scorer: token equivalence, `align.optionally`, `align.speakeroptimization`, the speaker map. -/
structure Setting where
  eqv : Str → Str → Bool
  opt : Str
  spkOpt : Bool
  spk : SpkMap

/-- The verdict on one stored token for one system, src/asclite/core/stt_scorer.cpp:73-125; `none` = `NULL` is
dereferenced (no entry for the system, or neither reference nor hypothesis). -/
def judge (S : Setting) (k : Str) (t : TA) : Option Verdict :=
  match t.get k with
  | none => none
  | some h => verdict S.eqv S.opt S.spkOpt S.spk (t.ref.map Token.seen) (h.map Token.seen)

/-- `STTScorer::Score`, src/asclite/core/stt_scorer.cpp:64-162: does it run through all tokens and systems without
dereferencing `NULL`? -/
def scores (S : Setting) (systems : List Str) (A : Alignment) : Bool :=
  (segsOf A).all fun a => a.toks.all fun t => systems.all fun k => (judge S k t).isSome

/-- What the report of a system is made from, src/asclite/core/rawsys_reportgenerator.cpp:241-262. -/
def scored (S : Setting) (k : Str) (A : Alignment) : List Scored :=
  (segsOf A).map fun a => ⟨a.seg.speaker, a.toks.map (judge S k)⟩

/-! ## Which groups are aligned -/

/-- `SegmentsGroup::GetDifficultyNumber`, src/asclite/core/segmentsgroup.cpp:146-175, in `unsigned long long`: the
arguments are the numbers of tokens of each reference and hypothesis. -/
def difficulty (sizes : List Nat) : Nat := sizes.foldl (fun res n => res * (n + 1) % 2 ^ 64) 1

/-- The properties read by `AlignHypRef`, src/asclite/core/recording.cpp:605-617, 738, 755, 772: limits as numbers of
cells. -/
structure Limits where
  maxOverlap : Nat
  minOverlap : Nat
  onlySG : Option Nat
  maxDifficulty : Option Nat
  minDifficulty : Option Nat
  maxCells : Nat
  compression : Bool
  forced : Bool

/-- `max_nb_2gb`, src/asclite/core/recording.cpp:614. -/
def twoGb : Nat := 2 * 1024 * 1024 * 1024 / 4

/-- What `AlignHypRef` looks at in a group. -/
structure Sized where
  ignored : Bool
  id : Nat
  refs : List Nat
  hyps : List Nat

/-- The decision of `AlignHypRef`, src/asclite/core/recording.cpp:645-799: `none` = skipped, otherwise whether the
compressed table is used.  A missing hypothesis counts as an empty one (lines 646-651). -/
def decideGroup (L : Limits) (g : Sized) : Option Bool :=
  let hyps := if g.hyps = [] then [0] else g.hyps
  let cells := difficulty (g.refs ++ hyps)
  let ign := g.ignored
  let ign := if !ign && L.onlySG.any (fun i => decide (g.id ≠ i)) then true else ign
  let ign := if !ign && decide (g.refs.length > L.maxOverlap) then true else ign
  let ign := if !ign && decide (g.refs.length < L.minOverlap) then true else ign
  let ign := if !ign && L.maxDifficulty.any (fun d => decide (cells > d)) then true else ign
  let ign := if !ign && L.minDifficulty.any (fun d => decide (cells < d)) then true else ign
  let (ign, comp) :=
    if !ign && (decide (cells > L.maxCells) || decide (cells > twoGb)) then
      if !(L.compression || L.forced) then (true, false) else (ign, true)
    else (ign, false)
  let comp := if !ign && L.forced then true else comp
  if ign then none else some comp

end Verif.Store
