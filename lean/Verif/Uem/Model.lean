import Verif.Segmentor.Model
/-!
# Model of asclite's UEM filter, of the removal of segments and of the speaker overlap check

src/asclite/core/uemfilter.cpp, src/asclite/core/speech.cpp, src/asclite/core/token.cpp,
src/asclite/core/spkrautooverlap.cpp.  Times are integers (milliseconds in the code, `int`; overflow is outside the
model).  Segments and groups of segments are those of the segmentor's model.
-/
set_option autoImplicit false
namespace Verif.Uem
open Segmentor

/-- `UEMElement`, src/asclite/core/uemfilter.h:28-49: a region of a file and channel to be evaluated. -/
structure Elem where
  file : String
  channel : String
  start : Int
  stop : Int
  deriving Repr, DecidableEq

/-- The test of `FindElement`, src/asclite/core/uemfilter.cpp:48: `file.find(name, 0) == 0`, that is, the name in the
UEM file is an initial part of the segment's file name; the channels are equal. -/
def applies (file channel : String) (e : Elem) : Bool :=
  e.file.toList.isPrefixOf file.toList && decide (channel = e.channel)

/-- `FindElement`, src/asclite/core/uemfilter.cpp:42-50. -/
def findElement (els : List Elem) (file channel : String) : List Elem := els.filter (applies file channel)

/-- `keep` for a reference segment, src/asclite/core/uemfilter.cpp:162. -/
def contains (ss se us ue : Int) : Bool := decide (us ≤ ss) && decide (se ≤ ue)

/-- The three cases reported as errors, src/asclite/core/uemfilter.cpp:180-182. -/
def straddles (ss se us ue : Int) : Bool :=
  (decide (ss < us) && decide (us < se) && decide (se < ue)) ||
  (decide (ss < us) && decide (us < ue) && decide (ue < se)) ||
  (decide (us < ss) && decide (ss < ue) && decide (ue < se))

/-- The loop over the regions for a reference segment, src/asclite/core/uemfilter.cpp:156-196: whether the segment is
kept, number of errors. -/
def refScan (ss se : Int) : List Elem → Bool × Nat
  | [] => (false, 0)
  | e :: es =>
    if contains ss se e.start e.stop then (true, 0)
    else
      let r := refScan ss se es
      (r.1, if straddles ss se e.start e.stop then r.2 + 1 else r.2)

/-- `segMidPoint`, src/asclite/core/uemfilter.cpp:219; C division truncates. -/
def midPoint (g : Seg) : Int := (g.start + g.stop).tdiv 2

/-- The loop over the regions for a hypothesis segment, src/asclite/core/uemfilter.cpp:239-250. -/
def hypScan (mid : Int) : List Elem → Bool
  | [] => false
  | e :: es => if decide (e.start ≤ mid) && decide (mid ≤ e.stop) then true else hypScan mid es

/-- What the speech belongs to (`IsRef`, `IsGen`, `IsHyp`). -/
inductive Kind where
  | ref | gen | hyp | none
  deriving Repr, DecidableEq

/-- Verdict on one segment, src/asclite/core/uemfilter.cpp:130-205 and 216-262.  Without a region for the file and
channel the segment is removed (142-148, 227-233). -/
def verdict (els : List Elem) (k : Kind) (g : Seg) : Bool × Nat :=
  match findElement els g.source g.channel with
  | [] => (false, 0)
  | e :: es =>
    match k with
    | .hyp => (hypScan (midPoint g) (e :: es), 0)
    | _ => refScan g.start g.stop (e :: es)

/-- Step 1 of `ProcessSingleSpeech`, src/asclite/core/uemfilter.cpp:121-269: segments to remove, number of errors;
`none` = the program exits. -/
def step1 (els : List Elem) (k : Kind) (sp : Speech) : Option (List Seg × Nat) :=
  match k with
  | .none => none
  | _ => some (sp.filter (fun g => !(verdict els k g).1), (sp.map fun g => (verdict els k g).2).sum)

/-- A `Speech` with the links of its tokens: `firsts` and `lasts` of a segment are its first and last tokens
(src/asclite/core/segment.h), `prec` and `next` the vectors of a token (src/asclite/core/token.h).  Tokens are
numbers. -/
structure World where
  segs : Speech
  firsts : Seg → List Nat
  lasts : Seg → List Nat
  prec : Nat → List Nat
  next : Nat → List Nat

/-- A vector of a token is replaced. -/
def upd (f : Nat → List Nat) (a : Nat) (v : List Nat) : Nat → List Nat := fun x => if x = a then v else f x

/-- Calls `UnlinkNextToken` or `UnlinkPrevToken`, src/asclite/core/token.cpp:147-181, for the pairs (token, neighbour to
be forgotten); `none` = the neighbour is missing and the program exits. -/
def unlink : List (Nat × Nat) → (Nat → List Nat) → Option (Nat → List Nat)
  | [], f => some f
  | (a, b) :: r, f => if b ∈ f a then unlink r (upd f a ((f a).erase b)) else none

/-- The tokens before the first tokens, in the order of the loops src/asclite/core/speech.cpp:148-161; each with the
first token it precedes.  (The vectors `prec` read there are not changed by the loop.) -/
def before (w : World) (g : Seg) : List (Nat × Nat) :=
  (w.firsts g).flatMap fun f => (w.prec f).map fun p => (p, f)

/-- The tokens after the last tokens, src/asclite/core/speech.cpp:164-177. -/
def after (w : World) (g : Seg) : List (Nat × Nat) :=
  (w.lasts g).flatMap fun l => (w.next l).map fun n => (n, l)

/-- The inner loop of the re-attachment, src/asclite/core/speech.cpp:187-193, for one preceding token. -/
def attach (p : Nat) : List Nat → (Nat → List Nat) × (Nat → List Nat) → (Nat → List Nat) × (Nat → List Nat)
  | [], l => l
  | n :: ns, (prec, next) => attach p ns (upd prec n (prec n ++ [p]), upd next p (next p ++ [n]))

/-- The re-attachment, src/asclite/core/speech.cpp:185-196.  The iterator `next` is not reset for the second preceding
token, so that only the first one is attached. -/
def reattach (ps ns : List Nat) (l : (Nat → List Nat) × (Nat → List Nat)) :
    (Nat → List Nat) × (Nat → List Nat) :=
  match ps with
  | [] => l
  | p :: _ => attach p ns l

/-- `Speech::RemoveSegment`, src/asclite/core/speech.cpp:142-217; `none` = the program exits.  The destruction of the
segment and of its tokens is not modelled: their vectors simply stay. -/
def removeSegment (w : World) (g : Seg) : Option World :=
  match unlink (before w g) w.next, unlink (after w g) w.prec with
  | some nx, some pr =>
    let l := reattach ((before w g).map Prod.fst) ((after w g).map Prod.fst) (pr, nx)
    if g ∈ w.segs then some { w with segs := w.segs.erase g, prec := l.1, next := l.2 } else none
  | _, _ => none

/-- Step 2 of `ProcessSingleSpeech`, src/asclite/core/uemfilter.cpp:272-282. -/
def removeAll : List Seg → World → Option World
  | [], w => some w
  | g :: gs, w =>
    match removeSegment w g with
    | none => none
    | some w' => removeAll gs w'

/-- `ProcessSingleSpeech`, src/asclite/core/uemfilter.cpp:121-285: the speech after the filter, number of errors. -/
def processSpeech (els : List Elem) (k : Kind) (w : World) : Option (World × Nat) :=
  match step1 els k w.segs with
  | none => none
  | some (rs, n) =>
    match removeAll rs w with
    | none => none
    | some w' => some (w', n)

/-- The scan of a group's segments, src/asclite/core/uemfilter.cpp:325-345: `minSG`, `maxSG`, file and channel. -/
def groupScan : List Seg → Int × Int × String × String → Int × Int × String × String
  | [], a => a
  | g :: gs, (m, x, _, _) =>
    groupScan gs (if m = -1 ∨ g.start < m then g.start else m, if x = -1 ∨ g.stop > x then g.stop else x,
      g.source, g.channel)

/-- A group's times, file and channel, src/asclite/core/uemfilter.cpp:315-345. -/
def groupTimes (g : Group) : Int × Int × String × String := groupScan g.refs.flatten (-1, -1, "", "")

/-- The times of the groups of a file and channel, in order (the entries of `mapListTime[file][channel]` pushed in
src/asclite/core/uemfilter.cpp:347-348; every second one is in `mapListSGborder`, 349). -/
def spans (gs : List Group) (file channel : String) : List (Int × Int) :=
  ((gs.map groupTimes).filter fun t => decide (t.2.2.1 = file ∧ t.2.2.2 = channel)).map fun t => (t.1, t.2.1)

/-- Both ends of intervals, one after the other. -/
def ends (l : List (Int × Int)) : List Int := l.flatMap fun i => [i.1, i.2]

/-- The list of times with a UEM file, src/asclite/core/uemfilter.cpp:390-405 (file and channel must have a group;
here the names are compared for equality). -/
def uemTimes (gs : List Group) (els : List Elem) (file channel : String) : List Int :=
  ends (spans gs file channel) ++
    ends ((els.filter fun e => decide (e.file = file ∧ e.channel = channel)).map fun e => (e.start, e.stop))

/-- A hypothesis segment: its file, channel and the times of its tokens. -/
structure HSeg where
  file : String
  channel : String
  toks : List (Int × Int)
  deriving Repr, DecidableEq

/-- Smallest time of the groups of a file and channel, `mapMinRefTime`, src/asclite/core/uemfilter.cpp:355-377. -/
def refMin : List (Int × Int) → Option Int
  | [] => none
  | i :: is => some (is.foldl (fun m j => if j.1 < m then j.1 else m) i.1)

/-- Largest time, `mapMaxRefTime`, the same lines. -/
def refMax : List (Int × Int) → Option Int
  | [] => none
  | i :: is => some (is.foldl (fun m j => if j.2 > m then j.2 else m) i.2)

/-- The hypothesis segments of a file and channel, all systems together. -/
def ofKey (hs : List HSeg) (file channel : String) : List HSeg :=
  hs.filter fun h => decide (h.file = file ∧ h.channel = channel)

/-- The list of times without a UEM file for a file and channel with a group, src/asclite/core/uemfilter.cpp:409-489:
each hypothesis segment of the file and channel puts the smallest time in front and the largest at the end. -/
def hypTimes (gs : List Group) (hs : List HSeg) (file channel : String) : Option (List Int) :=
  match refMin (spans gs file channel), refMax (spans gs file channel) with
  | some m, some x =>
    let ts := (ofKey hs file channel).flatMap HSeg.toks
    let m' := ts.foldl (fun m j => if j.1 < m then j.1 else m) m
    let x' := ts.foldl (fun m j => if j.2 > m then j.2 else m) x
    some (List.replicate (ofKey hs file channel).length m' ++ ends (spans gs file channel) ++
      List.replicate (ofKey hs file channel).length x')
  | _, _ => none

/-- The loop over the sorted times, src/asclite/core/uemfilter.cpp:511-561: the gaps made; `none` = an odd number of
times, the program exits. -/
def gapLoop (border : List Int) : List Int → Option (List (Int × Int))
  | [] => some []
  | [_] => none
  | b :: e :: r =>
    match gapLoop border r with
    | none => none
    | some gs => if b ∈ border then some gs else if b ≠ e then some ((b, e) :: gs) else some gs

/-- Insertion into a sorted list, for `list::sort` below. -/
def insertTime (x : Int) : List Int → List Int
  | [] => [x]
  | y :: ys => if x ≤ y then x :: y :: ys else y :: insertTime x ys

/-- `mi->second.sort()`, src/asclite/core/uemfilter.cpp:509; the method does not matter for integers. -/
def sortTimes : List Int → List Int
  | [] => []
  | x :: xs => insertTime x (sortTimes xs)

/-- Sorting the times and making the gaps of one file and channel, src/asclite/core/uemfilter.cpp:507-564. -/
def gapsOf (border times : List Int) : Option (List (Int × Int)) :=
  gapLoop border (sortTimes times)

/-- The groups of the references, src/asclite/core/uemfilter.cpp:301-313; the segmentor runs with an empty set of
hypotheses. -/
def groupsOf (refs : SpeechSet) : Option (List Group) :=
  match reset refs none with
  | none => none
  | some st =>
    match run refs [] (refs.flatten.length + 1) st with
    | none => none
    | some (gs, _) => some gs

/-- The gaps `ProcessSpeechSet` adds for a file and channel when a UEM file is given,
src/asclite/core/uemfilter.cpp:287-585; a file and channel without a group have no entry in `mapListTime` and get no
gap (397-398).  `none` = the program exits or its behaviour is undefined.  The names, speaker and numbers given to the
gaps are not modelled, nor is the order among files and channels. -/
def gapsWithUem (refs : SpeechSet) (els : List Elem) (file channel : String) : Option (List (Int × Int)) :=
  match groupsOf refs with
  | none => none
  | some gs =>
    if (spans gs file channel).isEmpty then some []
    else gapsOf ((spans gs file channel).map Prod.fst) (uemTimes gs els file channel)

/-- The same without a UEM file; a hypothesis segment whose file and channel have no group stops the program
(src/asclite/core/uemfilter.cpp:427-449). -/
def gapsWithoutUem (refs : SpeechSet) (hs : List HSeg) (file channel : String) : Option (List (Int × Int)) :=
  match groupsOf refs with
  | none => none
  | some gs =>
    if (spans gs file channel).isEmpty then some []
    else if hs.all fun h => !(spans gs h.file h.channel).isEmpty then
      match hypTimes gs hs file channel with
      | none => none
      | some ts => gapsOf ((spans gs file channel).map Prod.fst) ts
    else none

/-- `SpkrAutoOverlap::ProcessSingleSpeech`, src/asclite/core/spkrautooverlap.cpp:29-61, after the first segment:
number of errors. -/
def autoOverlap : Option Seg → Speech → Nat
  | _, [] => 0
  | none, g :: gs => autoOverlap (some g) gs
  | some p, g :: gs =>
    (if g.start < p.stop ∧ p.source = g.source ∧ p.channel = g.channel then 1 else 0) + autoOverlap (some g) gs

end Verif.Uem
