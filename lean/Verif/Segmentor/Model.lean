/-!
# Model of asclite's time overlap test and of the CTM/STM/RTTM segmentor

src/asclite/core/timedobject.cpp, src/asclite/core/speech.cpp, src/asclite/core/ctmstmrttm_segmentor.cpp.
Times are integers (milliseconds in the code, `int`; overflow is outside the model).
-/
set_option autoImplicit false
namespace Verif.Segmentor

/-- `TimedObject`, src/asclite/core/timedobject.h: start and end time. -/
structure Timed where
  start : Int
  stop : Int
  deriving Repr, DecidableEq

/-- `OverlapWith`, src/asclite/core/timedobject.cpp:25-44 (the argument is not `NULL`). -/
def overlapWith (a b : Timed) : Bool :=
  let fs : Timed × Timed := if a.start ≤ b.start then (a, b) else (b, a)
  decide (fs.1.stop ≥ fs.2.start)

/-- Loop of `TimeSafeDivider`, src/asclite/core/timedobject.cpp:98-106, from exponent `k` on; `none` = the power of ten
does not fit an `int` (undefined conversion).  `room` counts the exponents left up to 9, the last that fits. -/
def dividerLoop (a : Timed) (k : Nat) : Nat → Option Nat
  | 0 => none
  | room + 1 =>
    if a.start.tmod (10 ^ k) = 0 ∧ a.stop.tmod (10 ^ k) = 0 then dividerLoop a (k + 1) room
    else some (10 ^ (k - 1))

/-- `TimeSafeDivider`, src/asclite/core/timedobject.cpp:93-109. -/
def timeSafeDivider (timeReal : Bool) (a : Timed) : Option Nat :=
  if !timeReal then some 1 else dividerLoop a 1 9

/-- A `Segment` as the segmentor sees it; `id` stands for the object identity. -/
structure Seg where
  id : Nat
  source : String
  channel : String
  start : Int
  stop : Int
  deriving Repr, DecidableEq

/-- A `Speech` is its vector of segments; a `SpeechSet` a vector of speeches. -/
abbrev Speech := List Seg
abbrev SpeechSet := List Speech

/-- The loop of `Speech::NextSegment`, src/asclite/core/speech.cpp:87-101; `last` is `last_endTime`. -/
def nextLoop (time : Int) (src ch : String) : Int → Speech → Option Seg
  | _, [] => none
  | last, g :: gs =>
    if g.source = src ∧ g.channel = ch then
      if g.stop > time ∧ last ≤ time then some g else nextLoop time src ch g.stop gs
    else nextLoop time src ch last gs

/-- `Speech::NextSegment`, src/asclite/core/speech.cpp:83-104. -/
def nextSegment (sp : Speech) (time : Int) (src ch : String) : Option Seg := nextLoop time src ch 0 sp

/-- `Speech::GetSegmentsByTime`, src/asclite/core/speech.cpp:109-127; C division truncates. -/
def segmentsByTime (sp : Speech) (start stop : Int) (src ch : String) : List Seg :=
  sp.filter fun g =>
    decide (g.source = src) && decide (g.channel = ch) &&
      (decide ((g.stop + g.start).tdiv 2 ≥ start) && decide ((g.stop + g.start).tdiv 2 < stop))

/-- `INT_MAX`. -/
def intMax : Int := 2147483647

/-- Loop of `GetFirstSegment`, src/asclite/core/ctmstmrttm_segmentor.cpp:293-305. -/
def firstLoop (t : Int) (src ch : String) : SpeechSet → Int → Option Seg → Option Seg
  | [], _, r => r
  | sp :: sps, m, r =>
    match nextSegment sp t src ch with
    | none => firstLoop t src ch sps m r
    | some g => if g.start < m then firstLoop t src ch sps g.start (some g) else firstLoop t src ch sps m r

/-- `GetFirstSegment`, src/asclite/core/ctmstmrttm_segmentor.cpp:288-308. -/
def getFirst (refs : SpeechSet) (t : Int) (src ch : String) : Option Seg :=
  firstLoop t src ch refs intMax none

/-- One pass of the `for` loop of `GetLastOverlapingSegment`,
src/asclite/core/ctmstmrttm_segmentor.cpp:237-251: new `last` and `again`. -/
def lastPass (src ch : String) : SpeechSet → Seg → Bool → Seg × Bool
  | [], last, again => (last, again)
  | sp :: sps, last, again =>
    match nextSegment sp last.stop src ch with
    | none => lastPass src ch sps last again
    | some g =>
      if g.start < last.stop then lastPass src ch sps g true else lastPass src ch sps last again

/-- The `while (again)` loop, src/asclite/core/ctmstmrttm_segmentor.cpp:233-252; `none` = not finished within
`fuel` passes. -/
def lastLoop (refs : SpeechSet) (src ch : String) : Nat → Seg → Option Seg
  | 0, _ => none
  | fuel + 1, last =>
    match lastPass src ch refs last false with
    | (last', true) => lastLoop refs src ch fuel last'
    | (last', false) => some last'

/-- `set<string>::insert`: ordered, without duplicates. -/
def setInsert (x : String) : List String → List String
  | [] => [x]
  | y :: ys => if x = y then y :: ys else if x < y then x :: y :: ys else y :: setInsert x ys

/-- Position of the iteration, src/asclite/core/ctmstmrttm_segmentor.h (`sourceList`, `channelList`,
`currentSource`, `currentChannel`, `currentSegmentRef`). -/
structure St where
  sources : List String
  channels : String → List String
  src : String
  ch : String
  cur : Option Seg

/-- The two collections filled by `Reset`, src/asclite/core/ctmstmrttm_segmentor.cpp:53-64. -/
def collect : List Seg → List String × (String → List String) → List String × (String → List String)
  | [], a => a
  | g :: gs, (ss, cs) =>
    collect gs (setInsert g.source ss,
      fun s => if s = g.source then setInsert g.channel (cs s) else cs s)

/-- End of `Reset`, src/asclite/core/ctmstmrttm_segmentor.cpp:69-78: first source and channel; `none` = an
iterator of an empty set is dereferenced. -/
def start (refs : SpeechSet) (ss : List String) (cs : String → List String) : Option St :=
  match ss with
  | [] => none
  | s :: ss' =>
    match cs s with
    | [] => none
    | c :: cs' =>
      some { sources := ss', channels := fun x => if x = s then cs' else cs x, src := s, ch := c,
             cur := getFirst refs 0 s c }

/-- `Reset`, src/asclite/core/ctmstmrttm_segmentor.cpp:47-79.  `old` is the state left by an earlier use with the
same references (the collections are then not filled again), `none` for new references. -/
def reset (refs : SpeechSet) (old : Option St) : Option St :=
  match old with
  | none => let c := collect refs.flatten ([], fun _ => []); start refs c.1 c.2
  | some st => start refs st.sources st.channels

/-- A `SegmentsGroup`: one vector of segments per speech that has any. -/
structure Group where
  refs : List (List Seg)
  hyps : List (List Seg)
  deriving Repr, DecidableEq

/-- Segments of all speeches in a window, empty ones left out,
src/asclite/core/ctmstmrttm_segmentor.cpp:174-188. -/
def inWindow (ss : SpeechSet) (a b : Int) (src ch : String) : List (List Seg) :=
  (ss.map fun sp => segmentsByTime sp a b src ch).filter fun v => v.length ≠ 0

/-- The move to the next channel or source, src/asclite/core/ctmstmrttm_segmentor.cpp:195-221; `none` = an iterator
of an empty set is dereferenced. -/
def advance (refs : SpeechSet) (st : St) : Option St :=
  match st.channels st.src with
  | c :: cs => some { st with channels := fun x => if x = st.src then cs else st.channels x, ch := c,
                              cur := getFirst refs 0 st.src c }
  | [] =>
    match st.sources with
    | s :: ss =>
      match st.channels s with
      | [] => none
      | c :: cs => some { sources := ss, channels := fun x => if x = s then cs else st.channels x,
                          src := s, ch := c, cur := getFirst refs 0 s c }
    | [] => some st

/-- `Next`, src/asclite/core/ctmstmrttm_segmentor.cpp:163-225; `none` = undefined behaviour or the search loop not
finished (it is given one pass more than there are segments). -/
def next (refs hyps : SpeechSet) (st : St) : Option (Group × St) :=
  match st.cur with
  | none => none
  | some cur =>
    match lastLoop refs st.src st.ch (refs.flatten.length + 1) cur with
    | none => none
    | some last =>
      let g : Group := ⟨inWindow refs cur.start last.stop st.src st.ch,
                        inWindow hyps cur.start last.stop st.src st.ch⟩
      let st1 := { st with cur := getFirst refs last.stop st.src st.ch }
      match st1.cur with
      | some _ => some (g, st1)
      | none =>
        match advance refs st1 with
        | none => none
        | some st2 => some (g, st2)

/-- `while (segmentor->HasNext()) segmentor->Next()`, src/asclite/core/recording.cpp:632-634; also the final state.
`none` = undefined behaviour or more than `fuel` groups. -/
def run (refs hyps : SpeechSet) : Nat → St → Option (List Group × St)
  | 0, _ => none
  | fuel + 1, st =>
    match st.cur with
    | none => some ([], st)
    | some _ =>
      match next refs hyps st with
      | none => none
      | some (g, st') =>
        match run refs hyps fuel st' with
        | none => none
        | some (gs, e) => some (g :: gs, e)

end Verif.Segmentor
