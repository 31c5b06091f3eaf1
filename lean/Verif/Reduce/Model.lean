import Verif.Reduce.Spec
import Verif.WtokeNet.Model
/-!
# Model of the reductions of the reference and of the hypothesis (sclite `stm2ctm.c`)

Times are exact: the code keeps begin and end of the reference in `float`.  The lines are those of one channel, the segments those
of the same channel.  `reset_WTOKE_flag (…, "ignore")` does nothing, that flag not being among the ones it knows
(fillmrks.c:285-297); the flags are unset since reading (fillmrks.c:215).
-/
set_option autoImplicit false
namespace Verif.Reduce
open Verif.WtokeNet

/-- Whether a segment is kept under `reduce_ref` (stm2ctm.c:36-51): the first line against its end, the last line against its
begin. -/
def keepSeg (lines : List Tok) (s : Seg) : Bool :=
  match lines, lines.getLast? with
  | f :: _, some l => !(decide (f.t1 ≥ s.t2) || decide (l.t1 + l.dur ≤ s.t1))
  | _, _ => true

/-- The segments taking part (`flag1`; stm2ctm.c:33-51). -/
def keptSegs (reduceRef : Bool) (lines : List Tok) (segs : List Seg) : List Seg :=
  if reduceRef then segs.filter (keepSeg lines) else segs

/-- The begin of the reference (stm2ctm.c:58, 62-64). -/
def beginTime (segs : List Seg) : Rat := segs.foldl (fun bt s => if bt > s.t1 then s.t1 else bt) 9999999

/-- The end of the reference (stm2ctm.c:58, 62-66). -/
def endTime (segs : List Seg) : Rat := segs.foldl (fun et s => if et < s.t2 then s.t2 else et) (-999999)

/-- Marking the words out of bounds that are not marks of alternations (stm2ctm.c:70-81). -/
def markWord (bt et : Rat) (t : Tok) : Tok :=
  if isAlt t then t else if t.t1 > et ∨ t.t1 + t.dur < bt then { t with ignore := true } else t

/-- The number of words not marked up to `<ALT_END>` (stm2ctm.c:88-95). -/
def usable : List Tok → Nat
  | [] => 0
  | t :: ts => if is endMark t then 0 else (if !isAlt t && !t.ignore then 1 else 0) + usable ts

/-- Setting the flag of all lines up to `<ALT_END>` (stm2ctm.c:98-102). -/
def setFlags (v : Bool) : List Tok → List Tok
  | [] => []
  | t :: ts => if is endMark t then t :: ts else { t with ignore := v } :: setFlags v ts

/-- The loop over the alternations (stm2ctm.c:84-104).  The first argument is the number of lines. -/
def fixAlts : Nat → List Tok → List Tok
  | f + 1, t :: ts =>
    if is beginMark t then
      let v := decide (usable (t :: ts) = 0)
      { t with ignore := v } :: fixAlts f (setFlags v ts)
    else t :: fixAlts f ts
  | _, ts => ts

/-- The lines after `reduce_hyp` (stm2ctm.c:53-104). -/
def reduceHyp (segs : List Seg) (lines : List Tok) : List Tok :=
  fixAlts lines.length (lines.map (markWord (beginTime segs) (endTime segs)))

/-- The number of words left out (`skip_words`; stm2ctm.c:105-109). -/
def skipWords (lines : List Tok) : Nat := lines.countP (fun t => t.ignore && !isAlt t)

end Verif.Reduce
