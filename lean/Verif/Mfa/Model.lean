import Verif.Mfa.Spec
/-!
# Model of the cutting at common silences (sclite `mfa.c`, used by `rover`)

Times are exact.  A system's words of the current file and channel are a list, and the words after them in its file another;
the C indices `s`, `conv_end` and `sil_end` become the number of words taken from `s` on.
-/
set_option autoImplicit false
namespace Verif.Mfa

/-- `overlap` (ctm2ctm.c:316-347): the assignments of the first two cases are always replaced by those of the last two. -/
def overlap (a1 a2 b1 b2 : Rat) : Rat :=
  if a1 < b1 then (if a2 < b2 then a2 - b1 else b2 - b1)
  else (if a2 < b2 then a2 - a1 else b2 - a1)

/-- The end of time (mfa.c:191, 286). -/
def endOfTime : Rat := 99999999 / 10

/-- The silence after a word (mfa.c:188-191, 285-286). -/
def gapEnd : List Word → Rat
  | [] => endOfTime
  | v :: _ => v.t1

/-- The loop of `gap_at_times` (mfa.c:284-297); `MAX` and `MIN` as in sctk.h:59-62.  The number of words up to the gap. -/
def gapSearch (mb me : Rat) : Nat → List Word → Option (Nat × Rat × Rat)
  | _, [] => none
  | i, w :: ws =>
    let gb := w.t1 + w.dur
    let ge := gapEnd ws
    if overlap mb me gb ge > 0 then some (i + 1, (if mb > gb then mb else gb), (if me < ge then me else ge))
    else gapSearch mb me (i + 1) ws

/-- `gap_at_times` (mfa.c:274-299): without words the answer is yes and `sil_end` is `s`, one word from `s` on. -/
def gapAt (mb me : Rat) (ws : List Word) : Option (Nat × Rat × Rat) :=
  if ws = [] then some (1, mb, me) else gapSearch mb me 0 ws

/-- The other systems in turn, with the gap narrowed (mfa.c:197-204). -/
def gapAll (mb me : Rat) : List (List Word) → Option (List Nat)
  | [] => some []
  | ws :: rest =>
    match gapAt mb me ws with
    | none => none
    | some (c, mb', me') => (gapAll mb' me' rest).map (fun cs => c :: cs)

/-- The search through the first system (mfa.c:184-212). -/
def findCommon (dur : Rat) (others : List (List Word)) : Nat → List Word → Option (List Nat)
  | _, [] => none
  | i, w :: ws =>
    let gb := w.t1 + w.dur
    let ge := gapEnd ws
    if ge > gb + dur then
      match gapAll gb ge others with
      | some cs => some ((i + 1) :: cs)
      | none => findCommon dur others (i + 1) ws
    else findCommon dur others (i + 1) ws

/-- `find_common_silence` (mfa.c:177-222): how many words of each system form the chunk; `none` when no words are left. -/
def findSilence (dur : Rat) : List (List Word) → Option (List Nat)
  | [] => none
  | m :: others =>
    match findCommon dur others 0 m with
    | some cs => some cs
    | none => if (m :: others).any (fun ws => !ws.isEmpty) then some ((m :: others).map List.length) else none

/-- A system: the words left of the file and channel, and the words following in its file. -/
structure Sys where
  chan : List Word
  after : List Word
deriving DecidableEq

/-- The words of a chunk (mfa.c:111, net_adt.c:673): from `s` to `sil_end`, within the file. -/
def chunkOf (s : Sys) (c : Nat) : List Word := (s.chan ++ s.after).take c

/-- Stepping over the chunk (mfa.c:79-80). -/
def advance (s : Sys) (c : Nat) : Sys := if c ≤ s.chan.length then { s with chan := s.chan.drop c } else s

/-- The loop over the chunks of a file and channel (mfa.c:52-84): the words of each chunk, per system.  The first argument
bounds the number of chunks. -/
def chunks (dur : Rat) : Nat → List Sys → Option (List (List (List Word)) × List Sys)
  | 0, _ => none
  | f + 1, ss =>
    match findSilence dur (ss.map (·.chan)) with
    | none => some ([], ss)
    | some cs => (chunks dur f (List.zipWith advance ss cs)).map (fun x => (List.zipWith chunkOf ss cs :: x.1, x.2))

/-- Number of words left. -/
def remaining (ss : List Sys) : Nat := (ss.map (fun s => s.chan.length)).sum

/-- The chunks of a file and channel. -/
def channelChunks (dur : Rat) (ss : List Sys) : Option (List (List (List Word)) × List Sys) :=
  chunks dur (remaining ss + 1) ss

/-- `locate_boundary` (fillmrks.c:347-367): the words with the file and channel of the first one. -/
def split : List Word → Sys
  | [] => ⟨[], []⟩
  | w :: ws => ⟨w :: ws.takeWhile (fun v => decide (v.conv = w.conv ∧ v.chan = w.chan)),
      ws.dropWhile (fun v => decide (v.conv = w.conv ∧ v.chan = w.chan))⟩

/-- Outcomes: undefined behaviour, the reported mismatch of files, the chunks and the words never reached. -/
inductive Out where
  | undefined
  | mismatch
  | ok (chunks : List (List (List Word))) (left : List (List Word))
deriving DecidableEq

/-- The comparison of file names (mfa.c:149-156), which leaves out the channel. -/
def sameConv (m : Word) (ws : List Word) : Bool :=
  match ws with
  | [] => true
  | w :: _ => decide (m.conv = w.conv)

/-- `mfalign_ctm_files` (mfa.c:12-103; rover.c:94-207 likewise) up to the alignment, for files that fit into the word arrays, so
that their ends have been reached: reading the first system's file name requires a word (mfa.c:48-49), and the loop ends when
no system has more than one word left (mfa.c:81). -/
def alignFiles (dur : Rat) : Nat → List (List Word) → Out
  | 0, _ => .undefined
  | f + 1, files =>
    match files with
    | (m :: ms) :: others =>
      if others.all (sameConv m) then
        match channelChunks dur (((m :: ms) :: others).map split) with
        | none => .undefined
        | some (cs, ss) =>
          let left := ss.map (fun s => s.chan ++ s.after)
          if left.all (fun l => decide (l.length ≤ 1)) then .ok cs left
          else
            match alignFiles dur f left with
            | .ok cs' l => .ok (cs ++ cs') l
            | o => o
      else .mismatch
    | _ => .undefined

end Verif.Mfa
