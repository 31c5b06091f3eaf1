import Verif.Chan.Spec
/-!
# Model of sclite's assignment of hypothesis words to reference utterances

The C arrays of words and utterances are lists here; reading the files in pieces (fillmrks.c:12-33, stm.c:254-282) is not
modelled, the whole files are at hand.  Times are exact.  The reduction of the hypothesis (`-m hyp`, words marked `ignore`) is
in `Verif.Reduce`.
-/
set_option autoImplicit false
namespace Verif.Chan

/-- A word with the flag saying that it is within an alternation. -/
structure Tok (K : Type) where
  w : Word K
  alternate : Bool
deriving DecidableEq

/-- The flag `alternate` (fillmrks.c:216-225): the preceding word is within an alternation and does not end it, or the text
begins with `<ALT`. -/
def mark {K : Type} : Option (Tok K) → List (Word K) → List (Tok K)
  | _, [] => []
  | prev, w :: ws =>
    let inAlt := (match prev with
      | some p => p.alternate && decide (p.w.sp ≠ Sp.altEnd)
      | none => false)
    let starts := (match w.sp with
      | Sp.word _ => false
      | _ => true)
    let t : Tok K := ⟨w, inAlt || starts⟩
    t :: mark (some t) ws

/-- The biggest midpoint in an alternation (stm2ctm.c:307-318). -/
def bigMid {K : Type} (m : Rat) : List (Tok K) → Rat
  | [] => m
  | t :: ts =>
    match t.w.sp with
    | Sp.altEnd => m
    | Sp.alt => bigMid m ts
    | Sp.word _ => if mid t.w > m then bigMid (mid t.w) ts else bigMid m ts

/-- Stepping over an alternation (stm2ctm.c:325-329): the words up to and with `<ALT_END>`, and the rest; `none` if there is no
`<ALT_END>` among the channel's words, when the code runs beyond them. -/
def overAlt {K : Type} : List (Tok K) → Option (List (Tok K) × List (Tok K))
  | [] => none
  | t :: ts => if t.w.sp = Sp.altEnd then some ([t], ts) else (overAlt ts).map (fun r => (t :: r.1, r.2))

/-- The loop of `segment_hyp_for_utt` for an utterance that is not the last (stm2ctm.c:301-331): the words taken and the
rest.  The first argument bounds the number of steps. -/
def takeUtt {K : Type} (t2 : Rat) : Nat → List (Tok K) → Option (List (Tok K) × List (Tok K))
  | 0, ts => some ([], ts)
  | _, [] => some ([], [])
  | f + 1, t :: ts =>
    let m := if t.alternate then bigMid 0 (t :: ts) else mid t.w
    if m ≥ t2 then some ([], t :: ts)
    else if t.alternate then
      match overAlt (t :: ts) with
      | none => none
      | some (a, r) => (takeUtt t2 f r).map (fun x => (a ++ x.1, x.2))
    else (takeUtt t2 f ts).map (fun x => (t :: x.1, x.2))

/-- `segment_hyp_for_utt` (stm2ctm.c:259-335); the last utterance takes everything. -/
def segmentUtt {K : Type} (last : Bool) (t2 : Rat) (ts : List (Tok K)) : Option (List (Tok K) × List (Tok K)) :=
  if last then some (ts, []) else takeUtt t2 ts.length ts

/-- The segments kept under `reduce_ref` (stm2ctm.c:33-51). -/
def kept {K : Type} (reduce : Bool) (ts : List (Tok K)) (u : Utt K) : Bool :=
  match reduce, ts, ts.getLast? with
  | true, f :: _, some l => !(decide (f.w.t1 ≥ u.t2) || decide (l.w.t1 + l.w.dur ≤ u.t1))
  | _, _, _ => true

/-- The loop over the utterances in `align_one_channel` (stm2ctm.c:117-254): which words each utterance that is not skipped
gets.  What follows for utterances excluded from scoring (stm2ctm.c:166-173, 183-186) does not change the words. -/
def uttLoop {K : Type} (keep : Utt K → Bool) : List (Utt K) → List (Tok K) → Option (List (Utt K × List (Tok K)))
  | [], _ => some []
  | u :: us, ts =>
    if keep u then
      match segmentUtt us.isEmpty u.t2 ts with
      | none => none
      | some (a, r) => (uttLoop keep us r).map (fun x => (u, a) :: x)
    else uttLoop keep us ts

/-- `align_one_channel` (stm2ctm.c:6-257) up to the alignments themselves. -/
def alignChannel {K : Type} (reduce : Bool) (us : List (Utt K)) (ts : List (Tok K)) : Option (List (Utt K × List (Tok K))) :=
  uttLoop (kept reduce ts) us ts

/-- Outcomes of aligning two files: undefined behaviour, the reported error, or the words of each utterance. -/
inductive Out (A : Type) where
  | undefined
  | error
  | ok (a : A)
deriving DecidableEq

/-- The outcome changed. -/
def Out.map {A B : Type} (f : A → B) : Out A → Out B
  | .undefined => .undefined
  | .error => .error
  | .ok a => .ok (f a)

section
variable {K : Type} [DecidableEq K]

/-- `locate_WTOKE_boundary` and `locate_STM_boundary` (fillmrks.c:263-283, stm.c:147-168): the leading elements with the key of
the first, and the rest. -/
def run {X : Type} (key : X → K) : List X → List X × List X
  | [] => ([], [])
  | x :: xs => (x :: xs.takeWhile (fun y => decide (key y = key x)), xs.dropWhile (fun y => decide (key y = key x)))

/-- The loop of `align_ctm_to_stm_dp` (stm2ctm.c:395-447): the first argument bounds the number of steps. -/
def fileLoop (reduce : Bool) : Nat → List (Utt K) → List (Tok K) → Out (List (Utt K × List (Tok K)))
  | 0, _, _ => .undefined
  | f + 1, us, ts =>
    match us, ts with
    | [], [] => .ok []
    | [], _ :: _ => .error
    | u :: us', [] =>
      match alignChannel reduce (run Utt.key (u :: us')).1 ([] : List (Tok K)) with
      | none => .undefined
      | some a => (fileLoop reduce f (run Utt.key (u :: us')).2 []).map (fun x => a ++ x)
    | u :: us', t :: ts' =>
      if t.w.key = u.key then
        match alignChannel reduce (run Utt.key (u :: us')).1 (run (fun (x : Tok K) => x.w.key) (t :: ts')).1 with
        | none => .undefined
        | some a =>
          (fileLoop reduce f (run Utt.key (u :: us')).2 (run (fun (x : Tok K) => x.w.key) (t :: ts')).2).map (fun x => a ++ x)
      else
        match alignChannel reduce (run Utt.key (u :: us')).1 ([] : List (Tok K)) with
        | none => .undefined
        | some a => (fileLoop reduce f (run Utt.key (u :: us')).2 (t :: ts')).map (fun x => a ++ x)

/-- `align_ctm_to_stm_dp` (stm2ctm.c:344-463) up to the alignments; a reference file without utterances is left out. -/
def alignFiles (reduce : Bool) (us : List (Utt K)) (ws : List (Word K)) : Out (List (Utt K × List (Tok K))) :=
  fileLoop reduce (us.length + 1) us (mark none ws)

end

end Verif.Chan
