import Verif.Chan.Model
import Verif.Mfa.Model
/-!
# Model of the cutting of channels in the alignment of two time-marked files (sclite `ctm2ctm.c`)

Times are exact and indices are unbounded.  The tables of words are lists whose first word has the index 1, as in the C
arrays; reading outside of a table (or the entry 0, which is never written) is undefined.  A loop that is given too few steps
by the model ends in `hang`; the theorems show that this never happens.  The whole of a file is in its table, which is so for
files of less than 5000 lines.
-/
set_option autoImplicit false
namespace Verif.Chop
open Verif.Chan (Tok)
open Verif.Mfa (overlap)

/-- Outcomes: undefined behaviour, a loop without end, an error message and exit, or a result. -/
inductive Out (A : Type) where
  | undef
  | hang
  | fail
  | ok (a : A)
deriving DecidableEq

/-- Continue with the result. -/
def Out.bind {A B : Type} : Out A → (A → Out B) → Out B
  | .undef, _ => .undef
  | .hang, _ => .hang
  | .fail, _ => .fail
  | .ok a, f => f a

/-- `word[i]` (wtokstr1.h:32, filled from the index 1 on by fillmrks.c:121-226). -/
def get {K : Type} (l : List (Tok K)) (i : Int) : Out (Tok K) :=
  if 1 ≤ i then (match l[(i - 1).toNat]? with | some w => .ok w | none => .undef) else .undef

/-- The overlap of two words (ctm2ctm.c:396-399 and elsewhere). -/
def wordOverlap {K : Type} (r h : Tok K) : Rat :=
  overlap r.w.t1 (r.w.t1 + r.w.dur) h.w.t1 (h.w.t1 + h.w.dur)

section
variable {K : Type} (ref hyp : List (Tok K)) (Rs Hs : Int)

/-- Moving back over words within alternations, down to before `Rs` (ctm2ctm.c:387-388, 400-403, 463-466, 490-494); the flag
says whether there were any.  The first argument bounds the number of steps; the callers pass the number of words from `Rs` to
`i`. -/
def skipAlt : Nat → Int → Bool → Out (Int × Bool)
  | 0, i, b => .ok (i, b)
  | f + 1, i, b =>
    if Rs ≤ i then
      (get ref i).bind fun w => if w.alternate then skipAlt f (i - 1) true else .ok (i, b)
    else .ok (i, b)

/-- One step back in the reference, and over the alternation that is there (ctm2ctm.c:400-403, 462-466, 490-494). -/
def stepRef (R : Int) : Out (Int × Bool) := skipAlt ref Rs (R - Rs).toNat (R - 1) false

/-- Moving back in the reference to a word that begins no later than the hypothesis word or overlaps it, or until an
alternation has been stepped over (ctm2ctm.c:392-403, 483-496). -/
def adjRef (H : Int) : Nat → Int → Out (Int × Bool)
  | 0, R => .ok (R, false)
  | f + 1, R =>
    if Rs ≤ R then
      (get ref R).bind fun r => (get hyp H).bind fun h =>
        if r.w.t1 > h.w.t1 ∧ wordOverlap r h < 0 then
          (stepRef ref Rs R).bind fun p => if p.2 then .ok p else adjRef H f p.1
        else .ok (R, false)
    else .ok (R, false)

/-- Moving back in the hypothesis to a word that begins no later than the reference word or overlaps it
(ctm2ctm.c:405-411, 469-478). -/
def adjHyp (R : Int) : Nat → Int → Out Int
  | 0, H => .ok H
  | f + 1, H =>
    if Hs ≤ H then
      (get ref R).bind fun r => (get hyp H).bind fun h =>
        if r.w.t1 < h.w.t1 ∧ wordOverlap r h < 0 then adjHyp R f (H - 1) else .ok H
    else .ok H

/-- Synchronising the ends (ctm2ctm.c:389-412). -/
def sync : Nat → Int → Int → Out (Int × Int)
  | 0, _, _ => .hang
  | f + 1, R, H =>
    (get ref R).bind fun r => (get hyp H).bind fun h =>
      if r.w.t1 > h.w.t1 then
        (adjRef ref hyp Rs H (R + 1 - Rs).toNat R).bind fun p => if p.2 then sync f p.1 H else .ok (p.1, H)
      else if r.w.t1 < h.w.t1 then
        (adjHyp ref hyp Hs R (H + 1 - Hs).toNat H).bind fun H' => .ok (R, H')
      else .ok (R, H)

/-- Shifting down (ctm2ctm.c:456-499). -/
def shift : Nat → Int → Int → Out (Int × Int)
  | 0, _, _ => .hang
  | f + 1, R, H =>
    (get ref R).bind fun r => (get hyp H).bind fun h =>
      if r.w.t1 > h.w.t1 then
        (if R > Rs then stepRef ref Rs R else .ok (R, false)).bind fun p =>
          if p.2 then shift f p.1 H
          else (adjHyp ref hyp Hs p.1 (H + 1 - Hs).toNat H).bind fun H' => .ok (p.1, H')
      else
        (adjRef ref hyp Rs (if H > Hs then H - 1 else H) (R + 1 - Rs).toNat R).bind fun p =>
          if p.2 then shift f p.1 (if H > Hs then H - 1 else H)
          else .ok (p.1, if H > Hs then H - 1 else H)

/-- The time up to which the gap after a word lasts (ctm2ctm.c:427, 434): 999999.99 after the last word of the channel. -/
def gapEnd (l : List (Tok K)) (e i : Int) : Out Rat :=
  if i = e then .ok (99999999 / 100) else (get l (i + 1)).bind fun w => .ok w.w.t1

/-- The backward search and what follows it (ctm2ctm.c:422-517); `none` for the answer 0.  The branches for `Rend < Rstart` and
`Hend < Hstart` within the loop (ctm2ctm.c:428-431, 435-438) cannot be reached. -/
def back (Re He : Int) : Nat → Int → Int → Out (Option (Int × Int))
  | 0, _, _ => .hang
  | f + 1, R, H =>
    if R > Rs ∧ H > Hs then
      (get ref R).bind fun r => (gapEnd ref Re R).bind fun rg =>
      (get hyp H).bind fun h => (gapEnd hyp He H).bind fun hg =>
        if overlap (r.w.t1 + r.w.dur) rg (h.w.t1 + h.w.dur) hg < 0 then
          (shift ref hyp Rs Hs (R + 2 - Rs).toNat R H).bind fun p => back Re He f p.1 p.2
        else .ok (some (R, H))
    else if R > Rs ∨ H > Hs then .ok (some (R, H))
    else .ok none

/-- `chop_WTOKE_2` (ctm2ctm.c:350-519). -/
def chop (Re He max : Int) : Out (Option (Int × Int)) :=
  if Rs > Re ∧ Hs > He then .ok none
  else if Re - Rs < max ∧ He - Hs < max then .ok (some (Re, He))
  else
    (skipAlt ref Rs ((if Rs + max < Re then Rs + max else Re) + 1 - Rs).toNat (if Rs + max < Re then Rs + max else Re) false).bind
      fun p =>
        (sync ref hyp Rs Hs (p.1 + 2 - Rs).toNat p.1 (if Hs + max < He then Hs + max else He)).bind fun q =>
          back ref hyp Rs Hs Re He ((q.1 - Rs).toNat + (q.2 - Hs).toNat + 1) q.1 q.2

/-- Doubling the length until a cut is found (ctm2ctm.c:197-204). -/
def cut (Re He : Int) : Nat → Int → Out (Int × Int)
  | 0, _ => .hang
  | f + 1, len =>
    (chop ref hyp Rs Hs Re He len).bind fun o =>
      match o with
      | some p => .ok p
      | none => cut Re He f (len * 2)

end

/-- What is aligned as one: the words with the indices from `rb` to `re` and from `hb` to `he`. -/
structure Chunk where
  rb : Int
  re : Int
  hb : Int
  he : Int
deriving DecidableEq

section
variable {K : Type} (ref hyp : List (Tok K))

/-- The loop over the chunks of a channel (ctm2ctm.c:193-275), up to the alignments. -/
def chunks (Re He : Int) : Nat → Int → Int → Out (List Chunk)
  | 0, _, _ => .hang
  | f + 1, Rs, Hs =>
    if Rs ≤ Re ∨ Hs ≤ He then
      (cut ref hyp Rs Hs Re He ((Re - Rs).toNat + (He - Hs).toNat + 2) 50).bind fun p =>
        (chunks Re He f (p.1 + 1) (p.2 + 1)).bind fun cs =>
          .ok ({ rb := Rs, re := p.1, hb := Hs, he := p.2 } :: cs)
    else .ok []

/-- The chunks of the words from `Rs` to `Re` and from `Hs` to `He` (ctm2ctm.c:165-275). -/
def channel (Rs Re Hs He : Int) : Out (List Chunk) :=
  chunks ref hyp Re He ((Re + 1 - Rs).toNat + (He + 1 - Hs).toNat + 1) Rs Hs

/-- The file and channel under which chunks are scored: those of the word `ref_begin` (ctm2ctm.c:209-216, 267-268).  In the
code this is done in turn with the cutting; it has no influence on it. -/
def labels : List Chunk → Out (List (K × Chunk))
  | [] => .ok []
  | c :: cs => (get ref c.rb).bind fun w => (labels cs).bind fun ls => .ok ((w.w.key, c) :: ls)

/-- A channel's chunks with their labels (ctm2ctm.c:165-275). -/
def scored (Rs Re Hs He : Int) : Out (List (K × Chunk)) := (channel ref hyp Rs Re Hs He).bind (labels ref)

end

/-- `locate_boundary` (fillmrks.c:347-368): the last of the words from `s` on that agree with the word `s`, or the last word of
the table if there is no word `s`. -/
def locate {K X : Type} [DecidableEq X] (key : K → X) (l : List (Tok K)) (s : Int) : Int :=
  match l.drop (s - 1).toNat with
  | [] => l.length
  | w :: ws => s + (ws.takeWhile (fun v => decide (key v.w.key = key w.w.key))).length

section
variable {F C : Type} [DecidableEq F] [DecidableEq C] (ref hyp : List (Tok (F × C)))

/-- The last word of the second channel, if the word after the first channel is not the last of the table and is of the same file
(ctm2ctm.c:98-108). -/
def second (l : List (Tok (F × C))) (s e : Int) : Out (Option Int) :=
  if e + 1 < l.length then
    (get l s).bind fun a => (get l (e + 1)).bind fun b =>
      if a.w.key.1 = b.w.key.1 then .ok (some (locate (fun (k : F × C) => k) l (e + 1))) else .ok none
  else .ok none

/-- The chunks of one or two channels, from the words `rs` and `hs` on; a second channel in one of the files only is an error
(ctm2ctm.c:110-133, 161-275). -/
def channels (rs r1 hs h1 : Int) : Option Int → Option Int → Out (List ((F × C) × Chunk))
  | some _, none => .fail
  | none, some _ => .fail
  | none, none => scored ref hyp rs r1 hs h1
  | some r2, some h2 =>
    (scored ref hyp rs r1 hs h1).bind fun a => (scored ref hyp (r1 + 1) r2 (h1 + 1) h2).bind fun b => .ok (a ++ b)

/-- The loop over the files in `align_ctm_to_ctm` (ctm2ctm.c:61-284): keys are pairs of file and channel. -/
def files : Nat → Int → Int → Out (List ((F × C) × Chunk))
  | 0, _, _ => .hang
  | f + 1, rs, hs =>
    if (hyp.length < hs ∧ ref.length > rs) ∨ (hyp.length > hs ∧ ref.length < rs) then .fail
    else
      (get ref rs).bind fun r => (get hyp hs).bind fun h =>
        if r.w.key.1 ≠ h.w.key.1 then .fail
        else
          (second ref rs (locate (fun (k : F × C) => k) ref rs)).bind fun r2 =>
          (second hyp hs (locate (fun (k : F × C) => k) hyp hs)).bind fun h2 =>
          (channels ref hyp rs (locate (fun (k : F × C) => k) ref rs) hs (locate (fun (k : F × C) => k) hyp hs) r2 h2).bind fun a =>
          if locate Prod.fst hyp hs + 1 ≤ hyp.length ∨ locate Prod.fst ref rs + 1 ≤ ref.length then
            (files f (locate Prod.fst ref rs + 1) (locate Prod.fst hyp hs + 1)).bind fun b => .ok (a ++ b)
          else .ok a

/-- `align_ctm_to_ctm` (ctm2ctm.c:6-293) up to the alignments. -/
def alignFiles : Out (List ((F × C) × Chunk)) := files ref hyp (ref.length + 1) 1 1

end

end Verif.Chop
