import Verif.Diff.Spec
/-!
# Model of sclite's use of `diff` as aligner

`diff -y` itself is not modelled: its output is taken to be an edit script of the two files of words, one entry per line (words wider than its
columns, which it would cut off, are left out).  Of a line only its tokens matter.
-/
set_option autoImplicit false
namespace Verif.Diff

/-- The tokens of the line that `diff -y` writes for an entry (align.c:990, 1214, 1375 call it). -/
def shown : Ed → List W
  | .same w => [w, w]
  | .del w => [w, [60]]
  | .ins w => [[62], w]
  | .sub r h => [r, [124], h]

/-- `process_diff_line` (align.c:873-925) on the tokens of a line: the element of the alignment and the first token.  The tokens go to
buffers of 100 bytes, `none` is an overflow. -/
def process (toks : List W) : Option (El × W) :=
  if (toks.take 3).all (fun t => decide (t.length < 100)) then
    match toks with
    | [s1, s2] =>
      if s1 = s2 then some (⟨.corr, some s1, some s2⟩, s1)
      else if s1 = [62] then some (⟨.ins, none, some s2⟩, s1)
      else some (⟨.del, some s1, none⟩, s1)
    | s1 :: _ :: s3 :: _ => some (⟨.sub, some s1, some s3⟩, s1)
    | [s1] => some (⟨.del, some s1, none⟩, s1)
    | [] => some (⟨.del, some [], none⟩, [])
  else none

/-- The inner loop (align.c:1029-1037, 1227-1236, 1405-1413): lines are taken up to one that begins with the reference word; to the end of the
output if `last`. -/
def scan (last : Bool) (c : W) : List (List W) → Option (List El × List (List W))
  | [] => some ([], [])
  | l :: ls =>
    match process l with
    | none => none
    | some (e, first) =>
      if first ≠ c ∨ last = true then (scan last c ls).map (fun r => (e :: r.1, r.2)) else some ([e], ls)

/-- The loop over the reference words of an utterance (align.c:1027-1039, 1223-1238, 1402-1415). -/
def utt (last : Bool) : List W → List (List W) → Option (List El × List (List W))
  | [], ls => some ([], ls)
  | c :: cs, ls =>
    match scan last c ls with
    | none => none
    | some (p, rest) => (utt last cs rest).map (fun r => (p ++ r.1, r.2))

/-- The loop of `align_text_to_stm` over the references (align.c:1389-1437): the last one is known by the number counted before. -/
def alignText : List (List W) → List (List W) → Option (List (List El))
  | [], _ => some []
  | r :: rs, ls =>
    match utt rs.isEmpty r ls with
    | none => none
    | some (p, rest) => (alignText rs rest).map (fun ps => p :: ps)

/-- The loop of `align_trans_mode_diff` over the hypotheses (align.c:1000-1056), each given by the place of its reference transcript.  Taking
words off a transcript ends it after its first word (align.c:1027; transcripts with alternations are left out). -/
def alignTrans (refs : List (List W)) : List Nat → List (List W) → Option (List (List El))
  | [], _ => some []
  | i :: is, ls =>
    match utt is.isEmpty (refs.getD i []) ls with
    | none => none
    | some (p, rest) => (alignTrans (refs.set i ((refs.getD i []).take 1)) is rest).map (fun ps => p :: ps)

/-- Whether a segment counts as the last one of its channel (align.c:1235-1236): `r== r_end + (r_end==stm->num)?-1:0` is read by C as
`(r == r_end + (r_end == stm->num)) ? -1 : 0`. -/
def isLast (rEnd num r : Nat) : Bool := decide (r = rEnd + (if rEnd = num then 1 else 0))

/-- The loop over the segments of a channel in `align_ctm_to_stm_diff` (align.c:1219-1257), from segment `r` on. -/
def chanLoop (rEnd num : Nat) : Nat → List (List W) → List (List W) → Option (List (List El))
  | _, [], _ => some []
  | r, s :: ss, ls =>
    match utt (isLast rEnd num r) s ls with
    | none => none
    | some (p, rest) => (chanLoop rEnd num (r + 1) ss rest).map (fun ps => p :: ps)

/-- The segments of a channel from `rSt` to `rEnd` of a table of `num` segments, where `rEnd = num` also means that the last segment is that
before it (align.c:1219; `locate_STM_boundary`, stm.c:147-168). -/
def alignChannel (segs : List (List W)) (rSt rEnd : Nat) (ls : List (List W)) : Option (List (List El)) :=
  chanLoop rEnd segs.length rSt ((segs.take (rEnd + (if rEnd = segs.length then 0 else 1))).drop rSt) ls

/-- The copy of a transcript into the buffer (align.c:844-849; stm.c:181-186): size remembered, size allocated, length of the text.  `none` is an
overflow. -/
def copyText (b : Nat × Nat) (n : Nat) : Option (Nat × Nat) :=
  if n > b.1 + 1 then some (n, n + 1) else if n < b.2 then some b else none

/-- The copies of all transcripts (align.c:795-798, 844-849; stm.c:176-186). -/
def copyAll : Nat × Nat → List Nat → Option (Nat × Nat)
  | b, [] => some b
  | b, n :: ns => (copyText b n).bind fun b' => copyAll b' ns

end Verif.Diff
