import Verif.Refs.Spec
import Verif.Lines.Model
import Verif.Text.Model
/-!
# Model of the loading of transcripts (sclite `align.c`)

Texts are lists of bytes without the terminating NUL.
-/
set_option autoImplicit false
namespace Verif.Refs
open Verif.Text

/-- Outcome of a function that may stop the program or behave in an undefined way. -/
inductive Res (A : Type) where
  | ok (a : A)
  | exit
  | undefined
deriving DecidableEq

/-- Sequencing: `exit` and undefined behaviour end the program (control flow of align.c:92-209). -/
def Res.bind {A B : Type} : Res A → (A → Res B) → Res B
  | .ok a, f => f a
  | .exit, _ => .exit
  | .undefined, _ => .undefined

/-- Doing something for each line in order (the `while (!feof(fp))` loops, align.c:112-135, 148-188, 550-610). -/
def Res.each {A B : Type} (f : A → Res B) : List A → Res (List B)
  | [] => .ok []
  | a :: as => (f a).bind fun b => (Res.each f as).bind fun bs => .ok (b :: bs)

/-- The tests by which lines are skipped (align.c:115-117): `TEXT_is_comment` (text.c:1404-1417, through `parse_input_comment_line`),
`TEXT_is_comment_info` (text.c:1424-1437) and `TEXT_is_empty` (text.c:1383-1397; no byte of a multi-byte character is a space).
`parse_input_comment_line` can also stop the program for broken LABEL or CATEGORY comments; that is not modelled. -/
def skipLine (l : List Nat) : Bool :=
  (l.take 2 == [59, 59]) || (l.take 2 == [42, 42]) || l.all Lines.isSpace

/-- The lines that get past the reading loops (align.c:112-120, 148-161, 551-561): after a line that does not end with a newline
`feof` holds, and the line is dropped. -/
def deliver : List (List Nat) → List (List Nat)
  | [] => []
  | l :: ls =>
    if l.getLast? = some 10 then (if skipLine l then deliver ls else l :: deliver ls) else []

/-- `TEXT_strrchr` (text.c:970-972). -/
def lastIdx (c : Nat) : List Nat → Option Nat
  | [] => none
  | b :: l =>
    match lastIdx c l with
    | some i => some (i + 1)
    | none => if b = c then some 0 else none

/-- `remove_id` (align.c:22-47): the identifier with its parentheses and the text before it.  A `)` more than one byte before the last `(`
makes the code write before the identifier's buffer. -/
def removeId (utt : List Nat) : Res (List Nat × List Nat) :=
  match lastIdx 41 utt, lastIdx 40 utt with
  | none, none => .ok ([], utt)
  | some r, some l =>
    if l ≤ r then .ok ((utt.drop l).take (r - l + 1), utt.take l)
    else if r + 1 = l then .ok ([], utt.take l)
    else .undefined
  | _, _ => .exit

/-- State of reading the references: the texts by position, how many are set, and whether there was an error (align.c:98, 141, 170-187). -/
structure St where
  refset : List (Option (List Nat))
  num : Nat
  failure : Bool
deriving DecidableEq

/-- One reference (align.c:168-187), with its identifier and text.  A further text for the same identifier is only compared up to its own
length (`strncmp`, align.c:173).  The binary search is that of `in_TEXT_LIST`. -/
def addRef (e : Enc) (ids : List (List Nat)) (st : St) (r : List Nat × List Nat) : Res St :=
  match inTextList e ids r.1 with
  | none => .undefined
  | some none => .ok st
  | some (some i) =>
    match st.refset[i]? with
    | none => .undefined
    | some (some t) => .ok { st with failure := st.failure || decide (t.take r.2.length ≠ r.2) }
    | some none => .ok { st with refset := st.refset.set i (some r.2), num := st.num + 1 }

/-- All references (align.c:148-188). -/
def addRefs (e : Enc) (ids : List (List Nat)) : St → List (List Nat × List Nat) → Res St
  | st, [] => .ok st
  | st, r :: rs => (addRef e ids st r).bind fun st' => addRefs e ids st' rs

/-- The end of `load_refs` (align.c:137-141, 191-208): the identifiers in order and their texts; `sort` stands for `qsort`. -/
def loadRecs (e : Enc) (sort : List (List Nat) → List (List Nat)) (hids : List (List Nat)) (refs : List (List Nat × List Nat)) :
    Res (List (List Nat) × List (Option (List Nat))) :=
  let ids := sort hids
  (addRefs e ids ⟨List.replicate ids.length none, 0, false⟩ refs).bind fun st =>
    if st.num ≠ ids.length ∨ st.failure = true then .exit else .ok (ids, st.refset)

/-- The identifiers reported as missing (align.c:194-196): the loop runs to the number of references found. -/
def missing (ids : List (List Nat)) (st : St) : List (List Nat) :=
  (List.range st.num).filterMap fun i => if st.refset[i]? = some none then ids[i]? else none

/-- `load_refs` (align.c:92-209) on the lines of the two files; `fold` is the conversion to lower case, or nothing. -/
def loadRefs (e : Enc) (sort : List (List Nat) → List (List Nat)) (fold : List Nat → List Nat) (hyp ref : List (List Nat)) :
    Res (List (List Nat) × List (Option (List Nat))) :=
  (Res.each (fun l => removeId (fold l)) (deliver hyp)).bind fun hs =>
    (Res.each (fun l => removeId (fold l)) (deliver ref)).bind fun rs =>
      loadRecs e sort (hs.map (·.1)) rs

/-- Outcome of reading the speaker: a name, an error that leaves the name's buffer as it was, or bytes after the end of the identifier. -/
inductive Name where
  | ok (n : List Nat)
  | failed
  | stale
deriving DecidableEq

/-- `extract_speaker` (align.c:49-85).  The sizes of the buffers are not modelled. -/
def extractSpeaker (t : IdType) (id : List Nat) : Name :=
  match t with
  | .sp => .ok id
  | .atis | .wsj => if id = [] then .stale else .ok (id.tail.take 3)
  | .rm | .spuid | .swb =>
    match id.findIdx? (fun b => decide (b = 45)) with
    | some i => .ok (id.tail.take (i - 1))
    | none =>
      match id.findIdx? (fun b => decide (b = 95)) with
      | some i => .ok (id.tail.take (i - 1))
      | none => .failed

/-- An utterance on its way to the aligner: speaker, identifier, reference and hypothesis text. -/
structure Job where
  speaker : List Nat
  id : List Nat
  ref : List Nat
  hyp : List Nat
deriving DecidableEq

/-- The loop of `align_trans_mode_dp` (align.c:550-600), up to the aligner: the return value of `extract_speaker` is ignored, so the
speaker's name `prev` stays in its buffer. -/
def jobs (e : Enc) (t : IdType) (fold : List Nat → List Nat) (ids : List (List Nat)) (refs : List (Option (List Nat))) :
    List Nat → List (List Nat) → Res (List Job)
  | _, [] => .ok []
  | prev, l :: ls =>
    (removeId l).bind fun (id, text) =>
      let hid := fold id
      match extractSpeaker t hid with
      | .stale => .undefined
      | nm =>
        let spk := match nm with | .ok n => n | _ => prev
        match inTextList e ids hid with
        | none => .undefined
        | some none => .exit
        | some (some i) =>
          match refs[i]? with
          | some (some r) => (jobs e t fold ids refs spk ls).bind fun js => .ok (⟨spk, hid, r, text⟩ :: js)
          | _ => .undefined

/-- `align_trans_mode_dp` (align.c:512-622) on the lines of the two files. -/
def alignTrans (e : Enc) (sort : List (List Nat) → List (List Nat)) (t : IdType) (fold : List Nat → List Nat) (hyp ref : List (List Nat)) :
    Res (List Job) :=
  (loadRefs e sort fold hyp ref).bind fun (ids, refs) => jobs e t fold ids refs [] (deliver hyp)

end Verif.Refs
