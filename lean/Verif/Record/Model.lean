import Verif.Record.Spec
import Verif.Segmentor.Model
/-!
# Model of parts of `recording.cpp` and of `trntrn_segmentor.cpp`
-/
set_option autoImplicit false
namespace Verif.Record

/-! ## The segmentor for trn files -/

/-- The members of `TRNTRNSegmentor` (trntrn_segmentor.h:56-64): `uteranceList` and `currentUterance`. -/
structure TSt where
  list : List String
  cur : String
deriving DecidableEq

/-- The loop of `TRNTRNSegmentor::Reset` over the references (trntrn_segmentor.cpp:34-41). -/
def ids (refs : SpeechSet) : List String := (utts refs).foldl (fun l x => Segmentor.setInsert x.id l) []

/-- `TRNTRNSegmentor::Reset` (trntrn_segmentor.cpp:26-48).  `old` is the state of an earlier use with the same references, which is not
filled again; `none` = the first element of an empty set is read. -/
def reset (refs : SpeechSet) (old : Option TSt) : Option TSt :=
  match (match old with | none => ids refs | some st => st.list) with
  | [] => none
  | x :: xs => some ⟨xs, x⟩

/-- The search in `TRNTRNSegmentor::Next` (trntrn_segmentor.cpp:55-75, 77-97) from some speech on; the loop has no bound, so that
`none` = a speech after the last one is read. -/
def findLoop (id : String) : SpeechSet → Option Seg
  | [] => none
  | sp :: rest =>
    match sp.find? (fun x => decide (x.id = id)) with
    | some x => some x
    | none => findLoop id rest

/-- The search (trntrn_segmentor.cpp:55-75): nothing is searched if there is no speech; the outer `none` is undefined behaviour. -/
def find (ss : SpeechSet) (id : String) : Option (Option Seg) :=
  match ss with
  | [] => some none
  | sp :: rest => (findLoop id (sp :: rest)).map some

/-- `TRNTRNSegmentor::Next` (trntrn_segmentor.cpp:50-109); `none` = undefined behaviour. -/
def next (refs hyps : SpeechSet) (st : TSt) : Option (Group × TSt) :=
  match find refs st.cur with
  | none => none
  | some r =>
    match find hyps st.cur with
    | none => none
    | some h =>
      match st.list with
      | [] => some ((r, h), ⟨[], ""⟩)
      | x :: xs => some ((r, h), ⟨xs, x⟩)

/-- The loop over the groups of a system (recording.cpp:632-634, trntrn_segmentor.h:46 for `HasNext`). -/
def groups (refs hyps : SpeechSet) : Nat → TSt → Option (List Group × TSt)
  | 0, _ => none
  | f + 1, st =>
    if st.cur = "" then some ([], st)
    else
      match next refs hyps st with
      | none => none
      | some (g, st') =>
        match groups refs hyps f st' with
        | none => none
        | some (gs, e) => some (g :: gs, e)

/-- The loop over the systems (recording.cpp:625-634, 836-838) with trn files. -/
def systems (refs : SpeechSet) : Option TSt → List SpeechSet → Option (List (List Group))
  | _, [] => some []
  | old, h :: hs =>
    match reset refs old with
    | none => none
    | some st =>
      match groups refs h (st.list.length + 2) st with
      | none => none
      | some (gs, e) =>
        match systems refs (some e) hs with
        | none => none
        | some rest => some (gs :: rest)

/-! ## Loading the hypotheses -/

/-- `hypothesis[title] = set` (recording.cpp:243), a map as a list of pairs. -/
def put {X : Type} (m : List (String × X)) (k : String) (v : X) : List (String × X) := (k, v) :: m.filter (fun e => decide (e.1 ≠ k))

/-- The loop over the hypotheses in `Recording::Load` (recording.cpp:226-245): the map of the hypotheses and the systems of the alignment
(alignment.h:41).  `read` is what is read from a file. -/
def load {X : Type} (read : String → X) : List Given → List (String × X) → List (String × String) → List (String × X) × List (String × String)
  | [], m, sys => (m, sys)
  | g :: gs, m, sys =>
    let title := if g.title = "" then g.file else g.title
    load read gs (put m title (read g.file)) (sys ++ [(g.file, title)])

/-! ## Selecting one group -/

/-- The numbers of the groups of segments (segmentsgroup.h:34, id.cpp:22-25): every group takes the next number of a counter that all
systems share; `gap` other objects take numbers before it.  A group is given by its system and its place there. -/
def number : Nat → List ((Nat × Nat) × Nat) → List ((Nat × Nat) × Nat)
  | _, [] => []
  | c, (g, gap) :: rest => (g, c + gap + 1) :: number (c + gap + 1) rest

/-- The groups that are left with `-only-SG n` (recording.cpp:708-717). -/
def only (n : Nat) (l : List ((Nat × Nat) × Nat)) : List (Nat × Nat) := (l.filter (fun e => decide (¬ e.2 ≠ n))).map (·.1)

/-! ## The reference of a recording -/

/-- What is done with the member `references`. -/
inductive Use
  | assign
  | read
  | delete
deriving DecidableEq

/-- A life of a `Recording`: `Load` (recording.cpp:198-218 with a reference, 247-284 without), the filters for the references and the
whole sets in `Filter` (300-305, 326-334), the check of the speakers there (338-377), `AlignHypRef` (630), and the destructor (174).
The constructor (28-62) does not set the member. -/
def life (generic filterRef filterAll spkr : Bool) (nhyp : Nat) : List Use :=
  (if generic then [] else [Use.assign]) ++ (if filterRef then [Use.read] else []) ++ (if filterAll then [Use.read] else []) ++
  (if spkr then [Use.read] else []) ++ (if generic then [] else List.replicate nhyp Use.read) ++ [Use.delete]

/-- Whether the uses are defined: the member is set before it is read or deleted. -/
def defined : Bool → List Use → Bool
  | _, [] => true
  | _, .assign :: r => defined true r
  | b, _ :: r => b && defined b r

end Verif.Record
