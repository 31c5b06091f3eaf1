/-!
# Model of asclite scoring: speaker map, verdicts and report counters

src/asclite/core/speakermatch.cpp, src/asclite/core/stt_scorer.cpp, src/asclite/core/rawsys_reportgenerator.cpp.
Strings are lists of characters.
-/
set_option autoImplicit false
namespace Verif.Scorer

abbrev Str := List Char

/-! ## Speaker map -/

/-- The index string built by `SetSysRef` and `GetRef`, src/asclite/core/speakermatch.cpp:118-123, 139-144. -/
def index (source channel sys : Str) : Str := source ++ ('|' :: (channel ++ ('|' :: sys)))

/-- `map<string,string>`: the entries, at most one per key. -/
abbrev SpkMap := List (Str × Str)

/-- `map::find`. -/
def SpkMap.find (m : SpkMap) (k : Str) : Option Str := (List.find? (fun e => e.1 == k) m).map Prod.snd

/-- `SetSysRef`, src/asclite/core/speakermatch.cpp:116-134: an existing entry is kept. -/
def setSysRef (m : SpkMap) (source channel sys ref : Str) : SpkMap :=
  match m.find (index source channel sys) with
  | none => (index source channel sys, ref) :: m
  | some _ => m

/-- `GetRef`, src/asclite/core/speakermatch.cpp:137-157: the empty string when there is no entry. -/
def getRef (m : SpkMap) (source channel sys : Str) : Str :=
  match m.find (index source channel sys) with
  | some r => r
  | none => []

/-- The field loop of `LoadFile`, src/asclite/core/speakermatch.cpp:71-90: the pieces between commas. -/
def splitComma : Str → List Str
  | [] => [[]]
  | c :: cs =>
    if c = ',' then [] :: splitComma cs
    else match splitComma cs with
      | [] => [[c]]
      | f :: fs => (c :: f) :: fs

/-- The CSV header, src/asclite/core/speakermatch.cpp:65. -/
def header : Str := "File,Channel,RefSpeaker,SysSpeaker,isMapped,timeOverlap".toList

/-- One line of `LoadFile`, src/asclite/core/speakermatch.cpp:61-107; `none` = a seventh field is stored behind the end
of `tokens[6]`.  Missing fields are empty strings. -/
def loadLine (m : SpkMap) (line : Str) : Option SpkMap :=
  if line.head? = some '#' then some m
  else if line = header then some m
  else
    let t := splitComma line
    if t.length > 6 then none
    else if t[4]? = some "mapped".toList then
      some (setSysRef m (t[0]?.getD []) (t[1]?.getD []) (t[3]?.getD []) (t[2]?.getD []))
    else some m

/-- `LoadFile`, src/asclite/core/speakermatch.cpp:43-113, on the lines of the file. -/
def loadFile : SpkMap → List Str → Option SpkMap
  | m, [] => some m
  | m, l :: ls =>
    match loadLine m l with
    | none => none
    | some m' => loadFile m' ls

/-! ## Verdicts -/

/-- What the scorer reads of a token: `IsOptional`, the text and the parent segment's source, channel and
speaker. -/
structure Tok where
  text : Str
  optional : Bool
  source : Str
  channel : Str
  speaker : Str
  deriving Repr, DecidableEq

/-- `TokenAlignment` results set by the scorer, src/asclite/core/tokenalignment.cpp:20-25. -/
inductive Verdict where
  | correct | substitution | speakerSub | deletion | insertion
  deriving Repr, DecidableEq

/-- `opt_ref`, `opt_hyp` from the property `align.optionally`, src/asclite/core/stt_scorer.cpp:44-63. -/
def optFlags (v : Str) : Bool × Bool :=
  if "both".toList = v ∨ "ref".toList = v then (true, false)
  else if "both".toList = v ∨ "hyp".toList = v then (false, true)
  else (false, false)

/-- The verdict for one pair, src/asclite/core/stt_scorer.cpp:82-126; `none` = `NULL` dereferenced (both missing).
`eqv` is `IsEquivalentTo` (see the token model), `spkOpt` the test of `align.speakeroptimization`. -/
def verdict (eqv : Str → Str → Bool) (opt : Str) (spkOpt : Bool) (m : SpkMap) (ref hyp : Option Tok) :
    Option Verdict :=
  match ref, hyp with
  | none, none => none
  | none, some h => some (if h.optional && (optFlags opt).2 then .correct else .insertion)
  | some r, none => some (if r.optional && (optFlags opt).1 then .correct else .deletion)
  | some r, some h =>
    some (if eqv r.text h.text then
      if spkOpt then
        if getRef m h.source h.channel h.speaker = r.speaker then .correct else .speakerSub
      else .correct
    else .substitution)

/-! ## Report counters -/

/-- `RAWSYS_Datas`, src/asclite/core/rawsys_reportgenerator.h:34-45 (confidence sums left out). -/
structure Datas where
  segments : Nat
  refWords : Nat
  correct : Nat
  subs : Nat
  spkErrs : Nat
  dels : Nat
  ins : Nat
  segErrs : Nat
  deriving Repr, DecidableEq

/-- Constructor, src/asclite/core/rawsys_reportgenerator.cpp:30-34. -/
def Datas.new : Datas := ⟨0, 0, 0, 0, 0, 0, 0, 0⟩

/-- `AddCorrectWord`, `AddSubstitutionWord`, `AddSpeakerErrorWord`, `AddDeletionWord`, `AddInsertionWord`,
src/asclite/core/rawsys_reportgenerator.cpp:36-84. -/
def Datas.add (d : Datas) : Verdict → Datas
  | .correct => { d with refWords := d.refWords + 1, correct := d.correct + 1 }
  | .substitution => { d with refWords := d.refWords + 1, subs := d.subs + 1 }
  | .speakerSub => { d with refWords := d.refWords + 1, spkErrs := d.spkErrs + 1 }
  | .deletion => { d with refWords := d.refWords + 1, dels := d.dels + 1 }
  | .insertion => { d with ins := d.ins + 1 }

/-- `AddSegment`, src/asclite/core/rawsys_reportgenerator.cpp:86-92. -/
def Datas.addSegment (d : Datas) (withinError : Bool) : Datas :=
  { d with segments := d.segments + 1, segErrs := if withinError then d.segErrs + 1 else d.segErrs }

/-- `GetNumberErrors`, src/asclite/core/rawsys_reportgenerator.h:60. -/
def Datas.errors (d : Datas) : Nat := d.subs + d.ins + d.dels + d.spkErrs

/-- `m_MapDatas`: counters per speaker. -/
abbrev Counters := Str → Option Datas

/-- Creation on first use, src/asclite/core/rawsys_reportgenerator.cpp:253-254. -/
def Counters.touch (m : Counters) (spk : Str) : Counters :=
  fun s => if s = spk then some ((m spk).getD Datas.new) else m s

/-- Update of one speaker's counters. -/
def Counters.update (m : Counters) (spk : Str) (f : Datas → Datas) : Counters :=
  fun s => if s = spk then (m spk).map f else m s

/-- The token loop of one segment, src/asclite/core/rawsys_reportgenerator.cpp:256-304; results, `none` =
`UNAVAILABLE` (then the function returns: second component `none`); otherwise `errorinsegment`. -/
def tokenLoop (spk : Str) : Counters → Bool → List (Option Verdict) → Counters × Option Bool
  | m, err, [] => (m, some err)
  | m, _, none :: _ => (m, none)
  | m, err, some v :: vs =>
    tokenLoop spk (m.update spk (·.add v)) (err || decide (v ≠ .correct)) vs

/-- An aligned segment for one system: the reference speaker and the results of its tokens. -/
structure Scored where
  speaker : Str
  results : List (Option Verdict)
  deriving Repr, DecidableEq

/-- The counting part of `GenerateSystem`, src/asclite/core/rawsys_reportgenerator.cpp:239-314; the counters kept in
the generator are the input.  The second component tells whether a report is written. -/
def countSystem : Counters → List Scored → Counters × Bool
  | m, [] => (m, true)
  | m, s :: ss =>
    match tokenLoop s.speaker (m.touch s.speaker) false s.results with
    | (m', none) => (m', false)
    | (m', some err) => countSystem (m'.update s.speaker (·.addSegment err)) ss

/-- `Generate`, src/asclite/core/rawsys_reportgenerator.cpp:885-917: the counters each system's report is written from.
`m_MapDatas` is not cleared in between. -/
def generate : Counters → List (List Scored) → List Counters
  | _, [] => []
  | m, s :: ss => (countSystem m s).1 :: generate (countSystem m s).1 ss

end Verif.Scorer
