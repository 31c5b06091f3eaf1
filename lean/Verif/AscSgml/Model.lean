import Verif.Sgml.Model
import Verif.Scorer.Model
import Verif.Token.Model
/-!
# Model of asclite's alignment report and of its reading by sclite

`SGMLReportGenerator` writes one report per system; `load_SCORES_sgml` of sclite (sc_stats, `sclite -P`) reads it.  Texts
are lists of bytes.  Times are whole milliseconds; dividing by 1000.0 and printing with three decimals is modelled as
decimal notation (exact for times below 2^43 ms).  Confidences are the texts printed with six decimals.
-/
set_option autoImplicit false
namespace Verif.AscSgml
open Verif.Text
open Verif.Scorer (Verdict)
open Verif.Token (Frag)
open Verif.Sgml (Entry LWord Kind Ev2 cut loadHead assign)

/-! ## What is reported -/

/-- What the report reads of a token (src/asclite/core/token.h): `GetText`, `GetTextInLowerCase`, fragment status,
`IsOptional`, times, confidence if set, the speaker of its segment, the file of its speech set. -/
structure Tok where
  text : List Nat
  lower : List Nat
  frag : Frag
  optional : Bool
  start : Int
  stop : Int
  conf : Option (List Nat)
  spk : List Nat
  file : List Nat
  deriving Repr, DecidableEq

/-- `AlignmentEvaluation`, src/asclite/core/tokenalignment.h: the result (`none` = `UNAVAILABLE`) and the token (`none` =
NULL). -/
structure Eval where
  res : Option Verdict
  tok : Option Tok
  deriving Repr, DecidableEq

/-- `TokenAlignment`, src/asclite/core/tokenalignment.cpp:32-83: the token under the key of the reference and one
evaluation for each system that was aligned with it. -/
structure TA where
  ref : Option Tok
  evals : List (List Nat × Eval)
  deriving Repr, DecidableEq

/-- `GetAlignmentFor`, src/asclite/core/tokenalignment.h (`m_alignmentEvaluations[system]`); `none` = NULL. -/
def TA.get (t : TA) (sys : List Nat) : Option Eval := (t.evals.find? fun x => x.1 == sys).map Prod.snd

/-- An aligned segment and what the report reads of its reference segment: speaker, id, label, source, channel,
`GetSourceElementNum`, times. -/
structure Seg where
  spk : List Nat
  id : List Nat
  label : List Nat
  source : List Nat
  channel : List Nat
  seq : Nat
  start : Int
  stop : Int
  toks : List TA
  deriving Repr, DecidableEq

/-- A category label of a speech set, src/asclite/core/speechset.h: type, id, title, description. -/
structure Cat where
  type : List Nat
  id : List Nat
  title : List Nat
  desc : List Nat
  deriving Repr, DecidableEq

/-- An aligned speech: file name and category labels of the speech set of its reference speech, aligned segments. -/
structure Speech where
  refFile : List Nat
  cats : List Cat
  segs : List Seg
  deriving Repr, DecidableEq

/-- The properties that the report reads, src/asclite/core/sgml_reportgenerator.cpp:146-155 and 322, and the date. -/
structure Opts where
  fragCorr : Bool
  optBoth : Bool
  caseSens : Bool
  spkOpt : Bool
  date : List Nat
  deriving Repr, DecidableEq

/-! ## Preparing the speakers -/

/-- `Speaker`, src/asclite/core/sgml_reportgenerator.h:40-85. -/
structure Spk where
  name : List Nat
  seq : Nat
  segs : List Seg
  deriving Repr, DecidableEq

/-- Insertion for the sort below. -/
def insBy {α : Type} (f : α → Nat) (x : α) : List α → List α
  | [] => [x]
  | y :: l => if f x ≤ f y then x :: y :: l else y :: insBy f x l

/-- `std::sort` by a number, src/asclite/core/sgml_reportgenerator.h:54-57 and sgml_reportgenerator.cpp:142.  Simplified:
among equal numbers the order of the library is unspecified, here it is kept. -/
def sortBy {α : Type} (f : α → Nat) : List α → List α
  | [] => []
  | x :: l => insBy f x (sortBy f l)

/-- `AddSegment`, src/asclite/core/sgml_reportgenerator.h:64-69. -/
def Spk.add (p : Spk) (s : Seg) : Spk := ⟨p.name, if s.seq < p.seq then s.seq else p.seq, p.segs ++ [s]⟩

/-- Finding or creating the speaker of a segment and adding the segment,
src/asclite/core/sgml_reportgenerator.cpp:116-134. -/
def addSeg : List Spk → Seg → List Spk
  | [], s => [Spk.add ⟨s.spk, s.seq, []⟩ s]
  | p :: ps, s => if p.name = s.spk then p.add s :: ps else p :: addSeg ps s

/-- State of the loop over the aligned speeches, src/asclite/core/sgml_reportgenerator.cpp:76-89; `cur` is the pointer
`speaker` (names are unique). -/
structure Prep where
  ref : List Nat
  hyp : List Nat
  set : Bool
  spks : List Spk
  cur : Option (List Nat)
  deriving Repr, DecidableEq

/-- The state before the loop. -/
def Prep.new : Prep := ⟨[], [], false, [], none⟩

/-- One aligned segment, src/asclite/core/sgml_reportgenerator.cpp:101-135; `none` = NULL dereferenced because the first
token alignment has no entry for the system. -/
def prepSeg (sys : List Nat) (s : Prep) (g : Seg) : Option Prep :=
  let next (hyp : List Nat) (set : Bool) : Prep := ⟨s.ref, hyp, set, addSeg s.spks g, some g.spk⟩
  if s.set then some (next s.hyp true)
  else
    match g.toks with
    | [] => some (next s.hyp false)
    | t :: _ =>
      match t.get sys with
      | none => none
      | some ev =>
        match ev.tok with
        | none => some (next s.hyp false)
        | some k => some (next k.file true)

/-- The aligned segments of a speech. -/
def prepSegs (sys : List Nat) : Prep → List Seg → Option Prep
  | s, [] => some s
  | s, g :: gs => (prepSeg sys s g).bind fun s' => prepSegs sys s' gs

/-- `SortSegments` of one speaker, src/asclite/core/sgml_reportgenerator.cpp:138. -/
def sortOf (n : List Nat) (ps : List Spk) : List Spk :=
  ps.map fun p => if p.name = n then { p with segs := sortBy Seg.seq p.segs } else p

/-- One aligned speech, src/asclite/core/sgml_reportgenerator.cpp:91-139; `none` = NULL dereferenced: in `prepSeg`, or
`speaker` when there has been no segment yet. -/
def prepSpeech (sys : List Nat) (s : Prep) (sp : Speech) : Option Prep :=
  match prepSegs sys (if s.set then s else { s with ref := sp.refFile }) sp.segs with
  | none => none
  | some s' =>
    match s'.cur with
    | none => none
    | some n => some { s' with spks := sortOf n s'.spks }

/-- The loop, src/asclite/core/sgml_reportgenerator.cpp:90-139. -/
def prepAll (sys : List Nat) : Prep → List Speech → Option Prep
  | s, [] => some s
  | s, sp :: sps => (prepSpeech sys s sp).bind fun s' => prepAll sys s' sps

/-! ## Writing -/

/-- Decimal digits; the fuel is the number plus one. -/
def decGo : Nat → Nat → List Nat → List Nat
  | 0, _, acc => acc
  | f + 1, n, acc => if n < 10 then (48 + n) :: acc else decGo f (n / 10) ((48 + n % 10) :: acc)

/-- A number printed by `operator<<`. -/
def dec (n : Nat) : List Nat := decGo (n + 1) n []

/-- Milliseconds printed as seconds with three decimals, e.g. src/asclite/core/sgml_reportgenerator.cpp:247-250. -/
def secs (n : Int) : List Nat :=
  dec (n.toNat / 1000) ++ [46, 48 + n.toNat / 100 % 10, 48 + n.toNat / 10 % 10, 48 + n.toNat % 10]

/-- `IsTimeReal`, src/asclite/core/timedobject.h:46. -/
def timeReal (a b : Int) : Bool := decide (0 ≤ a ∧ 0 ≤ b)

/-- The members `m_bRefHasTimes`, `m_bHypHasTimes`, `m_bRefHasConf`, `m_bHypHasConf`. -/
structure Flags where
  refT : Bool
  hypT : Bool
  refC : Bool
  hypC : Bool
  deriving Repr, DecidableEq

/-- `PreProcessWordAux`, src/asclite/core/sgml_reportgenerator.cpp:276-316: one token alignment. -/
def Flags.look (sys : List Nat) (f : Flags) (t : TA) : Flags :=
  let hyp := (t.get sys).bind Eval.tok
  ⟨f.refT || t.ref.any (fun k => timeReal k.start k.stop), f.hypT || hyp.any (fun k => timeReal k.start k.stop),
   f.refC || t.ref.any (fun k => k.conf.isSome), f.hypC || hyp.any (fun k => k.conf.isSome)⟩

/-- All speakers, src/asclite/core/sgml_reportgenerator.cpp:171-179. -/
def flagsOf (sys : List Nat) (ps : List Spk) : Flags :=
  (ps.flatMap Spk.segs).flatMap Seg.toks |>.foldl (Flags.look sys) ⟨false, false, false, false⟩

/-- `OutputTextFor`, src/asclite/core/sgml_reportgenerator.cpp:486-508, without the quotes. -/
def shown (caseSens : Bool) (k : Tok) : List Nat :=
  (if k.optional then [40] else []) ++ (if k.frag = .fin then [45] else []) ++ (if caseSens then k.text else k.lower) ++
    (if k.frag = .begin then [45] else []) ++ (if k.optional then [41] else [])

/-- The word of one side, src/asclite/core/sgml_reportgenerator.cpp:390-408. -/
def side (caseSens : Bool) (v : Verdict) : Option Tok → List Nat
  | some k => 34 :: shown caseSens k ++ [34]
  | none => if v = .correct then [34, 34] else []

/-- The letter of a result, src/asclite/core/tokenalignment.cpp:21-25 with sgml_reportgenerator.cpp:383-388. -/
def letter : Verdict → Nat
  | .correct => 67
  | .substitution => 83
  | .speakerSub => 83
  | .deletion => 68
  | .insertion => 73

/-- The times of one side, src/asclite/core/sgml_reportgenerator.cpp:410-438. -/
def timesText : Option Tok → List Nat
  | some k => if timeReal k.start k.stop then secs k.start ++ 43 :: secs k.stop else []
  | none => []

/-- The confidence of one side, src/asclite/core/sgml_reportgenerator.cpp:440-468. -/
def confText : Option Tok → List Nat
  | some k => k.conf.getD []
  | none => []

/-- `true` and `false`, src/asclite/core/sgml_reportgenerator.cpp:476-482. -/
def boolText (b : Bool) : List Nat := if b then [116, 114, 117, 101] else [102, 97, 108, 115, 101]

/-- The auxiliary values of a token alignment, src/asclite/core/sgml_reportgenerator.cpp:410-483. -/
def auxText (o : Opts) (f : Flags) (v : Verdict) (ref hyp : Option Tok) : List Nat :=
  (if f.refT then 44 :: timesText ref else []) ++ (if f.hypT then 44 :: timesText hyp else []) ++
  (if f.refC then 44 :: confText ref else []) ++ (if f.hypC then 44 :: confText hyp else []) ++
  (if o.spkOpt then 44 :: (hyp.elim [] Tok.spk) ++ 44 :: (if hyp.isSome then boolText (v = .speakerSub) else []) else [])

/-- `GenerateTokenAlignment`, src/asclite/core/sgml_reportgenerator.cpp:369-484; `none` = NULL dereferenced.  Without a
result only a message is printed. -/
def tokLine (o : Opts) (f : Flags) (sys : List Nat) (t : TA) : Option (List Nat) :=
  match t.get sys with
  | none => none
  | some ev =>
    match ev.res with
    | none => some []
    | some v => some (letter v :: 44 :: side o.caseSens v t.ref ++ 44 :: side o.caseSens v ev.tok ++ auxText o f v t.ref ev.tok)

/-- The line of token alignments with colons between them, src/asclite/core/sgml_reportgenerator.cpp:260-271. -/
def tokLines (o : Opts) (f : Flags) (sys : List Nat) : List TA → Option (List Nat)
  | [] => some []
  | [t] => tokLine o f sys t
  | t :: ts =>
    match tokLine o f sys t, tokLines o f sys ts with
    | some a, some b => some (a ++ 58 :: b)
    | _, _ => none

/-- The names of the auxiliary values, src/asclite/core/sgml_reportgenerator.cpp:318-367; no attribute if there are none. -/
def auxNames (o : Opts) (f : Flags) : List (List Nat) :=
  (if f.refT then [[114, 95, 116, 49, 43, 116, 50]] else []) ++ (if f.hypT then [[104, 95, 116, 49, 43, 116, 50]] else []) ++
  (if f.refC then [[114, 95, 99, 111, 110, 102]] else []) ++ (if f.hypC then [[104, 95, 99, 111, 110, 102]] else []) ++
  (if o.spkOpt then [[104, 95, 115, 112, 107, 114], [104, 95, 105, 115, 83, 112, 107, 114, 83, 117, 98]] else [])

/-- The names with commas between them. -/
def commas : List (List Nat) → List Nat
  | [] => []
  | [x] => x
  | x :: xs => x ++ 44 :: commas xs

/-- A tag as it is written: `<name k="v" ...>` and a newline. -/
def tagLine (name : List Nat) (attrs : List (List Nat × List Nat)) : List Nat :=
  60 :: name ++ attrs.flatMap (fun a => 32 :: a.1 ++ [61, 34] ++ a.2 ++ [34]) ++ [62, 10]

/-- An end tag and a newline. -/
def endLine (name : List Nat) : List Nat := [60, 47] ++ name ++ [62, 10]

/-- `SYSTEM`, src/asclite/core/sgml_reportgenerator.cpp:157. -/
def nSYSTEM : List Nat := [83, 89, 83, 84, 69, 77]
/-- `SPEAKER`, src/asclite/core/sgml_reportgenerator.cpp:213. -/
def nSPEAKER : List Nat := [83, 80, 69, 65, 75, 69, 82]
/-- `PATH`, src/asclite/core/sgml_reportgenerator.cpp:231. -/
def nPATH : List Nat := [80, 65, 84, 72]
/-- `LABEL`, src/asclite/core/stm_inputparser.cpp:105-106. -/
def nLABEL : List Nat := [76, 65, 66, 69, 76]
/-- `CATEGORY`, src/asclite/core/stm_inputparser.cpp:102-103. -/
def nCATEGORY : List Nat := [67, 65, 84, 69, 71, 79, 82, 89]
/-- `id`, src/asclite/core/sgml_reportgenerator.cpp:198, 214, 232. -/
def aId : List Nat := [105, 100]
/-- `title`, src/asclite/core/sgml_reportgenerator.cpp:158, 199. -/
def aTitle : List Nat := [116, 105, 116, 108, 101]
/-- `desc`, src/asclite/core/sgml_reportgenerator.cpp:200. -/
def aDesc : List Nat := [100, 101, 115, 99]
/-- `ref_fname`, src/asclite/core/sgml_reportgenerator.cpp:159. -/
def aRef : List Nat := [114, 101, 102, 95, 102, 110, 97, 109, 101]
/-- `hyp_fname`, src/asclite/core/sgml_reportgenerator.cpp:160. -/
def aHyp : List Nat := [104, 121, 112, 95, 102, 110, 97, 109, 101]
/-- `creation_date`, src/asclite/core/sgml_reportgenerator.cpp:161. -/
def aDate : List Nat := [99, 114, 101, 97, 116, 105, 111, 110, 95, 100, 97, 116, 101]
/-- `format`, src/asclite/core/sgml_reportgenerator.cpp:162. -/
def aFormat : List Nat := [102, 111, 114, 109, 97, 116]
/-- `frag_corr`, src/asclite/core/sgml_reportgenerator.cpp:163. -/
def aFrag : List Nat := [102, 114, 97, 103, 95, 99, 111, 114, 114]
/-- `opt_del`, src/asclite/core/sgml_reportgenerator.cpp:164. -/
def aOpt : List Nat := [111, 112, 116, 95, 100, 101, 108]
/-- `weight_ali`, src/asclite/core/sgml_reportgenerator.cpp:165. -/
def aWali : List Nat := [119, 101, 105, 103, 104, 116, 95, 97, 108, 105]
/-- `weight_filename`, src/asclite/core/sgml_reportgenerator.cpp:166. -/
def aWfile : List Nat := [119, 101, 105, 103, 104, 116, 95, 102, 105, 108, 101, 110, 97, 109, 101]
/-- `word_cnt`, src/asclite/core/sgml_reportgenerator.cpp:233. -/
def aCnt : List Nat := [119, 111, 114, 100, 95, 99, 110, 116]
/-- `labels`, src/asclite/core/sgml_reportgenerator.cpp:236. -/
def aLabels : List Nat := [108, 97, 98, 101, 108, 115]
/-- `file`, src/asclite/core/sgml_reportgenerator.cpp:239. -/
def aFile : List Nat := [102, 105, 108, 101]
/-- `channel`, src/asclite/core/sgml_reportgenerator.cpp:242. -/
def aChannel : List Nat := [99, 104, 97, 110, 110, 101, 108]
/-- `sequence`, src/asclite/core/sgml_reportgenerator.cpp:244. -/
def aSeq : List Nat := [115, 101, 113, 117, 101, 110, 99, 101]
/-- `R_T1`, src/asclite/core/sgml_reportgenerator.cpp:249. -/
def aT1 : List Nat := [82, 95, 84, 49]
/-- `R_T2`, src/asclite/core/sgml_reportgenerator.cpp:250. -/
def aT2 : List Nat := [82, 95, 84, 50]
/-- `word_aux`, src/asclite/core/sgml_reportgenerator.cpp:324. -/
def aAux : List Nat := [119, 111, 114, 100, 95, 97, 117, 120]
/-- `case_sense`, src/asclite/core/sgml_reportgenerator.cpp:256. -/
def aCase : List Nat := [99, 97, 115, 101, 95, 115, 101, 110, 115, 101]

/-- `TRUE` and `FALSE`, src/asclite/core/sgml_reportgenerator.cpp:148-154. -/
def upBool (b : Bool) : List Nat := if b then [84, 82, 85, 69] else [70, 65, 76, 83, 69]

/-- `GetFileNameFromPath`, src/asclite/core/reportgenerator.cpp:24-32: what follows the last slash. -/
def baseName (p : List Nat) : List Nat := (p.reverse.takeWhile (· ≠ 47)).reverse

/-- The attributes of a path, src/asclite/core/sgml_reportgenerator.cpp:230-256 and 299-357. -/
def pathAttrs (o : Opts) (f : Flags) (g : Seg) : List (List Nat × List Nat) :=
  [(aId, g.id), (aCnt, dec g.toks.length)] ++ (if g.label ≠ [] then [(aLabels, g.label)] else []) ++
  (if g.source ≠ [] then [(aFile, g.source)] else []) ++ (if g.channel ≠ [] then [(aChannel, g.channel)] else []) ++
  [(aSeq, dec g.seq)] ++ (if timeReal g.start g.stop then [(aT1, secs g.start), (aT2, secs g.stop)] else []) ++
  (if auxNames o f ≠ [] then [(aAux, commas (auxNames o f))] else []) ++ (if o.caseSens then [(aCase, [49])] else [])

/-- `GeneratePath`, src/asclite/core/sgml_reportgenerator.cpp:226-274: the lines. -/
def pathLines (o : Opts) (f : Flags) (sys : List Nat) (g : Seg) : Option (List (List Nat)) :=
  (tokLines o f sys g.toks).map fun l => [tagLine nPATH (pathAttrs o f g), l ++ [10], endLine nPATH]

/-- The paths of a speaker. -/
def pathsLines (o : Opts) (f : Flags) (sys : List Nat) : List Seg → Option (List (List Nat))
  | [] => some []
  | g :: gs =>
    match pathLines o f sys g, pathsLines o f sys gs with
    | some a, some b => some (a ++ b)
    | _, _ => none

/-- `GenerateSpeaker`, src/asclite/core/sgml_reportgenerator.cpp:206-224. -/
def spkLines (o : Opts) (f : Flags) (sys : List Nat) (p : Spk) : Option (List (List Nat)) :=
  (pathsLines o f sys p.segs).map fun l => tagLine nSPEAKER [(aId, p.name)] :: l ++ [endLine nSPEAKER]

/-- All speakers, src/asclite/core/sgml_reportgenerator.cpp:181-188. -/
def spksLines (o : Opts) (f : Flags) (sys : List Nat) : List Spk → Option (List (List Nat))
  | [] => some []
  | p :: ps =>
    match spkLines o f sys p, spksLines o f sys ps with
    | some a, some b => some (a ++ b)
    | _, _ => none

/-- `GenerateCategoryLabel`, src/asclite/core/sgml_reportgenerator.cpp:193-204. -/
def catLines (c : Cat) : List (List Nat) :=
  [tagLine c.type [(aId, c.id), (aTitle, c.title), (aDesc, c.desc)], endLine c.type]

/-- The attributes of the system, src/asclite/core/sgml_reportgenerator.cpp:157-167. -/
def sysAttrs (o : Opts) (sys ref hyp : List Nat) : List (List Nat × List Nat) :=
  [(aTitle, baseName sys), (aRef, ref), (aHyp, hyp), (aDate, o.date), (aFormat, [50, 46, 52]), (aFrag, upBool o.fragCorr),
   (aOpt, upBool o.optBoth), (aWali, upBool false), (aWfile, [])]

/-- `GenerateSystem`, src/asclite/core/sgml_reportgenerator.cpp:70-191: the lines of the report; `none` = NULL
dereferenced (also for an alignment without speeches, whose speech set is NULL). -/
def genSystem (o : Opts) (sys : List Nat) (al : List Speech) : Option (List (List Nat)) :=
  match prepAll sys Prep.new al with
  | none => none
  | some s =>
    let ps := sortBy Spk.seq s.spks
    match al with
    | [] => none
    | sp :: _ =>
      (spksLines o (flagsOf sys ps) sys ps).map fun l =>
        tagLine nSYSTEM (sysAttrs o sys s.ref s.hyp) :: sp.cats.flatMap catLines ++ l ++ [endLine nSYSTEM]

/-! ## Reading: tags -/

/-- The loop over the attributes of a tag, src/sclite/sgml.c:69-87: at most 30 fit (`MAX_ATTRIB`, not checked by the code);
`none` = reported as an error, or memory outside of the text or the table used. -/
def attrLoop (e : Enc) : Nat → List (List Nat × List Nat) → List Nat → Option (List (List Nat × List Nat))
  | _, acc, [] => some acc
  | 0, _, _ :: _ => none
  | fuel + 1, acc, b :: r =>
    match Lines.spn e [32, 9, 10] (b :: r) with
    | none => none
    | some b1 =>
      match Lines.cspn e [61, 10] b1.length b1 with
      | none => none
      | some (name, b2) =>
        if name = [] then none
        else
          match b2 with
          | _ :: 34 :: b3 =>
            match Lines.cspn e [34] b3.length b3 with
            | some (v, _ :: b5) =>
              match Lines.spn e [32, 9, 10, 62] b5 with
              | none => none
              | some b6 => if acc.length < 30 then attrLoop e fuel (acc ++ [(name, v)]) b6 else none
            | _ => none
          | _ => none

/-- `add_SGML_tag`, src/sclite/sgml.c:51-88: name and attributes of the tag in a line. -/
def parseTag (e : Enc) (line : List Nat) : Option (List Nat × List (List Nat × List Nat)) :=
  match cut 32 (line.drop 1) with
  | none => none
  | some (name, r) => (attrLoop e (r.length + 1) [] r).map fun a => (name, a)

/-- `get_SGML_attrib`, src/sclite/sgml.c:19-28.  Simplified: `TEXT_strcmp` of attribute names is equality of the bytes. -/
def attr (as : List (List Nat × List Nat)) (n : List Nat) : List Nat := ((as.find? fun a => a.1 == n).map Prod.snd).getD []

/-- `delete_SGML_tag`, src/sclite/sgml.c:30-49: the name of the innermost open tag, if the line ends it; the comparison is
bounded by the length of the name in the line. -/
def endTag (tags : List (List Nat)) (line : List Nat) : Option (List Nat × List (List Nat)) :=
  match tags, cut 62 (line.drop 2) with
  | t :: ts, some (n, _) => if strBcmp n.length t n = 0 then some (t, ts) else none
  | _, _ => none

/-! ## Reading: scores -/

/-- The declared auxiliary values, src/sclite/scores.c:514-536: those of sclite's own reports and the two that are
skipped. -/
inductive AKind where
  | known (k : Kind)
  | spkr
  | isSub
  deriving Repr, DecidableEq

/-- The kind that a name begins with, src/sclite/scores.c:514-540; `none` = unknown, only a warning.  Simplified:
`TEXT_strCcmp` with these ASCII names is the test for a prefix. -/
def kindOf (t : List Nat) : Option AKind :=
  if [114, 95, 116, 49, 43, 116, 50].isPrefixOf t then some (.known .rTimes)
  else if [104, 95, 116, 49, 43, 116, 50].isPrefixOf t then some (.known .hTimes)
  else if [114, 95, 99, 111, 110, 102].isPrefixOf t then some (.known .rConf)
  else if [104, 95, 99, 111, 110, 102].isPrefixOf t then some (.known .hConf)
  else if [114, 95, 119, 101, 105, 103, 104, 116].isPrefixOf t then some (.known .rWeight)
  else if [104, 95, 119, 101, 105, 103, 104, 116].isPrefixOf t then some (.known .hWeight)
  else if [104, 95, 115, 112, 107, 114].isPrefixOf t then some .spkr
  else if [104, 95, 105, 115, 83, 112, 107, 114, 83, 117, 98].isPrefixOf t then some .isSub
  else none

/-- The loop over the names in `word_aux`, src/sclite/scores.c:499-543; at most 50. -/
def auxKinds : Nat → List AKind → List Nat → Option (List AKind)
  | _, acc, [] => some acc
  | 0, _, _ :: _ => none
  | fuel + 1, acc, b :: r =>
    if acc.length = 50 then none
    else auxKinds fuel (acc ++ (kindOf (b :: r)).toList) (((b :: r).dropWhile (· ≠ 44)).drop 1)

/-- The loop over the auxiliary values of an entry, src/sclite/scores.c:664-741, with the two kinds that are skipped. -/
def auxLoop : Nat → List AKind → List Nat → Entry LWord → Option (Entry LWord)
  | _, _, [], en => some en
  | 0, _, _ :: _, _ => none
  | fuel + 1, ks, _ :: r, en =>
    match r.takeWhile (· ≠ 44), ks with
    | [], ks => auxLoop fuel (ks.drop 1) (r.dropWhile (· ≠ 44)) en
    | _ :: _, [] => none
    | c :: item, .known k :: ks =>
      match assign k (c :: item) en with
      | none => none
      | some en' => auxLoop fuel ks (r.dropWhile (· ≠ 44)) en'
    | _ :: _, _ :: ks => auxLoop fuel ks (r.dropWhile (· ≠ 44)) en

/-- One entry, src/sclite/scores.c:586-742. -/
def loadEntry (ks : List AKind) (tok : List Nat) : Option (Entry LWord) :=
  match loadHead tok with
  | none => none
  | some (en, p) => if ks = [] then some en else auxLoop p.length ks p en

/-- The entries of a line. -/
def loadEntries (ks : List AKind) : List (List Nat) → Option (List (Entry LWord))
  | [] => some []
  | t :: ts =>
    match loadEntry ks t with
    | none => none
    | some en => (loadEntries ks ts).map (en :: ·)

/-- A line of data in a path, src/sclite/scores.c:580-745 (see `Sgml.loadPath`). -/
def loadLine (e : Enc) (ks : List AKind) (line : List Nat) : Option (List (Entry LWord)) :=
  match Lines.strqtokAll e [58, 10] (line.length + 1) none (some line) with
  | none => none
  | some ts => loadEntries ks ts

/-- A path as loaded, src/sclite/path.h:30-45: `cap` is the number of elements allocated; texts that `atof` and `atoi`
read are kept as texts, `[]` = not given. -/
structure LPath where
  cap : Nat
  id : List Nat
  labels : List Nat
  file : List Nat
  channel : List Nat
  seq : List Nat
  t1 : List Nat
  t2 : List Nat
  caseSense : Bool
  kinds : List AKind
  ents : List (Entry LWord)
  deriving Repr, DecidableEq

/-- A system as loaded, src/sclite/scores.h: the texts of the attributes, the LABEL and CATEGORY tags and the groups
(speakers). -/
structure LSys where
  title : List Nat
  ref : List Nat
  hyp : List Nat
  date : List Nat
  frag : Bool
  opt : Bool
  weighted : Bool
  cats : List (List Nat × List Nat × List Nat × List Nat)
  grps : List (List Nat × List LPath)
  deriving Repr, DecidableEq

/-- The number at the beginning of a text (`atof` on digits, src/sclite/scores.c:436-438). -/
def numOf : List Nat → Nat → Nat
  | [], acc => acc
  | b :: r, acc => if 48 ≤ b ∧ b ≤ 57 then numOf r (acc * 10 + (b - 48)) else acc

/-- The sizes `PATH_alloc` allocates, src/sclite/path.c:29-34. -/
def pathCap (n : Nat) : Nat := if n < 4 then 5 else n

/-- State of the loader, src/sclite/scores.c:345-352: open tags, systems read (`tscor` is the last one if `open`), current
speaker, current path, declared auxiliary values. -/
structure LState where
  tags : List (List Nat)
  done : List LSys
  cur : Option LSys
  spk : Option Nat
  path : Option LPath
  kinds : List AKind
  deriving Repr, DecidableEq

/-- The state at the beginning. -/
def LState.new : LState := ⟨[], [], none, none, none, []⟩

/-- `SCORES_get_grp`, src/sclite/scores.c:759-790: the index of the speaker, a new one at the end.  The growth of the table
is not modelled. -/
def getGrp (gs : List (List Nat × List LPath)) (n : List Nat) : List (List Nat × List LPath) × Nat :=
  match gs.findIdx? fun g => g.1 == n with
  | some i => (gs, i)
  | none => (gs ++ [(n, [])], gs.length)

/-- A SYSTEM tag, src/sclite/scores.c:367-413. -/
def newSys (as : List (List Nat × List Nat)) : LSys :=
  ⟨attr as aTitle, attr as aRef, attr as aHyp, attr as aDate, attr as aFrag == upBool true, attr as aOpt == upBool true,
   attr as aWali == upBool true, [], []⟩

/-- A PATH tag, src/sclite/scores.c:428-543 (the attributes asclite does not write are left out): the path and the declared
auxiliary values, which stay as they were without the attribute. -/
def newPath (kinds : List AKind) (as : List (List Nat × List Nat)) : Option LPath :=
  match (if attr as aAux = [] then some kinds else auxKinds ((attr as aAux).length + 1) [] (attr as aAux)) with
  | none => none
  | some ks => some ⟨pathCap (numOf (attr as aCnt) 0), attr as aId, attr as aLabels, attr as aFile, attr as aChannel,
      attr as aSeq, attr as aT1, attr as aT2, attr as aCase != [], ks, []⟩

/-- A begin tag, src/sclite/scores.c:356-559; at most 10 tags may be open (src/sclite/sgml.c:56-59). -/
def begin (e : Enc) (s : LState) (line : List Nat) : Option LState :=
  if 10 ≤ s.tags.length then none
  else
    match parseTag e line with
    | none => none
    | some (n, as) =>
      let s := { s with tags := n :: s.tags }
      if n = nSYSTEM then some { s with cur := some (newSys as), spk := none }
      else if n = nSPEAKER then
        match s.cur with
        | none => none
        | some y => some { s with cur := some { y with grps := (getGrp y.grps (attr as aId)).1 },
                                  spk := some (getGrp y.grps (attr as aId)).2 }
      else if n = nPATH then
        match s.spk, newPath s.kinds as with
        | some _, some p => some { s with path := some p, kinds := p.kinds }
        | _, _ => none
      else if n = nLABEL ∨ n = nCATEGORY then
        match s.cur with
        | none => some s
        | some y => some { s with cur := some { y with cats := y.cats ++ [(n, attr as aId, attr as aTitle, attr as aDesc)] } }
      else some s

/-- Adding a path to a group, src/sclite/scores.c:1044-1051 in `add_PATH_score`. -/
def addPath (gs : List (List Nat × List LPath)) (i : Nat) (p : LPath) : List (List Nat × List LPath) :=
  gs.modify i fun g => (g.1, g.2 ++ [p])

/-- An end tag, src/sclite/scores.c:560-579.  Simplified: a system is moved to `done` at its end tag; the code puts it into
the array at its begin tag. -/
def finish (s : LState) (line : List Nat) : Option LState :=
  match endTag s.tags line with
  | none => none
  | some (t, ts) =>
    if t = nSYSTEM then some ⟨ts, s.done ++ s.cur.toList, none, none, none, s.kinds⟩
    else if t = nSPEAKER then some { s with tags := ts, spk := none, path := none }
    else if t = nPATH then
      match s.cur, s.spk, s.path with
      | some y, some i, some p => some { s with tags := ts, path := none, cur := some { y with grps := addPath y.grps i p } }
      | _, _, _ => none
    else some { s with tags := ts }

/-- One line, src/sclite/scores.c:354-750: a begin tag, an end tag, or data; data beyond the elements allocated is written
outside of the path (`none`), data outside of a path is ignored. -/
def step (e : Enc) (s : LState) (line : List Nat) : Option LState :=
  match line with
  | 60 :: 47 :: _ => finish s line
  | 60 :: _ => begin e s line
  | _ =>
    match s.path with
    | none => some s
    | some p =>
      match loadLine e p.kinds line with
      | none => none
      | some es =>
        if (p.ents ++ es).length ≤ p.cap then some { s with path := some { p with ents := p.ents ++ es } } else none

/-- All lines. -/
def steps (e : Enc) : LState → List (List Nat) → Option LState
  | s, [] => some s
  | s, l :: ls => (step e s l).bind fun s' => steps e s' ls

/-- `load_SCORES_sgml`, src/sclite/scores.c:340-757: the systems in a file. -/
def loadFile (e : Enc) (cap len : Nat) (bytes : List Nat) : Option (List LSys) :=
  match Lines.readAll (bytes.length + 1) cap len bytes with
  | none => none
  | some ls => (steps e LState.new ls).map fun s => s.done

/-! ## Where the report goes -/

/-- Where a report can end up. -/
inductive Dest where
  | file (name : List Nat)
  | stdout
  | lost
  deriving Repr, DecidableEq

/-- `.sgml`. -/
def ext : List Nat := [46, 115, 103, 109, 108]

/-- The file name, src/asclite/core/sgml_reportgenerator.cpp:39-42. -/
def fileName (dir sysFile : List Nat) : List Nat :=
  if dir = [] then sysFile ++ ext else dir ++ 47 :: baseName sysFile ++ ext

/-- `Generate`, src/asclite/core/sgml_reportgenerator.cpp:29-67, one system: `canOpen` tells which files can be opened.  If
the file cannot be opened `where` is set to 1 again, so that the report goes to the buffer of the closed file. -/
def dest (canOpen : List Nat → Bool) (where1 : Bool) (dir sysFile : List Nat) : Dest :=
  if where1 then if canOpen (fileName dir sysFile) then .file (fileName dir sysFile) else .lost else .stdout

end Verif.AscSgml
