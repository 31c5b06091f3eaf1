import Verif.AscSgml.Model
import Verif.Sgml.Spec
import Verif.Text.Spec
/-!
# Specification vocabulary for asclite's alignment reports

What a report says, independent of how it is written: words with their display form, times in milliseconds and
confidences, alignments of words, paths and speakers.
-/
set_option autoImplicit false
namespace Verif.AscSgml
open Verif.Text
open Verif.Scorer (Verdict)
open Verif.Sgml (Entry LWord Ev2)

/-- A word of a report. -/
structure RWord where
  value : List Nat
  times : Option (Nat × Nat)
  conf : Option (List Nat)
  deriving Repr, DecidableEq

/-- A path of a report; times in milliseconds. -/
structure RPath where
  id : List Nat
  labels : List Nat
  file : List Nat
  channel : List Nat
  seq : Nat
  times : Option (Nat × Nat)
  caseSense : Bool
  ents : List (Entry RWord)
  deriving Repr, DecidableEq

/-- A system's report: title, files, date, the two flags, category labels, and the paths of each speaker. -/
structure RSys where
  title : List Nat
  ref : List Nat
  hyp : List Nat
  date : List Nat
  frag : Bool
  opt : Bool
  weighted : Bool
  cats : List (List Nat × List Nat × List Nat × List Nat)
  grps : List (List Nat × List RPath)
  deriving Repr, DecidableEq

/-! ## What sclite has read -/

/-- The milliseconds that a text of seconds with three decimals stands for. -/
def millis (t : List Nat) : Nat := numOf (t.takeWhile (· ≠ 46)) 0 * 1000 + numOf ((t.dropWhile (· ≠ 46)).drop 1) 0

/-- A word as read. -/
def viewWord (w : LWord) : RWord := ⟨w.value, w.times.map fun t => (millis t.1, millis t.2), w.conf⟩

/-- An element of an alignment as read. -/
def viewEntry : Entry LWord → Entry RWord
  | .ins b => .ins (viewWord b)
  | .del a => .del (viewWord a)
  | .pair ev a b => .pair ev (viewWord a) (viewWord b)

/-- A path as read. -/
def viewPath (p : LPath) : RPath :=
  ⟨p.id, p.labels, p.file, p.channel, numOf p.seq 0, if p.t1 = [] then none else some (millis p.t1, millis p.t2), p.caseSense,
   p.ents.map viewEntry⟩

/-- A system as read. -/
def viewSys (y : LSys) : RSys :=
  ⟨y.title, y.ref, y.hyp, y.date, y.frag, y.opt, y.weighted, y.cats, y.grps.map fun g => (g.1, g.2.map viewPath)⟩

/-! ## What was aligned -/

/-- The times of something timed, if they are real. -/
def realTimes (a b : Int) : Option (Nat × Nat) := if 0 ≤ a ∧ 0 ≤ b then some (a.toNat, b.toNat) else none

/-- The display form of a token: a hyphen where a fragment is cut off, parentheses around optional tokens. -/
def display (caseSens : Bool) (k : Tok) : List Nat :=
  let w := if caseSens then k.text else k.lower
  let w := match k.frag with
    | .no => w
    | .begin => w ++ [45]
    | .fin => 45 :: w
  if k.optional then 40 :: w ++ [41] else w

/-- The word of a token; a missing token is the empty word. -/
def wordOf (caseSens : Bool) : Option Tok → RWord
  | some k => ⟨display caseSens k, realTimes k.start k.stop, k.conf⟩
  | none => ⟨[], none, none⟩

/-- The element of the alignment for a result; substitutions of speakers count as substitutions. -/
def entryOf (caseSens : Bool) (v : Verdict) (ref hyp : Option Tok) : Entry RWord :=
  match v with
  | .correct => .pair .corr (wordOf caseSens ref) (wordOf caseSens hyp)
  | .substitution => .pair .sub (wordOf caseSens ref) (wordOf caseSens hyp)
  | .speakerSub => .pair .sub (wordOf caseSens ref) (wordOf caseSens hyp)
  | .deletion => .del (wordOf caseSens ref)
  | .insertion => .ins (wordOf caseSens hyp)

/-- The tokens fit the result: a deletion has only a reference token, an insertion only a hypothesis token, a substitution
both. -/
def Judged (v : Verdict) (ref hyp : Option Tok) : Prop :=
  match v with
  | .correct => True
  | .substitution => ref.isSome ∧ hyp.isSome
  | .speakerSub => ref.isSome ∧ hyp.isSome
  | .deletion => ref.isSome ∧ hyp = none
  | .insertion => ref = none ∧ hyp.isSome

/-- The elements of the alignment of a system with a segment. -/
def entriesOf (caseSens : Bool) (sys : List Nat) (ts : List TA) : List (Entry RWord) :=
  ts.filterMap fun t => (t.get sys).bind fun ev => ev.res.map fun v => entryOf caseSens v t.ref ev.tok

/-- The path of a segment. -/
def pathOf (o : Opts) (sys : List Nat) (g : Seg) : RPath :=
  ⟨g.id, g.label, g.source, g.channel, g.seq, realTimes g.start g.stop, o.caseSens, entriesOf o.caseSens sys g.toks⟩

/-- All segments of an alignment. -/
def allSegs (al : List Speech) : List Seg := al.flatMap Speech.segs

/-- The segments grouped by speaker: one group for each speaker that occurs, with exactly this speaker's segments; the
groups ordered by the smallest sequence number in them. -/
structure Grouped (L : List Seg) (gs : List (List Nat × List Seg)) : Prop where
  names : (gs.map Prod.fst).Nodup
  segs : ∀ g ∈ gs, g.2 ≠ [] ∧ g.2.Perm (L.filter fun s => s.spk = g.1)
  covered : ∀ s ∈ L, ∃ g ∈ gs, g.1 = s.spk
  ordered : gs.Pairwise fun a b => ∃ s ∈ a.2, ∀ t ∈ b.2, s.seq ≤ t.seq

/-- The file of the first token of a system, as far as the first tokens of segments tell. -/
def hypFile (sys : List Nat) (al : List Speech) : List Nat :=
  ((allSegs al).findSome? fun g => g.toks.head?.bind fun t => (t.get sys).bind fun ev => ev.tok.map Tok.file).getD []

/-- The report of a system. -/
def reportOf (o : Opts) (sys ref : List Nat) (cats : List Cat) (al : List Speech) (gs : List (List Nat × List Seg)) : RSys :=
  ⟨baseName sys, ref, hypFile sys al, o.date, o.fragCorr, o.optBoth, false, cats.map fun c => (c.type, c.id, c.title, c.desc),
   gs.map fun g => (g.1, g.2.map (pathOf o sys))⟩

/-! ## What can be written -/

/-- A text that can stand in an attribute: well-encoded, no quote, no newline. -/
def Clean (e : Enc) (t : List Nat) : Prop :=
  (∃ cs : List (List Nat), cs.flatten = t ∧ ∀ c ∈ cs, IsChar e c) ∧ 34 ∉ t ∧ 10 ∉ t ∧ 0 ∉ t

/-- A token that can be written: no quote or newline in its text, a confidence that is a number, a speaker in plain
ASCII without the characters that structure a line. -/
structure TokOk (k : Tok) : Prop where
  text : ∀ x ∈ k.text ++ k.lower, x ≠ 34 ∧ x ≠ 10 ∧ x ≠ 0
  conf : ∀ c, k.conf = some c → Sgml.IsNumber c
  spk : ∀ x ∈ k.spk, 0 < x ∧ x < 128 ∧ x ≠ 34 ∧ x ≠ 44 ∧ x ≠ 58 ∧ x ≠ 10
  
/-- A segment that can be written for a system: clean attributes; every token alignment was scored for the system. -/
structure SegOk (e : Enc) (sys : List Nat) (g : Seg) : Prop where
  spk : Clean e g.spk
  id : Clean e g.id
  label : Clean e g.label
  source : Clean e g.source
  channel : Clean e g.channel
  toks : ∀ t ∈ g.toks, (∀ k, t.ref = some k → TokOk k) ∧
    ∃ ev v, t.get sys = some ev ∧ ev.res = some v ∧ Judged v t.ref ev.tok ∧ ∀ k, ev.tok = some k → TokOk k ∧ Clean e k.file

/-- A category label that can be written. -/
structure CatOk (e : Enc) (c : Cat) : Prop where
  type : c.type = nLABEL ∨ c.type = nCATEGORY
  id : Clean e c.id
  title : Clean e c.title
  desc : Clean e c.desc

/-- An alignment that can be written for a system: all speeches from the file `ref`, the first one not empty. -/
structure AlOk (e : Enc) (o : Opts) (sys ref : List Nat) (al : List Speech) : Prop where
  first : ∃ sp sps, al = sp :: sps ∧ sp.segs ≠ [] ∧ ∀ c ∈ sp.cats, CatOk e c
  refs : Clean e ref ∧ ∀ sp ∈ al, sp.refFile = ref
  title : Clean e (baseName sys)
  date : Clean e o.date
  segs : ∀ g ∈ allSegs al, SegOk e sys g

end Verif.AscSgml
