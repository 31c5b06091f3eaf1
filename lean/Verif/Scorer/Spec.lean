import Verif.Scorer.Model
/-!
# Vocabulary for the scoring theorems
-/
set_option autoImplicit false
namespace Verif.Scorer

/-- A row of the speaker map file. -/
structure Row where
  source : Str
  channel : Str
  ref : Str
  sys : Str
  mapped : Str
  overlap : Str

/-- The row as a line of comma separated values. -/
def Row.csv (r : Row) : Str :=
  r.source ++ ',' :: (r.channel ++ ',' :: (r.ref ++ ',' :: (r.sys ++ ',' :: (r.mapped ++ ',' :: r.overlap))))

/-- The reference speaker the file gives for a system speaker: that of the first row saying `mapped` for it; empty
when there is none. -/
def intended (rows : List Row) (source channel sys : Str) : Str :=
  match rows.find? fun r => r.mapped = "mapped".toList ∧ r.source = source ∧ r.channel = channel ∧ r.sys = sys with
  | some r => r.ref
  | none => []

/-- The documented meaning of the setting: missing optional reference words are forgiven. -/
def ForgivesRef (setting : Str) : Prop := setting = "both".toList ∨ setting = "ref".toList
/-- The documented meaning of the setting: superfluous optional hypothesis words are forgiven. -/
def ForgivesHyp (setting : Str) : Prop := setting = "both".toList ∨ setting = "hyp".toList

/-- The verdict a pair should get. -/
inductive Deserves (eqv : Str → Str → Bool) (setting : Str) (speakers : Bool) (m : SpkMap) :
    Option Tok → Option Tok → Verdict → Prop where
  | ins (h : Tok) : ¬ (h.optional = true ∧ ForgivesHyp setting) →
      Deserves eqv setting speakers m none (some h) .insertion
  | insForgiven (h : Tok) : h.optional = true → ForgivesHyp setting →
      Deserves eqv setting speakers m none (some h) .correct
  | del (r : Tok) : ¬ (r.optional = true ∧ ForgivesRef setting) →
      Deserves eqv setting speakers m (some r) none .deletion
  | delForgiven (r : Tok) : r.optional = true → ForgivesRef setting →
      Deserves eqv setting speakers m (some r) none .correct
  | sub (r h : Tok) : eqv r.text h.text = false →
      Deserves eqv setting speakers m (some r) (some h) .substitution
  | spk (r h : Tok) : eqv r.text h.text = true → speakers = true →
      getRef m h.source h.channel h.speaker ≠ r.speaker →
      Deserves eqv setting speakers m (some r) (some h) .speakerSub
  | cor (r h : Tok) : eqv r.text h.text = true →
      (speakers = true → getRef m h.source h.channel h.speaker = r.speaker) →
      Deserves eqv setting speakers m (some r) (some h) .correct

/-- All results of a speaker's segments. -/
def resultsOf (segs : List Scored) (spk : Str) : List (Option Verdict) :=
  ((segs.filter fun s => s.speaker = spk).map Scored.results).flatten

/-- How often a verdict occurs among a speaker's results. -/
def howMany (v : Verdict) (segs : List Scored) (spk : Str) : Nat := (resultsOf segs spk).count (some v)

/-- A segment with an error. -/
def Scored.bad (s : Scored) : Bool := s.results.any fun r => r ≠ some .correct

/-- The numbers a report on these segments should show for a speaker. -/
def shouldShow (segs : List Scored) (spk : Str) : Datas :=
  { segments := (segs.filter fun s => s.speaker = spk).length
    refWords := howMany .correct segs spk + howMany .substitution segs spk + howMany .speakerSub segs spk +
      howMany .deletion segs spk
    correct := howMany .correct segs spk
    subs := howMany .substitution segs spk
    spkErrs := howMany .speakerSub segs spk
    dels := howMany .deletion segs spk
    ins := howMany .insertion segs spk
    segErrs := ((segs.filter fun s => s.speaker = spk).filter Scored.bad).length }

end Verif.Scorer
