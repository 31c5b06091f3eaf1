/-!
# A recording: vocabulary for the properties
-/
set_option autoImplicit false
namespace Verif.Record

/-- An utterance: its identifier and which one of the file it is. -/
structure Seg where
  id : String
  nr : Nat
deriving DecidableEq

/-- The utterances of a speaker, and those of a file. -/
abbrev Speech := List Seg
abbrev SpeechSet := List Speech

/-- The utterances of a file. -/
def utts (s : SpeechSet) : List Seg := s.flatten

/-- What is aligned: an utterance of the reference and one of the hypothesis. -/
abbrev Group := Option Seg × Option Seg

/-- The identifiers of a file are present and there is an utterance. -/
def Proper (s : SpeechSet) : Prop := utts s ≠ [] ∧ ∀ x ∈ utts s, x.id ≠ ""

/-- No two utterances have the same identifier. -/
def Distinct (s : SpeechSet) : Prop := ∀ x ∈ utts s, ∀ y ∈ utts s, x.id = y.id → x = y

/-- Every utterance of `r` has one in `h`. -/
def Covers (r h : SpeechSet) : Prop := ∀ x ∈ utts r, ∃ y ∈ utts h, y.id = x.id

/-- A hypothesis as it is given on the command line; an empty title stands for none. -/
structure Given where
  file : String
  title : String

/-- The title under which a hypothesis is reported: the one that is given, else the name of the file. -/
def Given.name (g : Given) : String := if g.title = "" then g.file else g.title

end Verif.Record
