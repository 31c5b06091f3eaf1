import Verif.Lur.Model
import Verif.Score.Spec
/-!
# Specification vocabulary for labels
-/
set_option autoImplicit false
namespace Verif.Lur
open Verif.Sgml (Entry)

/-- The text of a list of labels: in angle brackets, separated by commas. -/
def written (fields : List (List Nat)) : List Nat := 60 :: (List.intercalate [44] fields ++ [62])

/-- The text of a label: short, without brackets and commas; it may be empty (no label in this category). -/
def IsField (f : List Nat) : Prop := f.length < 30 ∧ 60 ∉ f ∧ 44 ∉ f ∧ 62 ∉ f

/-- An utterance: its labels by category (`none`: no labels at all) and its alignment. -/
structure Utt (W : Type) where
  labels : Option (List (List Nat))
  path : List (Entry W)

/-- The labels of all utterances are texts of labels. -/
def Fields {W : Type} (us : List (Utt W)) : Prop := ∀ u ∈ us, ∀ fs, u.labels = some fs → ∀ f ∈ fs, IsField f

/-- As the program has it. -/
def Utt.stored {W : Type} (u : Utt W) : Option (List Nat) × List (Entry W) := (u.labels.map written, u.path)

/-- The utterance has the label `id` in the category `k`. -/
def HasAt {W : Type} (find : List Nat → Option Nat) (u : Utt W) (id k : Nat) : Prop :=
  ∃ fs f, u.labels = some fs ∧ fs[k]? = some f ∧ f ≠ [] ∧ find f = some id

/-- The utterance has the label `id`. -/
def has {W : Type} (find : List Nat → Option Nat) (id : Nat) (u : Utt W) : Bool :=
  (u.labels.getD []).any fun f => decide (f ≠ [] ∧ find f = some id)

/-- Reference words and errors of an alignment. -/
def refs {W : Type} (u : Utt W) : Nat := u.path.countP fun e => Score.isCorr e || Score.isSub e || Score.isDel e
def errs {W : Type} (u : Utt W) : Nat := u.path.countP fun e => Score.isSub e || Score.isIns e || Score.isDel e

/-- Every label that is used has been defined. -/
def Known {W : Type} (find : List Nat → Option Nat) (us : List (Utt W)) : Prop :=
  ∀ u ∈ us, ∀ fs, u.labels = some fs → ∀ f ∈ fs, f ≠ [] → find f ≠ none

/-- Every label is used in one category only. -/
def OneCategory {W : Type} (find : List Nat → Option Nat) (us : List (Utt W)) : Prop :=
  ∀ u ∈ us, ∀ v ∈ us, ∀ id k l : Nat, HasAt find u id k → HasAt find v id l → k = l

/-- A definition of a label or category as it is written: the keyword and three texts in quotes, none of which contains a quote; anything
without quotes may stand between them, and anything at all at the end. -/
def Defines (key line : List Nat) (it : Item) : Prop :=
  ∃ a b c d : List Nat, 34 ∉ a ∧ 34 ∉ b ∧ 34 ∉ c ∧ 34 ∉ it.id ∧ 34 ∉ it.title ∧ 34 ∉ it.desc ∧
    line = key ++ a ++ [34] ++ it.id ++ [34] ++ b ++ [34] ++ it.title ++ [34] ++ c ++ [34] ++ it.desc ++ [34] ++ d

/-- The items defined by the lines, in order, each once. -/
inductive Collect (key : List Nat) : List (List Nat) → List Item → List Item → Prop where
  | nil {acc : List Item} : Collect key [] acc acc
  | new {l : List Nat} {ls : List (List Nat)} {acc res : List Item} {it : Item} : Defines key l it → it ∉ acc →
      Collect key ls (acc ++ [it]) res → Collect key (l :: ls) acc res
  | again {l : List Nat} {ls : List (List Nat)} {acc res : List Item} {it : Item} : Defines key l it → it ∈ acc →
      Collect key ls acc res → Collect key (l :: ls) acc res
  | other {l : List Nat} {ls : List (List Nat)} {acc res : List Item} : (¬ ∃ it, Defines key l it) →
      Collect key ls acc res → Collect key (l :: ls) acc res

end Verif.Lur
