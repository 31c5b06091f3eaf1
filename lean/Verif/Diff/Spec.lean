import Verif.Lines.Spec
/-!
# Alignments taken from `diff`: vocabulary for the properties
-/
set_option autoImplicit false
namespace Verif.Diff

/-- A word, as bytes. -/
abbrev W := List Nat

/-- An entry of an edit script: the same word in both files, a word of the first file only, of the second file only, or one of each. -/
inductive Ed where
  | same (w : W)
  | del (w : W)
  | ins (w : W)
  | sub (r h : W)
deriving DecidableEq

/-- The word of the first file. -/
def Ed.left : Ed → Option W
  | .same w => some w
  | .del w => some w
  | .ins _ => none
  | .sub r _ => some r

/-- The word of the second file. -/
def Ed.right : Ed → Option W
  | .same w => some w
  | .del _ => none
  | .ins w => some w
  | .sub _ h => some h

/-- The words of an entry are no marks of `diff` and shorter than 100 bytes. -/
def Ed.Plain (e : Ed) : Prop := ∀ w, e.left = some w ∨ e.right = some w → w ≠ [60] ∧ w ≠ [62] ∧ w.length < 100

/-- How a pair of words counts. -/
inductive Ev where
  | corr
  | ins
  | del
  | sub
deriving DecidableEq

/-- An element of an alignment: how it counts, reference word, hypothesis word. -/
structure El where
  ev : Ev
  a : Option W
  b : Option W
deriving DecidableEq

/-- An entry of the script as an element of an alignment. -/
def Ed.el : Ed → El
  | .same w => ⟨.corr, some w, some w⟩
  | .del w => ⟨.del, some w, none⟩
  | .ins w => ⟨.ins, none, some w⟩
  | .sub r h => ⟨.sub, some r, some h⟩

/-- The alignments are the script, divided among the references: each has the words of its reference, and but for the last each is empty or
ends with a word of its reference. -/
def Divided (refs : List (List W)) (E : List Ed) (out : List (List El)) : Prop :=
  ∃ Ps : List (List Ed), out = Ps.map (fun P => P.map Ed.el) ∧ Ps.flatten = E ∧
    Ps.map (fun P => P.filterMap Ed.left) = refs ∧ ∀ P ∈ Ps.dropLast, P = [] ∨ ∃ e, P.getLast? = some e ∧ e.left ≠ none

end Verif.Diff
