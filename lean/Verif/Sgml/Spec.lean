import Verif.Sgml.Model
import Verif.Lines.Spec
/-!
# Specification vocabulary for SGML alignment lines
-/
set_option autoImplicit false
namespace Verif.Sgml
open Verif.Text

/-- The text of a number: not empty, ASCII, without the characters that structure a line. -/
def IsNumber (t : List Nat) : Prop := t ≠ [] ∧ ∀ x ∈ t, 0 < x ∧ x < 128 ∧ x ≠ 34 ∧ x ≠ 44 ∧ x ≠ 58 ∧ x ≠ 10 ∧ x ≠ 43

/-- What can be written and read: numbers print as numbers, no quotes in the word's texts. -/
def Writable (w : Word) : Prop :=
  IsNumber w.t1 ∧ IsNumber w.t2 ∧ IsNumber w.conf ∧ IsNumber w.weight ∧ 34 ∉ Split.format w.parts

/-- Entry by entry the same words: the text `val w` for each word, and the auxiliary values that were requested. -/
def expected (val : Word → List Nat) (ks : List Kind) : Entry Word → Entry LWord
  | .ins b => .ins (hypW b)
  | .del a => .del (refW a)
  | .pair ev a b => .pair ev (refW a) (hypW b)
where
  refW (w : Word) : LWord := ⟨val w, if .rTimes ∈ ks then some (w.t1, w.t2) else none,
    if .rConf ∈ ks then some w.conf else none, if .rWeight ∈ ks then some w.weight else none⟩
  hypW (w : Word) : LWord := ⟨val w, if .hTimes ∈ ks then some (w.t1, w.t2) else none,
    if .hConf ∈ ks then some w.conf else none, if .hWeight ∈ ks then some w.weight else none⟩

/-- The words of an entry. -/
def Entry.words {W : Type} : Entry W → List W
  | .ins b => [b]
  | .del a => [a]
  | .pair _ a b => [a, b]

end Verif.Sgml
