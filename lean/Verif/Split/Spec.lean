import Verif.Text.Spec
import Verif.Lines.Spec
import Verif.Split.Model
/-!
# Specification vocabulary for character scoring
-/
set_option autoImplicit false
namespace Verif.Split
open Verif.Text

/-- The glyphs of a text: its characters, except that in Guarani `G` or `g` with a combining tilde is one glyph. -/
def glyphs (guarani : Bool) : List (List Nat) → List (List Nat)
  | [] => []
  | [c] => [c]
  | c :: d :: cs =>
    if guarani ∧ (c = [71] ∨ c = [103]) ∧ d = [0xCC, 0x83] then (c ++ d) :: glyphs guarani cs
    else c :: glyphs guarani (d :: cs)

/-- A glyph that belongs to the ASCII range; in the one-byte encodings every glyph counts as such. -/
def asciiGlyph (e : Enc) (g : List Nat) : Bool := e = .ascii ∨ e = .extAscii ∨ ∃ b ∈ g.head?, b < 128 ∧ g.length = 1

/-- The maximal runs of a sequence of glyphs in which neighbours belong together by `j`; blanks separate runs and belong
to none. -/
def runs (j : List Nat → List Nat → Bool) : List (List Nat) → List (List (List Nat))
  | [] => []
  | [g] => if g = [32] then [] else [[g]]
  | g :: h :: gs =>
    if g = [32] then runs j (h :: gs)
    else if h ≠ [32] ∧ j g h then
      match runs j (h :: gs) with
      | [] => [[g]]
      | r :: rs => (g :: r) :: rs
    else [g] :: runs j (h :: gs)

/-- The units that are scored: hyphens dropped if so requested; then every glyph by itself, except that runs of ASCII stay
whole if only the others are to be split. -/
def units (e : Enc) (f : Flags) (gs : List (List Nat)) : List (List (List Nat)) :=
  runs (fun g h => f.noAscii && asciiGlyph e g && asciiGlyph e h) (gs.filter fun g => !(f.delHyphen && g = [45]))

/-- A text without backslashes in which the byte of a semicolon only occurs as a semicolon (this holds of every UTF-8 text
without backslashes). -/
def Clean (e : Enc) (v : List Nat) : Prop :=
  ∃ cs : List (List Nat), v = cs.flatten ∧ ∀ c ∈ cs, IsChar e c ∧ 92 ∉ c ∧ (59 ∈ c → c = [59])

end Verif.Split
