import Verif.Acomp.Model
/-!
# What a user expects of the splitter of compounds
-/
set_option autoImplicit false
namespace Verif.Acomp

/-- A word in capitals. -/
def Caps (w : Text) : Prop := ∀ c ∈ w, ¬ (97 ≤ c ∧ c ≤ 122) ∧ ¬ (224 ≤ c ∧ c ≤ 255)

/-- The word is these listed words one after the other: all of at least `m` letters, all but the last of at most `k`, and between two of them
an element that `link` allows before the rest of the word. A listed word is its own only constituent, whatever its length. -/
inductive Chain (listed : Text → Prop) (link : Text → Text → Prop) (m k : Nat) : Text → List Text → Prop
  | one (w : Text) : listed w → Chain listed link m k w [w]
  | cons (p l r : Text) (ps : List Text) : listed p → link l r → m ≤ p.length → p.length ≤ k → m ≤ r.length →
      Chain listed link m k r ps → Chain listed link m k (p ++ (l ++ r)) (p :: ps)

/-- Nothing between the constituents. -/
def NoLink (l _ : Text) : Prop := l = []

/-- The elements the manual names: nothing, `s` or `en`. -/
def Link (l _ : Text) : Prop := l = [] ∨ l = [83] ∨ l = [69, 78]

/-- The elements the program skips: `s` only if no `en` follows, and `se` before `n`. -/
def CodeLink (l r : Text) : Prop :=
  l = [] ∨ (l = [83] ∧ ¬ [69, 78] <+: r) ∨ l = [69, 78] ∨ (l = [83, 69] ∧ [78] <+: r)

/-- White space. -/
def Ws (c : Nat) : Prop := c = 32 ∨ (9 ≤ c ∧ c ≤ 13)

/-- A word of a text: not empty and without white space. -/
def IsWord (w : Text) : Prop := w ≠ [] ∧ ∀ c ∈ w, ¬ Ws c

/-- A word and further ones, each with the white space before it. -/
def spaced (w : Text) (rest : List (Text × Text)) : Text := w ++ rest.flatMap (fun p => p.1 ++ p.2)

end Verif.Acomp
