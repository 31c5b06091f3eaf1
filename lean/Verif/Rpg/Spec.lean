/-!
# What a report has to look like
-/
set_option autoImplicit false
namespace Verif.Rpg

/-- The text is printed in these pieces, one after the other: it is broken only at a blank or at `//`, which is dropped; after the end
of the text there may be empty pieces. -/
inductive Splits : List (List Char) → List Char → Prop
  | done (k : Nat) : Splits (List.replicate k []) []
  | last (l : List Char) (k : Nat) : Splits (l :: List.replicate k []) l
  | blank (l : List Char) (ls : List (List Char)) (t : List Char) : Splits ls t → Splits (l :: ls) (l ++ ' ' :: t)
  | slash (l : List Char) (ls : List (List Char)) (t : List Char) : Splits ls t → Splits (l :: ls) (l ++ '/' :: '/' :: t)

/-- The parts of a text between the `//`. -/
def segments : List Char → List (List Char)
  | [] => [[]]
  | [c] => [[c]]
  | c :: d :: q =>
    if c = '/' ∧ d = '/' then [] :: segments q
    else match segments (d :: q) with
      | [] => [[c]]
      | s :: ss => (c :: s) :: ss

/-- Some texts with a blank between each two. -/
def withBlanks : List (List Char) → List Char
  | [] => []
  | [s] => s
  | s :: ss => s ++ ' ' :: withBlanks ss

/-- How a rounded share `R u n k` of `u`, `k` parts of `n`, may be off: it is not negative, it does not get smaller with more parts,
and all parts are the whole. -/
def Shares (R : Int → Nat → Nat → Int) : Prop :=
  ∀ (u : Int) (n : Nat), 0 ≤ u → 0 < n →
    R u n n = u ∧ (∀ k, 0 ≤ R u n k) ∧ ∀ k k', k ≤ k' → R u n k ≤ R u n k'

end Verif.Rpg
