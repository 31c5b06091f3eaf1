import Verif.ArabNorm.Model
/-!
# What a user expects of the filters for Arabic transcripts
-/
set_option autoImplicit false
namespace Verif.ArabNorm

/-- The text with these words, a space between two of them. -/
def joinW : List Text → Text
  | [] => []
  | [w] => w
  | w :: v :: ws => w ++ 32 :: joinW (v :: ws)

/-- A word with bare alef for its first letter if that is alef with madda or hamza. -/
def bareAlef : Text → Text
  | [] => []
  | c :: w => if c ∈ [0x622, 0x623, 0x625] then 0x627 :: w else c :: w

/-- The three tanween. -/
def Tan (c : Nat) : Prop := c ∈ [0x64B, 0x64C, 0x64D]

/-- The word ends with a tanween, or with one and a closing parenthesis. -/
def EndsTan (w : Text) : Prop := ∃ v c, Tan c ∧ (w = v ++ [c] ∨ w = v ++ [c, 41])

/-- `v` is `w` without its final tanween, or `w` itself if it has none. -/
def Cut (w v : Text) : Prop :=
  (∃ u c, Tan c ∧ w = u ++ [c] ∧ v = u) ∨ (∃ u c, Tan c ∧ w = u ++ [c, 41] ∧ v = u ++ [41]) ∨ (¬ EndsTan w ∧ v = w)

/-- Two tanween at the end of a word. -/
def EndsTwice (w : Text) : Prop :=
  ∃ v c d, Tan c ∧ Tan d ∧ (w = v ++ [c, d] ∨ w = v ++ [c, d, 41] ∨ w = v ++ [c, 41, d])

/-- White space. -/
def Ws (c : Nat) : Prop := c ∈ [32, 9, 10, 11, 12, 13]

/-- Columns with the white space after them. -/
def Cols (cs : List (Text × Text)) : Prop := ∀ p ∈ cs, p.1 ≠ [] ∧ (∀ c ∈ p.1, ¬ Ws c) ∧ p.2 ≠ [] ∧ (∀ c ∈ p.2, Ws c)

/-- Columns and what follows them. -/
def glue (cs : List (Text × Text)) (r : Text) : Text := (cs.map (fun p => p.1 ++ p.2)).flatten ++ r

/-- A comment line. -/
def Comment (t : Text) : Prop := [59, 59] <+: t ∨ [35] <+: t

/-- A label: in angle brackets. -/
def Label (w : Text) : Prop := ∃ v, w = 60 :: v ++ [62] ∧ ∀ c ∈ v, c ≠ 60 ∧ c ≠ 62

end Verif.ArabNorm
