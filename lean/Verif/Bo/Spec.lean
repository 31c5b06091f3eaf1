import Verif.Bo.Model
/-!
# Specification for probabilities by backing off
-/
set_option autoImplicit false
namespace Verif.Bo

/-- The number of n-grams of a level. -/
def count (lm : Lm) (k : Nat) : Nat := if k = 0 then lm.vocab + 1 else (lm.words k).length

/-- The successors of n-gram `i` of level `k` end before the successors of the next begin, those of the last at the end of the table. -/
def finish (lm : Lm) (k i : Nat) : Nat := if i + 1 < count lm k then ((lm.starts k)[i + 1]?).getD 0 else (lm.words (k + 1)).length

/-- N-gram `j` of level `k + 1` is n-gram `i` of level `k` with the word `w` after it. -/
def Child (lm : Lm) (k i w j : Nat) : Prop :=
  (∃ s, (lm.starts k)[i]? = some s ∧ s ≤ j) ∧ j < finish lm k i ∧ (lm.words (k + 1))[j]? = some w

/-- N-gram `j` is n-gram `i` of level `k` with some words after it. -/
def From (lm : Lm) : Nat → Nat → List Nat → Nat → Prop
  | _, i, [], j => j = i
  | k, i, w :: ws, j => ∃ m, Child lm k i w m ∧ From lm (k + 1) m ws j

/-- The n-gram is in the model, at place `j`; single words only count if they have successors. -/
def Seen (lm : Lm) : List Nat → Nat → Prop
  | [], _ => False
  | w :: ws, j => (∃ v m, Child lm 0 w v m) ∧ From lm 0 w ws j

/-- A model whose tables fit together: successors lie one after the other and have their words in order. -/
structure Fits (lm : Lm) : Prop where
  length : ∀ k, (lm.starts k).length = count lm k
  range : ∀ (k i s : Nat), (lm.starts k)[i]? = some s → s ≤ finish lm k i ∧ finish lm k i ≤ (lm.words (k + 1)).length
  order : ∀ (k i w w' j j' : Nat), Child lm k i w j → Child lm k i w' j' → j < j' → w < w'

/-- A step of backing off: with a weight, or without since the context is not in the model. -/
inductive Step where
  | dash
  | cross
  deriving DecidableEq

/-- The logarithm of the probability of an n-gram by backing off, with the steps. -/
inductive Katz (lm : Lm) : List Nat → Int → List Step → Prop
  | one (w : Nat) : Katz lm [w] (lm.probs 0 w) []
  | seen (w v : Nat) (ws : List Nat) (j : Nat) : Seen lm (w :: v :: ws) j → Katz lm (w :: v :: ws) (lm.probs (ws.length + 1) j) []
  | back (w v : Nat) (ws : List Nat) (i : Nat) (p : Int) (s : List Step) : (∀ j, ¬ Seen lm (w :: v :: ws) j) → Seen lm (w :: v :: ws).dropLast i →
      Katz lm (v :: ws) p s → Katz lm (w :: v :: ws) (p + lm.alphas ws.length i) (.dash :: s)
  | away (w v : Nat) (ws : List Nat) (p : Int) (s : List Step) : (∀ j, ¬ Seen lm (w :: v :: ws) j) → (∀ i, ¬ Seen lm (w :: v :: ws).dropLast i) →
      Katz lm (v :: ws) p s → Katz lm (w :: v :: ws) p (.cross :: s)

/-- The steps as digits to the base four, from a context of `c` words. -/
def code : Nat → List Step → Nat
  | _, [] => 0
  | c, .dash :: s => code (c - 1) s + 4 ^ (c - 1)
  | c, .cross :: s => code (c - 1) s + 2 * 4 ^ (c - 1)

/-- The steps as they are written: the length of an n-gram, the step, the length of the next. -/
def render : Nat → List Step → List Tok
  | c, [] => [.num (c + 1)]
  | c, .dash :: s => .num (c + 1) :: .dash :: render (c - 1) s
  | c, .cross :: s => .num (c + 1) :: .cross :: render (c - 1) s

end Verif.Bo
