import Verif.Perp.Model
/-!
# Specification for the perplexity of a text
-/
set_option autoImplicit false
namespace Verif.Perp

/-- The last `k` words of a list. -/
def last (k : Nat) (h : List Nat) : List Nat := h.drop (h.length - k)

/-- Whether a word counts: it is no context cue, and known unless unknown words are included. -/
def counts (lm : Lm) (id : Nat) : Bool := !lm.cue id && (lm.unks || decide (id ≠ 0))

/-- The probabilities of the words that count, each after the words before it, at most one less than the order of the model; `h` are the words before the text. -/
def scored (lm : Lm) (h : List Nat) : List Nat → List Prob
  | [] => []
  | w :: ws => (if counts lm w then [lm.pr w (last (lm.n - 1) h)] else []) ++ scored lm (h ++ [w]) ws

/-- The number of words of the longest n-gram used, less one, from the steps of backing off, the longest context first: a step that is not zero is one of backing off. -/
def used : List Nat → Nat
  | [] => 0
  | d :: ds => if d = 0 then ds.length + 1 else used ds

/-- Steps as a number with four as base. -/
def code : List Nat → Nat
  | [] => 0
  | d :: ds => d * 4 ^ ds.length + code ds

/-- A mark for inclusive or exclusive backing off: only its first letter matters. -/
def Mark (m : String) (b : Bool) : Prop :=
  (b = true ∧ (m.toList.head? = some 'i' ∨ m.toList.head? = some 'I')) ∨ (b = false ∧ (m.toList.head? = some 'e' ∨ m.toList.head? = some 'E'))

/-- The last line of a list for the number `k`, each line with a word and a mark. -/
def lastFor (look : String → Nat) (k : Nat) (es : List (String × Bool)) : Option Bool :=
  ((es.filter (fun e => decide (look e.1 = k))).getLast?).map Prod.snd

end Verif.Perp
