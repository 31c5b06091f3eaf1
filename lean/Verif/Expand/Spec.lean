import Verif.LineStyle.Spec
/-!
# Words with alternatives in RTTM files: vocabulary for the properties

In an RTTM file a word can hold alternatives: `_` and `#` stand for blanks, so `{_gonna_/_going_to_}` is the text
`{ gonna / going to }`.
-/
set_option autoImplicit false
namespace Verif.Expand
open Verif.LineStyle (Word Alts lex)

/-- The words of a path through a graph of tokens: `E` are the links, `L` the tokens that can come last, and `V` tells which word
sequences a token stands for; the path begins with the given token. -/
inductive Reads (E : Nat → Nat → Prop) (L : Nat → Prop) (V : Nat → List Word → Prop) : Nat → List Word → Prop where
  | last {x : Nat} {u : List Word} : L x → V x u → Reads E L V x u
  | step {x y : Nat} {u v : List Word} : V x u → E x y → Reads E L V y v → Reads E L V x (u ++ v)

/-- The word sequences of the paths from a token in `F` to a token in `L`. -/
def Lang (E : Nat → Nat → Prop) (F L : Nat → Prop) (V : Nat → List Word → Prop) (u : List Word) : Prop := ∃ x, F x ∧ Reads E L V x u

/-- A text that is taken apart: it holds `_`, or both braces. -/
def Marked (t : List Char) : Prop := '_' ∈ t ∨ ('{' ∈ t ∧ '}' ∈ t)

/-- The text with its blanks. -/
def blanked (t : List Char) : List Char := t.map (fun c => if c = '_' ∨ c = '#' then ' ' else c)

/-- The text is a transcript in the notation with alternatives. -/
def Written (t : List Char) (a : Alts) : Prop := a.Plain ∧ lex [] (blanked t) = a.text

/-- A word that may be missed is written in parentheses. -/
def deco (opt : Bool) (w : Word) : Word := if opt then '(' :: w ++ [')'] else w

/-- The concatenations of word sequences, one for each token. -/
def Joined (V : Nat → List Word → Prop) : List Nat → List Word → Prop
  | [], u => u = []
  | t :: ts, u => ∃ v w, u = v ++ w ∧ V t v ∧ Joined V ts w

end Verif.Expand
