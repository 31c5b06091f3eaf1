import Verif.Lines.Model
/-!
# Specification vocabulary for lines and fields
-/
set_option autoImplicit false
namespace Verif.Lines
open Verif.Text

/-- `ls` are the lines of the file `s`: each but possibly the last ends with its only newline, none is empty. -/
inductive IsLines : List Nat → List (List Nat) → Prop where
  | nil : IsLines [] []
  | last {l : List Nat} : l ≠ [] → 10 ∉ l → IsLines l [l]
  | cons {l s : List Nat} {ls : List (List Nat)} : 10 ∉ l → IsLines s ls → IsLines (l ++ 10 :: s) ((l ++ [10]) :: ls)

/-- `ts` are the fields of the sequence `cs`: the maximal runs of elements that are no separators. -/
inductive Fields (sep : List Nat → Prop) : List (List Nat) → List (List (List Nat)) → Prop where
  | nil : Fields sep [] []
  | skip {c : List Nat} {cs : List (List Nat)} {ts : List (List (List Nat))} : sep c → Fields sep cs ts → Fields sep (c :: cs) ts
  | last {t : List (List Nat)} : t ≠ [] → (∀ c ∈ t, ¬ sep c) → Fields sep t [t]
  | tok {t cs : List (List Nat)} {c : List Nat} {ts : List (List (List Nat))} : t ≠ [] → (∀ x ∈ t, ¬ sep x) → sep c →
      Fields sep cs ts → Fields sep (t ++ c :: cs) (t :: ts)

/-- A character that separates: one byte, in the set. -/
def IsSep (set : List Nat) (c : List Nat) : Prop := ∃ b, c = [b] ∧ b ∈ set

/-- A piece of a transcript: a word, or alternatives (each a list of words). -/
inductive Item where
  | word (w : List Nat)
  | alt (first : List (List Nat)) (others : List (List (List Nat)))

/-- How a transcript is written: alternatives in braces, separated by slashes. -/
def Item.tokens : Item → List (List Nat)
  | .word w => [w]
  | .alt first others => [123] :: first ++ others.flatMap (fun a => [47] :: a) ++ [[125]]

/-- The words of the transcript with the first alternative chosen everywhere; `@` stands for no word. -/
def Item.firstWords : Item → List (List Nat)
  | .word w => if w = [64] then [] else [w]
  | .alt first _ => first.filter (· ≠ [64])

/-- An ordinary word: it does not begin with a brace or a slash. -/
def Plain (w : List Nat) : Prop := w.head? ≠ some 123 ∧ w.head? ≠ some 125 ∧ w.head? ≠ some 47

/-- All words of the transcript are ordinary. -/
def Item.Plain : Item → Prop
  | .word w => Lines.Plain w
  | .alt first others => (∀ w ∈ first, Lines.Plain w) ∧ ∀ a ∈ others, ∀ w ∈ a, Lines.Plain w

/-- A unit of a text with quotes: a character other than the quote, or a quoted stretch. -/
def IsUnit (e : Enc) (c : List Nat) : Prop :=
  (IsChar e c ∧ c ≠ [34]) ∨ (∃ body, c = 34 :: body ++ [34] ∧ 34 ∉ body)

/-- A text with quotes as a sequence of units; a quote without a partner extends to the end. -/
inductive Units (e : Enc) : List (List Nat) → Prop where
  | nil : Units e []
  | unclosed {body : List Nat} : 34 ∉ body → Units e [34 :: body]
  | cons {u : List Nat} {us : List (List Nat)} : IsUnit e u → Units e us → Units e (u :: us)

end Verif.Lines
