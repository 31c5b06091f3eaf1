/-!
# Vocabulary for token properties: edits of strings, prefixes, suffixes

Independent of the model.
-/
set_option autoImplicit false
namespace Verif.Token

/-- One single-character edit. -/
inductive Edit {α : Type} : List α → List α → Prop
  | insert (p q : List α) (c : α) : Edit (p ++ q) (p ++ c :: q)
  | delete (p q : List α) (c : α) : Edit (p ++ c :: q) (p ++ q)
  | subst (p q : List α) (a b : α) : Edit (p ++ a :: q) (p ++ b :: q)

/-- `s` is turned into `t` by exactly `n` single-character edits. -/
inductive Edits {α : Type} : Nat → List α → List α → Prop
  | refl (s : List α) : Edits 0 s s
  | step (n : Nat) (s u t : List α) : Edit s u → Edits n u t → Edits (n + 1) s t

/-- `n` is the minimum number of single-character insertions, deletions and substitutions turning `s` into
`t`. -/
def IsEditDistance {α : Type} (s t : List α) (n : Nat) : Prop :=
  Edits n s t ∧ ∀ k, Edits k s t → n ≤ k

/-- What a marking says about a word: whole word, beginning of a word (`wo-`), end of a word (`-rd`). -/
inductive Mark where
  | whole | beginning | ending
  deriving Repr, DecidableEq

/-- How a word is written in a transcript: hyphen on the missing side, parentheses when optional. -/
def written (optional : Bool) (mark : Mark) (w : List Char) : List Char :=
  let m := match mark with
    | .whole => w
    | .beginning => w ++ ['-']
    | .ending => '-' :: w
  if optional then '(' :: m ++ [')'] else m

/-- When two marked words count as the same word (`x`, `y` are the visible letters). -/
def SameWord : Mark → List Char → Mark → List Char → Prop
  | .whole, x, .whole, y => x = y
  | .whole, x, .beginning, y => y <+: x
  | .whole, x, .ending, y => y <:+ x
  | .beginning, x, .whole, y => x <+: y
  | .beginning, x, .beginning, y => y <:+: x ∨ x <:+: y
  | .beginning, _, .ending, _ => False
  | .ending, x, .whole, y => x <:+ y
  | .ending, _, .beginning, _ => False
  | .ending, x, .ending, y => y <:+ x ∨ x <:+ y

/-- A word whose letters can be told from its marks: not empty, no hyphen at either end, and not itself in
parentheses. -/
def PlainWord (w : List Char) : Prop :=
  w ≠ [] ∧ w.head? ≠ some '-' ∧ w.getLast? ≠ some '-' ∧ ¬ (w.head? = some '(' ∧ w.getLast? = some ')')

end Verif.Token
