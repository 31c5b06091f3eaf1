import Verif.Anovar.Spec
/-!
# Tables of percentages and their ranges: vocabulary for the properties
-/
set_option autoImplicit false
namespace Verif.Range
open Verif.Stats Verif.Anovar

/-- The words of a speaker: correct, substituted, deleted and inserted. -/
structure Counts where
  corr : Nat
  sub : Nat
  del : Nat
  ins : Nat
deriving DecidableEq

/-- A speaker's name. -/
abbrev Name := List Char

/-- A system's results: its speakers in the order they were met. -/
abbrev System := List (Name × Counts)

/-- The three percentages: correct words, errors, and word accuracy. -/
inductive Formula
  | R | E | W
deriving DecidableEq

/-- In per cent of `n` words; nothing for no words. -/
def per (x n : Nat) : Rat := 100 * (x : Rat) / (n : Rat)

/-- The percentage of a speaker's reference words. -/
def percentage : Formula → Counts → Rat
  | .R, c => per c.corr (c.corr + c.sub + c.del)
  | .E, c => per (c.sub + c.del + c.ins) (c.corr + c.sub + c.del)
  | .W, c => 100 - per (c.sub + c.del + c.ins) (c.corr + c.sub + c.del)

/-- The mean. -/
def mean (l : List Rat) : Rat := l.sum / (l.length : Rat)

/-- `x` is at least as good as `y`: fewer errors, or more words correct. -/
def NotWorse : Formula → Rat → Rat → Prop
  | .E, x, y => x ≤ y
  | _, x, y => y ≤ x

/-- `m` splits the values: at most half of them are below it, at most half above. -/
def Splits (l : List Rat) (m : Rat) : Prop := 2 * below l m ≤ l.length ∧ 2 * above l m ≤ l.length

/-- The median: the middle of the two values that split, none of them between these. -/
def IsMedian (l : List Rat) (m : Rat) : Prop :=
  Splits l m ∧ ∃ lo ∈ l, ∃ hi ∈ l, Splits l lo ∧ Splits l hi ∧ m = (lo + hi) / 2 ∧ ∀ x ∈ l, ¬ (lo < x ∧ x < hi)

/-- `h` is the largest of the values. -/
def IsMax (l : List Rat) (h : Rat) : Prop := h ∈ l ∧ ∀ x ∈ l, x ≤ h

/-- `h` is the smallest of the values. -/
def IsMin (l : List Rat) (h : Rat) : Prop := h ∈ l ∧ ∀ x ∈ l, h ≤ x

/-- Reading the fields of a line by a format: `%lf` takes a field, `%*s` leaves one out. -/
def scan {X : Type} : List Char → List X → List X
  | '%' :: 'l' :: 'f' :: r, x :: xs => x :: scan r xs
  | '%' :: '*' :: 's' :: r, _ :: xs => scan r xs
  | _, _ => []

/-- `x` and `y` are at most `d` apart. -/
def Near (d x y : Rat) : Prop := x - y ≤ d ∧ y - x ≤ d

end Verif.Range
