import Verif.Chan.Model
/-!
# Cutting channels into chunks: vocabulary for the properties
-/
set_option autoImplicit false
namespace Verif.Chop
open Verif.Chan (Word Tok)

/-- The elements from the `a`th to the `b`th, counted from 1. -/
def slice {X : Type} (l : List X) (a b : Int) : List X := (l.drop (a - 1).toNat).take (b + 1 - a).toNat

/-- The words of a file do not overlap, and come in the order of their times. -/
def InOrder {K : Type} (ws : List (Word K)) : Prop :=
  (∀ w ∈ ws, 0 ≤ w.dur) ∧ ws.Pairwise fun a b => a.t1 + a.dur ≤ b.t1

/-- Each of the first words is over when any of the second begins. -/
def Before {K : Type} (xs ys : List (Word K)) : Prop := ∀ a ∈ xs, ∀ b ∈ ys, a.t1 + a.dur ≤ b.t1

/-- A file (conversation) that is in both the reference and the hypothesis: the words of its first channel, and those of its
second channel, if it has two. -/
structure Conv (F C : Type) where
  name : F
  ref1 : List (Tok (F × C))
  hyp1 : List (Tok (F × C))
  second : Option (List (Tok (F × C)) × List (Tok (F × C)))

section
variable {F C : Type}

/-- The words of the reference. -/
def Conv.ref (c : Conv F C) : List (Tok (F × C)) := c.ref1 ++ (match c.second with | some p => p.1 | none => [])

/-- The words of the hypothesis. -/
def Conv.hyp (c : Conv F C) : List (Tok (F × C)) := c.hyp1 ++ (match c.second with | some p => p.2 | none => [])

/-- The words `l` are of one channel of the file, and there are some. -/
def OneChannel (f : F) (ch : C) (l : List (Tok (F × C))) : Prop := l ≠ [] ∧ ∀ t ∈ l, t.w.key = (f, ch)

/-- The channels are as they should be: each has words in both files, and the two channels are different. -/
def Conv.Ok (c : Conv F C) : Prop :=
  ∃ a b, OneChannel c.name a c.ref1 ∧ OneChannel c.name b c.hyp1 ∧
    ∀ p, c.second = some p → ∃ a' b', a' ≠ a ∧ b' ≠ b ∧ OneChannel c.name a' p.1 ∧ OneChannel c.name b' p.2

/-- Files that follow each other have different names. -/
def Distinct : List (Conv F C) → Prop
  | [] => True
  | c :: cs => (∀ d, cs.head? = some d → d.name ≠ c.name) ∧ Distinct cs

end

end Verif.Chop
