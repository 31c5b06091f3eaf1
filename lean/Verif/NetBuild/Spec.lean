import Verif.NetBuild.Model
import Verif.Net.Spec
/-!
# Texts with alternatives (sclite): vocabulary for the properties
-/
set_option autoImplicit false
namespace Verif.NetBuild
open Verif.Net Verif.Text Verif.Split Verif.Lines

mutual
/-- An item of a text: a word, or a group of alternatives. -/
inductive Item where
  | word (w : List Nat)
  | alt (a : Alts)
/-- A sequence of items. -/
inductive Seq where
  | nil
  | cons (i : Item) (s : Seq)
/-- One or more alternatives. -/
inductive Alts where
  | one (s : Seq)
  | or (s : Seq) (a : Alts)
end

/-- White space. -/
def Blank (t : List Nat) : Prop := ∀ c ∈ t, isSpace c = true

/-- Bytes that can stand in a word: no white space and no opening brace; inside a group no slash and no closing brace
either. -/
def Spelling (inside : Bool) (w : List Nat) : Prop :=
  w ≠ [] ∧ ∀ c ∈ w, isSpace c = false ∧ c ≠ 123 ∧ (inside = true → c ≠ 47 ∧ c ≠ 125)

mutual
/-- `s.Writes inside t`: the text `t` is a way of writing the sequence.  Items are separated by white space, of which
there can be any amount; none is needed after a group. -/
inductive Seq.Writes : Seq → Bool → List Nat → Prop where
  | nil (inside : Bool) (b : List Nat) : Blank b → Seq.Writes .nil inside b
  | word (inside : Bool) (b w t : List Nat) (s : Seq) : Blank b → Spelling inside w →
      (t = [] ∨ ∃ c t', t = c :: t' ∧ isSpace c = true) → Seq.Writes s inside t →
      Seq.Writes (.cons (.word w) s) inside (b ++ w ++ t)
  | alt (inside : Bool) (b g t : List Nat) (a : Alts) (s : Seq) : Blank b → Alts.Writes a g → Seq.Writes s inside t →
      Seq.Writes (.cons (.alt a) s) inside (b ++ [123] ++ g ++ [125] ++ t)
/-- `a.Writes t`: a way of writing alternatives, separated by slashes. -/
inductive Alts.Writes : Alts → List Nat → Prop where
  | one (s : Seq) (t : List Nat) : Seq.Writes s true t → Alts.Writes (.one s) t
  | or (s : Seq) (a : Alts) (t t' : List Nat) : Seq.Writes s true t → Alts.Writes a t' →
      Alts.Writes (.or s a) (t ++ [47] ++ t')
end

mutual
/-- The word sequences an item can be read as. -/
def Item.den (e : Enc) : Item → List Parts → Prop
  | .word w, u => ∃ p, parseText e w = some p ∧ u = [p]
  | .alt a, u => a.den e u
/-- The word sequences a sequence of items can be read as. -/
def Seq.den (e : Enc) : Seq → List Parts → Prop
  | .nil, u => u = []
  | .cons i s, u => ∃ v w, u = v ++ w ∧ i.den e v ∧ s.den e w
/-- The word sequences alternatives can be read as. -/
def Alts.den (e : Enc) : Alts → List Parts → Prop
  | .one s, u => s.den e u
  | .or s a, u => s.den e u ∨ a.den e u
end

mutual
/-- Every word can be taken apart, and no alternative is empty. -/
def Item.Ok (e : Enc) : Item → Prop
  | .word w => ∃ p, parseText e w = some p
  | .alt a => a.Ok e
/-- The same for sequences. -/
def Seq.Ok (e : Enc) : Seq → Prop
  | .nil => True
  | .cons i s => i.Ok e ∧ s.Ok e
/-- The same for alternatives. -/
def Alts.Ok (e : Enc) : Alts → Prop
  | .one s => s ≠ .nil ∧ s.Ok e
  | .or s a => (s ≠ .nil ∧ s.Ok e) ∧ a.Ok e
end

mutual
/-- How deeply groups are nested. -/
def Item.depth : Item → Nat
  | .word _ => 0
  | .alt a => a.depth + 1
/-- How deeply groups are nested. -/
def Seq.depth : Seq → Nat
  | .nil => 0
  | .cons i s => max i.depth s.depth
/-- How deeply groups are nested. -/
def Alts.depth : Alts → Nat
  | .one s => s.depth
  | .or s a => max s.depth a.depth
end

end Verif.NetBuild
