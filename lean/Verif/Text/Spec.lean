import Verif.Text.Model
/-!
# Specification vocabulary for texts
-/
set_option autoImplicit false
namespace Verif.Text

/-- The bytes of one complete character: as many as its first byte announces, none of them 0. -/
def IsChar (e : Enc) (c : List Nat) : Prop :=
  ∃ b rest, c = b :: rest ∧ nbytes e b = some c.length ∧ ∀ x ∈ c, 0 < x ∧ x < 256

/-- A text made of complete characters. -/
def Valid (e : Enc) (p : List Nat) : Prop := ∃ cs : List (List Nat), p = cs.flatten ∧ ∀ c ∈ cs, IsChar e c

/-- A code point's case counterpart as the user expects it: by the table of the language profile, else for ASCII
letters. -/
def foldCP (tbl : List (Nat × Nat)) (low : Bool) (cp : Nat) : Nat :=
  match known low cp tbl with
  | some o => o
  | none => if cp < 128 then cCase low cp else cp

/-- `bs` is the UTF-8 form of the code points `cps`: each nonzero and below 0x110000. -/
inductive Utf8 : List Nat → List Nat → Prop where
  | nil : Utf8 [] []
  | one {c : Nat} {cps bs : List Nat} : 0 < c → c < 0x80 → Utf8 cps bs → Utf8 (c :: cps) (c :: bs)
  | two {c x y : Nat} {cps bs : List Nat} : 0x80 ≤ c → c < 0x800 → c = x * 64 + y → y < 64 → Utf8 cps bs →
      Utf8 (c :: cps) ((0xC0 + x) :: (0x80 + y) :: bs)
  | three {c x y z : Nat} {cps bs : List Nat} : 0x800 ≤ c → c < 0x10000 → c = (x * 64 + y) * 64 + z → y < 64 → z < 64 →
      Utf8 cps bs → Utf8 (c :: cps) ((0xE0 + x) :: (0x80 + y) :: (0x80 + z) :: bs)
  | four {c w x y z : Nat} {cps bs : List Nat} : 0x10000 ≤ c → c < 0x110000 → c = ((w * 64 + x) * 64 + y) * 64 + z →
      x < 64 → y < 64 → z < 64 →
      Utf8 cps bs → Utf8 (c :: cps) ((0xF0 + w) :: (0x80 + x) :: (0x80 + y) :: (0x80 + z) :: bs)

/-- A word that can only be matched in part: it is longer than one byte and begins or ends with a hyphen. -/
def Fragment (t : List Nat) : Prop := t.length > 1 ∧ (t.head? = some 45 ∨ t.getLast? = some 45)

/-- Sorted in the order of the comparison. -/
def SortedBy (e : Enc) (l : List (List Nat)) : Prop :=
  ∀ (i j : Nat) (x y : List Nat), i < j → l[i]? = some x → l[j]? = some y → ∃ r, strcmp e x y = some r ∧ r ≤ 0

end Verif.Text
