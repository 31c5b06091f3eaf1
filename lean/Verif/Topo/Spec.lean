/-!
# Listing the tokens of a segment: vocabulary for the properties
-/
set_option autoImplicit false
namespace Verif.Topo

/-- A segment: its first tokens, the successors of each token, and which tokens are last tokens. -/
structure Seg where
  first : List Nat
  next : Nat → List Nat
  last : Nat → Bool

/-- A token that can be reached from a first token. -/
inductive Reach (s : Seg) : Nat → Prop where
  | first {t : Nat} : t ∈ s.first → Reach s t
  | step {t u : Nat} : Reach s t → u ∈ s.next t → Reach s u

/-- A token that can be reached through tokens that are not last tokens. -/
inductive Inner (s : Seg) : Nat → Prop where
  | first {t : Nat} : t ∈ s.first → Inner s t
  | step {t u : Nat} : Inner s t → s.last t = false → u ∈ s.next t → Inner s u

/-- The segment has finitely many tokens, those in `U`. -/
def Within (s : Seg) (U : List Nat) : Prop := (∀ t ∈ s.first, t ∈ U) ∧ ∀ t ∈ U, ∀ u ∈ s.next t, u ∈ U

/-- Every token of the listing stands behind all listed tokens it can follow. -/
def Topological (s : Seg) (l : List Nat) : Prop :=
  ∀ (i j : Nat) (t u : Nat), l[i]? = some t → l[j]? = some u → u ∈ s.next t → i < j

/-- A segment whose tokens are the chain `l`. -/
structure IsChain (s : Seg) (l : List Nat) : Prop where
  distinct : l.Nodup
  first : s.first = l.take 1
  next : ∀ (i : Nat) (t : Nat), l[i]? = some t → s.next t = (match l[i + 1]? with | some u => [u] | none => [])
  last : ∀ (i : Nat) (t : Nat), l[i]? = some t → (s.last t = true ↔ i + 1 = l.length)

end Verif.Topo
