import Verif.Det.Model
/-!
# Specification vocabulary for curves and histograms
-/
set_option autoImplicit false
namespace Verif.Det
open Verif.Sgml (Entry)

/-- With the threshold `θ`, `a` of the correct words are lost and `b` of the wrong ones are removed; words at the threshold may be on either
side. -/
def AtThreshold (T F : List Rat) (θ : Rat) (a b : Nat) : Prop :=
  (T.countP (· < θ) ≤ a ∧ a ≤ T.countP (· ≤ θ)) ∧ F.countP (· < θ) ≤ b ∧ b ≤ F.countP (· ≤ θ)

/-- The same but for one word more on either side. -/
def NearThreshold (T F : List Rat) (θ : Rat) (a b : Nat) : Prop :=
  (T.countP (· < θ) ≤ a + 1 ∧ a ≤ T.countP (· ≤ θ)) ∧ F.countP (· < θ) ≤ b + 1 ∧ b ≤ F.countP (· ≤ θ)

/-- The confidence of a word that was heard, if it is not empty, and whether it is correct. -/
def heard {W : Type} (conf : W → Rat) (isNull : W → Bool) : Entry W → Option (Rat × Bool)
  | .del _ => none
  | .ins b => if isNull b then none else some (conf b, false)
  | .pair ev _ b => if isNull b then none else some (conf b, decide (ev = .corr))

/-- The confidence `c` belongs to bin `i` of `nbin`: it is between `i/nbin` and `(i+1)/nbin`; the upper bound belongs to the next bin, but 1
to the last. -/
def InBin (nbin i : Nat) (c : Rat) : Prop := i < nbin ∧ (i : Rat) ≤ c * nbin ∧ (c * nbin < (i : Rat) + 1 ∨ c = 1 ∧ i + 1 = nbin)

instance (nbin i : Nat) (c : Rat) : Decidable (InBin nbin i c) := by unfold InBin; infer_instance

/-- The positions of the words in an order of increasing confidence. -/
def IsSort (words : List (Rat × Bool)) (ptr : List Nat) : Prop :=
  ptr.Perm (List.range words.length) ∧ ptr.Pairwise fun i j => ∀ (v w : Rat × Bool), words[i]? = some v → words[j]? = some w → v.1 ≤ w.1

/-- What a bin says of its words. -/
structure Describes (k : Chunk) (ws : List (Rat × Bool)) : Prop where
  corr : k.corr = ws.countP (·.2)
  err : k.err = ws.countP (!·.2)
  min : (∀ w ∈ ws, k.min ≤ w.1) ∧ ∃ w ∈ ws, k.min = w.1
  max : (∀ w ∈ ws, w.1 ≤ k.max) ∧ ∃ w ∈ ws, k.max = w.1

end Verif.Det
