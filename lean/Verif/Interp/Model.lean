/-!
# Weights for interpolation (src/sclite/slm_v2/src/interpolate.c)

Numbers are rational numbers, without rounding. The weights of one tag, since those of different tags do not meet. How often the step is repeated depends on the perplexities (logarithms) and is a parameter. Not modelled: options, files, messages, perplexities.
-/
set_option autoImplicit false
namespace Verif.Interp

/-- A sum over the models: src/sclite/slm_v2/src/interpolate.c 86-91, 574-579. -/
def sum : Nat → (Nat → Rat) → Rat
  | 0, _ => 0
  | m + 1, f => sum m f + f m

/-- `total_prob` of an item: src/sclite/slm_v2/src/interpolate.c 86-91. -/
def total (m : Nat) (l p : Nat → Rat) : Rat := sum m (fun i => l i * p i)

/-- `fractions` of a model, over the items with the tag: src/sclite/slm_v2/src/interpolate.c 78-94. -/
def fractions (m : Nat) (l : Nat → Rat) (i : Nat) : List (Nat → Rat) → Rat
  | [] => 0
  | p :: r => l i * p i / total m l p + fractions m l i r

/-- The new weights, where `n` is `n_train_in_tag`: src/sclite/slm_v2/src/interpolate.c 571-590. -/
def reest (m : Nat) (fixed : Nat → Bool) (n : Nat) (l fr : Nat → Rat) (i : Nat) : Rat :=
  if fixed i then l i
  else fr i / (n : Rat) * (sum m (fun j => if fixed j then 0 else l j) / (sum m (fun j => if fixed j then 0 else fr j) / (n : Rat)))

/-- One iteration: src/sclite/slm_v2/src/interpolate.c 569-592. -/
def step (m : Nat) (fixed : Nat → Bool) (n : Nat) (items : List (Nat → Rat)) (l : Nat → Rat) : Nat → Rat :=
  if decide (n = 0) then l else reest m fixed n l (fun i => fractions m l i items)

/-- The weights after some iterations: src/sclite/slm_v2/src/interpolate.c 561-607. -/
def train (m : Nat) (fixed : Nat → Bool) (n : Nat) (items : List (Nat → Rat)) (l : Nat → Rat) : Nat → Nat → Rat
  | 0 => l
  | k + 1 => step m fixed n items (train m fixed n items l k)

/-- `n_train_in_tag`: src/sclite/slm_v2/src/interpolate.c 519-523. -/
def inTag (tags : List Nat) (ntest t : Nat) : Nat := (tags.take (tags.length - ntest)).count t

/-- The items for training, by number, with `-test_first` if `first`: src/sclite/slm_v2/src/interpolate.c 593-606. -/
def trained {α : Type} (first : Bool) (ntest : Nat) (items : List α) : List α :=
  if first then items.drop ntest else items.take (items.length - ntest)

end Verif.Interp
