/-!
# Specification for tables and files of language models
-/
set_option autoImplicit false
namespace Verif.Slm

/-- Positions grow and indices do not fall, by at most `k` from one to the next. -/
def Steps (k : Nat) : List (Nat × Nat) → Prop
  | [] => True
  | [_] => True
  | (p, f) :: (p', f') :: ps => p < p' ∧ f ≤ f' ∧ f' ≤ f + k ∧ Steps k ((p', f') :: ps)

/-- The count of an n-gram in a file. -/
def total (g : List Nat) : List (List Nat × Int) → Int
  | [] => 0
  | (h, c) :: r => (if h = g then c else 0) + total g r

/-- The count of an n-gram in several files. -/
def totals (g : List Nat) : List (List (List Nat × Int)) → Int
  | [] => 0
  | f :: fs => total g f + totals g fs

/-- N-grams of n words with the numbers of words. -/
def Valid (n : Nat) (f : List (List Nat × Int)) : Prop := ∀ x ∈ f, x.1.length = n ∧ ∀ w ∈ x.1, w ≤ 65535

/-- In order, every n-gram once. -/
def Sorted (f : List (List Nat × Int)) : Prop := f.Pairwise (fun a b => a.1 < b.1)

end Verif.Slm
