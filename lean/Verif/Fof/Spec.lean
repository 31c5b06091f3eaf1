/-!
# Specification for the statistics of n-grams
-/
set_option autoImplicit false
namespace Verif.Fof

/-- The counts of the k-grams from the one with the words `q`, counted `t` times so far. -/
def runs (k : Nat) (q : List Nat) (t : Nat) : List (List Nat × Nat) → List Nat
  | [] => [t]
  | (g, c) :: r => if g.take k = q then runs k q (t + c) r else t :: runs k (g.take k) c r

/-- The counts of the k-grams of a file in order, in which n-grams with the same first `k` words stand together. -/
def counts (k : Nat) : List (List Nat × Nat) → List Nat
  | [] => []
  | (g, c) :: r => runs k (g.take k) c r

/-- How often a k-gram occurs in a file, wherever it stands. -/
def total (k : Nat) (q : List Nat) (file : List (List Nat × Nat)) : Nat := ((file.filter (fun e => e.1.take k == q)).map Prod.snd).sum

/-- Each n-gram is greater than the one before it, and all have `n` words. -/
def Ordered (n : Nat) (file : List (List Nat × Nat)) : Prop := file.Pairwise (fun a b => a.1 < b.1) ∧ ∀ e ∈ file, e.1.length = n

/-- The last n-gram has other first `k` words than the one before it, for a single one than zeros only. -/
def Fresh (n k : Nat) : List Nat → List (List Nat × Nat) → Prop
  | _, [] => False
  | prev, [(g, _)] => g.take k ≠ prev.take k
  | _, (g, _) :: e :: r => Fresh n k g (e :: r)

end Verif.Fof
