/-!
# Specification for counting words and n-grams
-/
set_option autoImplicit false
namespace Verif.Count

/-- The n-grams of a text. -/
def windows (n : Nat) : List Nat → List (List Nat)
  | [] => []
  | w :: ws => if n ≤ ws.length + 1 then (w :: ws).take n :: windows n ws else []

/-- The sum of the counts of an n-gram in a file. -/
def total (g : List Nat) (f : List (List Nat × Nat)) : Nat := ((f.filter (fun e => decide (e.1 = g))).map Prod.snd).sum

/-- The sum of the counts of an n-gram in all files. -/
def totals (g : List Nat) (fs : List (List (List Nat × Nat))) : Nat := (fs.map (total g)).sum

end Verif.Count
