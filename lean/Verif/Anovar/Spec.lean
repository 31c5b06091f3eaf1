import Verif.Stats.Spec
/-!
# Friedman's analysis of variance by ranks: vocabulary for the properties

The results are a table with a row per speaker and a column per system.
-/
set_option autoImplicit false
namespace Verif.Anovar
open Verif.Stats

/-- A table of numbers, as its rows. -/
abbrev Table := List (List Rat)

/-- `b` rows of `t` entries. -/
def Shape (b t : Nat) (p : Table) : Prop := p.length = b ∧ ∀ r ∈ p, r.length = t

/-- The place of `x` in a row, equal values sharing the average of their places: from low to high, or with `dec` from high to
low. -/
def place (dec : Bool) (row : List Rat) (x : Rat) : Rat :=
  averagePlace (if dec then above row x else below row x) (same row x)

/-- The places of the entries of a row. -/
def places (dec : Bool) (row : List Rat) : List Rat := row.map (place dec row)

/-- For each row the order in which its entries come when sorted: from low to high, or with `dec` from high to low. -/
def Orders (dec : Bool) (rows : Table) (ptrs : List (List Nat)) : Prop :=
  ptrs.length = rows.length ∧ ∀ x ∈ rows.zip ptrs, if dec then Descending x.1 x.2 else Ascending x.1 x.2

/-- Column `j` of a table. -/
def column (p : Table) (j : Nat) : List Rat := p.map (fun r => r.getD j 0)

/-- The columns of a table with `t` columns. -/
def columns (t : Nat) (p : Table) : Table := (List.range t).map (column p)

/-- The sum of the squared distances from `c`. -/
def spread (c : Rat) (l : List Rat) : Rat := (l.map (fun x => (x - c) * (x - c))).sum

/-- Friedman's statistic for places in `b` rows and `t` columns: `t - 1` times the spread of the column sums around their mean in
proportion to the spread of the places around their mean; 0 if everything is tied. -/
def friedman (b t : Nat) (r : Table) : Rat :=
  ((t : Rat) - 1) * spread ((b : Rat) * ((t : Rat) + 1) / 2) ((columns t r).map (fun c => c.sum)) /
    spread (((t : Rat) + 1) / 2) r.flatten

/-- The values exceeded with a probability of 5% by chi-square with 1, 2, …, 30 degrees of freedom, in thousandths. -/
def chi5 : List Nat := [3841, 5991, 7815, 9488, 11070, 12592, 14067, 15507, 16919, 18307, 19675, 21026, 22362, 23685, 24996, 26296,
  27587, 28869, 30144, 31410, 32671, 33924, 35172, 36415, 37652, 38885, 40113, 41337, 42557, 43773]

end Verif.Anovar
