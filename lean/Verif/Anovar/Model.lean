import Verif.Anovar.Spec
import Verif.Stats.Model
/-!
# Model of the analysis of variance by ranks (sclite `rank.c`, `anovar.c`)

`double` is modelled by `Rat`, products of `int` are taken not to overflow.  Square roots are avoided by comparing squares.  The
ranks of the speakers are represented by columns: one list for each system.  Printing is left out.
-/
set_option autoImplicit false
namespace Verif.Anovar
open Verif.Stats

/-- The ranks of each row (rank.c:117-123, and for the columns 127-142); the pointers are what `qsort` delivers for the row. -/
def rankRows (rows : Table) (ptrs : List (List Nat)) : Table :=
  List.zipWith (fun row ptr => (rankArr row ptr).map (fun r => r.getD 0)) rows ptrs

/-- Summing the ranks (anovar.c:73-77). -/
def rankSums (n : Nat) (ranks : Table) : List Rat :=
  ranks.foldl (fun acc r => List.zipWith (· + ·) acc r) (List.replicate n 0)

/-- `dsum_sqr` (anovar.c:242-250). -/
def dsumSqr (l : List Rat) : Rat := l.foldl (fun tot x => tot + x * x) 0

/-- Counting a rank in `sort_arr` and `sort_count` (anovar.c:284-291, 324-331); `none` beyond the end of the arrays. -/
def bump (v : Rat) : List (Rat × Nat) → Option (List (Rat × Nat))
  | [] => none
  | (a, c) :: rest => if a ≠ 0 ∧ v ≠ a then (bump v rest).map ((a, c) :: ·) else some ((v, c + 1) :: rest)

/-- The ties of one row (anovar.c:279-296, 319-336): the arrays have `n` entries, the first `lim` of which are summed up; `none`
beyond the end of the arrays. -/
def ties (lim n : Nat) (row : List Rat) : Option Rat :=
  match row.foldlM (fun st v => bump v st) (List.replicate n (0, 0)) with
  | none => none
  | some st =>
    if lim ≤ n then some (((st.take lim).map (fun x => (x.2 : Rat) * (x.2 : Rat) * (x.2 : Rat) - (x.2 : Rat))).sum) else none

/-- `calc_adjust_for_trt` (anovar.c:270-305) with `lim = n`, and `calc_adjust_for_blks` (anovar.c:310-344) with `lim` the number of
systems: `n` entries per row, `m` rows. -/
def adjust (lim n m : Nat) (ranks : Table) : Option Rat :=
  match ranks.mapM (ties lim n) with
  | none => none
  | some ts => some (1 - ts.sum / ((m : Rat) * (n : Rat) * ((n : Rat) * (n : Rat) - 1)))

/-- The statistic of `analyze_rank_sum` (anovar.c:144-165). -/
def statistic (n m : Nat) (sums : List Rat) (adj : Rat) : Rat :=
  let x := 12 / ((m : Rat) * (n : Rat) * ((n : Rat) + 1)) * dsumSqr sums - 3 * (m : Rat) * ((n : Rat) + 1)
  if adj = 0 then 0 else x / adj

/-- The levels for 5%, in hundredths (`X2.df[df].level[GEN_X2_PER]`, statdist.c:50-560). -/
def levels : List Nat := [384, 599, 782, 949, 1107, 1259, 1407, 1551, 1692, 1831, 1968, 2103, 2236, 2368, 2500, 2630, 2759, 2887,
  3014, 3141, 3267, 3392, 3517, 3642, 3765, 3888, 4011, 4134, 4256, 4377]

/-- Whether `analyze_rank_sum` finds a difference (anovar.c:145-149, 173-177). -/
def differs (n : Nat) (x : Rat) : Bool := decide (x > ((levels.getD (min (n - 2) 29) 0 : Nat) : Rat) / 100)

/-- The scores and the areas outside of them in `Z1tail`, in thousandths (statdist.c:35-46). -/
def z1tail : List (Nat × Nat) := [(2330, 10), (2055, 20), (1881, 30), (1751, 40), (1645, 50), (1555, 60), (1474, 70), (1405, 80),
  (1340, 90), (1381, 100)]

/-- The search of `calc_comp_value` (anovar.c:411-418). -/
def zLook (area : Rat) : List (Nat × Nat) → Nat
  | [] => 1381
  | [(z, _)] => z
  | (z, e) :: x :: rest => if area < (e : Rat) / 1000 then z else zLook area (x :: rest)

/-- `calc_comp_value` (anovar.c:404-419), for at least two systems. -/
def compValue (n : Nat) : Rat := (zLook (5 / 100 / ((n : Rat) * ((n : Rat) - 1))) z1tail : Rat) / 1000

/-- The comparison of two sums (anovar.c:388-394): `|x - y| ≥ z √q` as a comparison of squares. -/
def compareSums (z q x y : Rat) : Int := if (x - y) * (x - y) ≥ z * z * q then (if x > y then 1 else -1) else 0

/-- `calc_stat_ranks` (anovar.c:374-398): the entry for `i` and `j`. -/
def statRank (n m : Nat) (sums : List Rat) (i j : Nat) : Int :=
  let q := (m : Rat) * (n : Rat) * ((n : Rat) - 1) / 6
  if i < j then compareSums (compValue n) q (sums.getD i 0) (sums.getD j 0)
  else if j < i then - compareSums (compValue n) q (sums.getD j 0) (sums.getD i 0)
  else 0

/-- The analysis of one direction: statistic and difference, `none` for undefined behaviour (anovar.c:137-178). -/
def analyze (lim n m : Nat) (ranks : Table) : Option (Rat × Bool) :=
  match adjust lim n m ranks with
  | none => none
  | some a => some (statistic n m (rankSums n ranks) a, differs n (statistic n m (rankSums n ranks) a))

/-- `compute_anovar` (anovar.c:44-123) for `b` speakers and `t` systems: the analysis of the systems, the entries of
`out_sys_winner`, and the analysis of the speakers.  The multiple comparison does not depend on the analysis: the `if` before it
has no braces. -/
def computeAnovar (b t : Nat) (pcts : Table) (ptrsT ptrsB : List (List Nat)) :
    Option ((Rat × Bool) × (Nat → Nat → Int) × (Rat × Bool)) :=
  match analyze t t b (rankRows pcts ptrsT), analyze t b t (rankRows (columns t pcts) ptrsB) with
  | some x, some y => some (x, statRank t b (rankSums t (rankRows pcts ptrsT)), y)
  | _, _ => none

end Verif.Anovar
