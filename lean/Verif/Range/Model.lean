import Verif.Range.Spec
import Verif.Anovar.Model
/-!
# Model of the table of percentages (sclite `rank.c`) and of its ranges (sclite `range.c`)

`double` is modelled by `Rat`.
-/
set_option autoImplicit false
namespace Verif.Range
open Verif.Stats Verif.Anovar

/-- The macro `pct` (sctk.h:45). -/
def pct (num dem : Nat) : Rat := if dem = 0 then 0 else (num : Rat) / (dem : Rat) * 100

/-- The percentage of one group (rank.c:57-76); only the three formulas. -/
def groupPct (f : Formula) (c : Counts) : Rat :=
  match f with
  | .R => pct c.corr (c.corr + c.sub + c.del)
  | .E => pct (c.ins + c.sub + c.del) (c.corr + c.del + c.sub)
  | .W => 100 - pct (c.ins + c.sub + c.del) (c.corr + c.del + c.sub)

/-- The largest number of groups (rank.c:25-27). -/
def blocks (scor : List System) : Nat := scor.foldl (fun b s => if b < s.length then s.length else b) 0

/-- `blk_name[i]` (rank.c:39-41), `none` if not initialised. -/
def blkName (scor : List System) (i : Nat) : Option Name :=
  match scor with
  | [] => none
  | s :: _ => (s[i]?).map (fun g => g.1)

/-- `pcts[g][n]` (rank.c:55-77), `none` if not initialised. -/
def entry (f : Formula) (scor : List System) (g n : Nat) : Option Rat :=
  match scor[n]? with
  | none => none
  | some s => (s[g]?).map (fun x => groupPct f x.2)

/-- `init_RANK_struct_from_SCORES` (rank.c:19-83) up to the ranking: the names of the speakers and the table, `none` if memory that
has not been initialised is used. -/
def initRank (f : Formula) (scor : List System) : Option (List Name × Table) :=
  match (List.range (blocks scor)).mapM (blkName scor),
      (List.range (blocks scor)).mapM (fun g => (List.range scor.length).mapM (fun n => entry f scor g n)) with
  | some ns, some p => some (ns, p)
  | _, _ => none

/-- The ordering used for a formula (rank.c:79-82): whether low percentages come first. -/
def increasing (f : Formula) : Bool := f = .E

/-- The sums by which the systems are ordered (rank.c:148-156); the loops run over the systems outside and the speakers inside, here
over the speakers only. -/
def sysSums (t : Nat) (p : Table) : List Rat := rankSums t p

/-- The sums by which the speakers are ordered (rank.c:148-156). -/
def spkSums (p : Table) : List Rat := p.map (fun r => r.foldl (· + ·) 0)

/-- The high value of a row or column (range.c:104-109, 156-161). -/
def high (l : List Rat) : Rat := l.foldl (fun h x => if x > h then x else h) 0

/-- The low value of a row or column (range.c:105-111, 157-163). -/
def low (l : List Rat) : Rat := l.foldl (fun h x => if x < h then x else h) 100

/-- The mean of `calc_mean_var_std_dev_Zstat_double` (statdist.c:630-643). -/
def calcMean (l : List Rat) : Rat := if l.length = 0 then 0 else l.foldl (· + ·) 0 / (l.length : Rat)

/-- The median of `calc_mean_var_std_dev_Zstat_double` (statdist.c:630-657) and of the graphs (range.c:398-405, 425-431, 537-544, 585-591); `ptr` is what
`qsort` delivers. -/
def calcMedian (l : List Rat) (ptr : List Nat) : Rat :=
  if l.length = 0 then 0
  else if l.length = 1 then l.getD 0 0
  else if l.length % 2 = 0 then (l.getD (ptr.getD (l.length / 2) 0) 0 + l.getD (ptr.getD (l.length / 2 - 1) 0) 0) / 2
  else l.getD (ptr.getD (l.length / 2) 0) 0

/-- The square of the standard deviation (statdist.c:659-669). -/
def calcVariance (l : List Rat) : Rat :=
  let tmp := l.foldl (fun s x => s + (x - calcMean l) * (x - calcMean l)) 0
  if tmp ≠ 0 then tmp / ((l.length : Rat) - 1) else 0

/-- A column of a row of the graph (range.c:299-316); `s` is the scale, `sd` the standard deviation. -/
def cell (s : Nat) (m sd hi lo : Rat) (j : Nat) : Char :=
  let h : Rat := 1 / 10000 + (s : Rat) / 2
  if (j : Rat) > m - h ∧ (j : Rat) < m + h then '|'
  else if ((j : Rat) > m + sd - h ∧ (j : Rat) < m + sd + h) ∨ ((j : Rat) > m - sd - h ∧ (j : Rat) < m - sd + h) then '+'
  else if (j : Rat) > hi ∨ (j : Rat) < lo then ' '
  else '-'

/-- A row of the graph (range.c:298-317): columns `0, s, 2 s, …` up to 100. -/
def graphRow (s : Nat) (m sd hi lo : Rat) : List Char := (List.range (100 / s + 1)).map (fun k => cell s m sd hi lo (k * s))

/-- The format of the data of series `t` for gnuplot (range.c:558-562, 605-609), `none` if it overflows its 100 bytes. -/
def gnuFormat (t : Nat) : Option (List Char) :=
  let s := "%lf".toList ++ (List.replicate t "%*s".toList).flatten ++ "%lf".toList
  if s.length + 1 ≤ 100 then some s else none

/-- The formats of all series (range.c:557-565, 604-612). -/
def gnuFormats (n : Nat) : Option (List (List Char)) := (List.range n).mapM gnuFormat

/-- The names of the files for gnuplot (range.c:473-505), `none` if one of them overflows its 50 bytes. -/
def gnuNames (base : List Char) (forBlks : Bool) : Option (List (List Char)) :=
  let b := (if base = "-".toList then "STATS".toList else base) ++ (if forBlks then ".spk".toList else ".sys".toList)
  let fs := [b, b ++ ".dat".toList, b ++ ".mean".toList, b ++ ".median".toList, b ++ ".plt".toList]
  if fs.all (fun x => x.length + 1 ≤ 50) then some fs else none

end Verif.Range
