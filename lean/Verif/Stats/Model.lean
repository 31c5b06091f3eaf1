import Verif.Stats.Table
/-!
# Model of the ranking (`order.c`) and of the sign, McNemar and Wilcoxon tests

`double` is modelled by `Rat`; square roots are avoided by comparing squares.  Verdicts are as in the code: −1 the first
system is better, 1 the second, 0 no difference.
-/
set_option autoImplicit false
namespace Verif.Stats

/-- `arr[ptr_arr[j]]` (order.c:217). -/
def at' (arr : List Rat) (ptr : List Nat) (j : Nat) : Rat := arr.getD (ptr.getD j 0) 0

/-- The `while` loop for the last duplicate (order.c:219-223, 259-263). -/
def runEnd (arr : List Rat) (ptr : List Nat) : Nat → Nat → Nat
  | 0, c => c
  | f + 1, c => if c < ptr.length - 1 ∧ at' arr ptr c = at' arr ptr (c + 1) then runEnd arr ptr f (c + 1) else c

/-- `tmp` (order.c:225-227). -/
def placeSum (j c : Nat) : Nat := (List.range' j (c + 1 - j)).sum

/-- Writing the same rank for the positions of a run (order.c:229-230). -/
def fill (ptr : List Nat) (r : Rat) : List Nat → List (Option Rat) → List (Option Rat)
  | [], out => out
  | i :: is, out => fill ptr r is (out.set (ptr.getD i 0) (some r))

/-- The loop of `rank_int_arr` and `rank_double_arr` (order.c:215-238, 257-274).  An entry never written is `none`. -/
def rankLoop (arr : List Rat) (ptr : List Nat) : Nat → Nat → List (Option Rat) → List (Option Rat)
  | 0, _, out => out
  | f + 1, j, out =>
    if j < ptr.length then
      if j < ptr.length - 1 ∧ at' arr ptr j = at' arr ptr (j + 1) then
        let c := runEnd arr ptr ptr.length j
        rankLoop arr ptr f (c + 1)
          (fill ptr ((placeSum j c : Rat) / ((c + 1 - j : Nat) : Rat) + 1) (List.range' j (c + 1 - j)) out)
      else rankLoop arr ptr f (j + 1) (out.set (ptr.getD j 0) (some ((j : Rat) + 1)))
    else out

/-- `rank_int_arr`, `rank_double_arr` (order.c:206-275); `ptr` is what `qsort` delivers (`sort_int_arr`,
`sort_double_arr`, order.c:95-127), any sorted permutation of the positions.  The int comparison by subtraction is taken
not to overflow. -/
def rankArr (arr : List Rat) (ptr : List Nat) : List (Option Rat) :=
  rankLoop arr ptr ptr.length 0 (List.replicate ptr.length none)

/-- `seq_mult` (statdist.c:804-811). -/
def seqMult (f t : Nat) : Rat := ((List.range' f (t + 1 - f)).map (fun (i : Nat) => (i : Rat))).foldl (· * ·) 1

/-- `n_CHOOSE_r` (statdist.c:816-819), for `r ≤ n`. -/
def nChooseR (n r : Nat) : Rat := seqMult (r + 1) n / seqMult 1 (n - r)

/-- The search of `normprob` (statdist.c:1072-1078): `q` is the square of the argument, `prev` the value of the entry
before. -/
def normLook (q : Rat) : Nat → List (Nat × Nat) → Nat
  | prev, [] => prev
  | prev, (z, v) :: rest =>
    if q < ((z : Rat) / 10000000) * ((z : Rat) / 10000000) then prev
    else if q = ((z : Rat) / 10000000) * ((z : Rat) / 10000000) then v
    else normLook q v rest

/-- `normprob` of a number whose square is `q` (statdist.c:1068-1080). -/
def normprobSq (q : Rat) : Rat :=
  (normLook q (fnorm.getD 0 0) (znorm.zip fnorm).tail : Rat) / 10000000

/-- `compute_acc_binomial` (statdist.c:766-797). -/
def accBinomial (R n : Nat) (p : Rat) : Rat :=
  if (n : Rat) * p * (1 - p) ≤ 5 then
    ((List.range (R + 1)).map (fun (r : Nat) => nChooseR n r * p ^ r * (1 - p) ^ (n - r))).foldl (· + ·) 0
  else
    let d := (R : Rat) * (1 / 2) - (n : Rat) * p
    let s := normprobSq (d * d / ((n : Rat) * p * (1 - p)))
    if d < 0 then 1 - s else s

/-- `compute_McNemar` with `do_McNemar` (sentmcn.c:147-176, 336-407): `a` is `table[1][0]`, `b` is `table[0][1]`. -/
def mcNemar (a b : Nat) : Int :=
  if (b = 0 ∧ a = 0) ∨ b = a then 0
  else if 2 * accBinomial (min a b) (a + b) (1 / 2) < 1 / 20 then (if a > b then 1 else -1) else 0

/-- `e1`, `e2` (sentmcn.c:110-123): some entry of the path is not correct; an entry is given by "is correct". -/
def hasError : List Bool → Bool
  | [] => false
  | c :: cs => if c = false then true else hasError cs

/-- The loop over the second system's sentences (sentmcn.c:107-127), how many raise `table[a][b]`. -/
def matchSents {I : Type} [DecidableEq I] (id : I) (e1 a b : Bool) : List (I × Bool) → Nat
  | [] => 0
  | s :: ss => (if s.1 = id then (if e1 = a ∧ s.2 = b then 1 else 0) else 0) + matchSents id e1 a b ss

/-- The first speaker of that name (sentmcn.c:98-102). -/
def findSpkr {N X : Type} [DecidableEq N] (name : N) : List (N × X) → Option X
  | [] => none
  | g :: gs => if name = g.1 then some g.2 else findSpkr name gs

/-- `table[a][b]` of `do_McNemar_by_sent` (sentmcn.c:88-141).  A sentence is its id and whether it has an error. -/
def mcTable {N I : Type} [DecidableEq N] [DecidableEq I] (x y : List (N × List (I × Bool))) (a b : Bool) : Nat :=
  (x.map (fun g => match findSpkr g.1 y with
    | some ss => (g.2.map (fun s => matchSents s.1 s.2 a b ss)).sum
    | none => 0)).sum

/-- `do_McNemar_by_sent` (sentmcn.c:88-141). -/
def mcNemarBySent {N I : Type} [DecidableEq N] [DecidableEq I] (x y : List (N × List (I × Bool))) : Int :=
  mcNemar (mcTable x y true false) (mcTable x y false true)

/-- `fabs`. -/
def absR (x : Rat) : Rat := if x < 0 then -x else x

/-- The counts (plus, minus, equal) of the sign test (signtest.c:151-168). -/
def signCounts : List (Rat × Rat) → Nat × Nat × Nat
  | [] => (0, 0, 0)
  | p :: ps =>
    let (a, b, z) := signCounts ps
    if absR (p.1 - p.2) ≤ 5 / 1000 then (a, b, z + 1)
    else if p.1 < p.2 then (a, b + 1, z)
    else (a + 1, b, z)

/-- `sign_test_analysis` (signtest.c:222-303). -/
def signAnalysis (a b z : Nat) (zeroBest : Bool) : Int :=
  let b := b + (z / 2 + z % 2)
  let a := a + z / 2
  let stat := if a ≠ b then 2 * accBinomial (min a b) (a + b) (1 / 2) else 1
  if stat < 1 / 20 then (if zeroBest then 1 else -1) else 0

/-- `compute_signtest_for_treatment` (signtest.c:71-216): per speaker the values of the two systems. -/
def signTest (l : List (Rat × Rat)) (zeroBest : Bool) : Int :=
  if (l.map (·.1)).sum > (l.map (·.2)).sum then
    let (a, b, z) := signCounts l
    signAnalysis a b z zeroBest * 1
  else
    let (a, b, z) := signCounts (l.map (fun p => (p.2, p.1)))
    signAnalysis a b z zeroBest * (-1)

/-- `sum_plus, sum_minus, sum_plus_rank, sum_minus_rank, alternate` of wilcoxon.c:77-78, 86, 166. -/
structure WSums where
  plus : Nat
  minus : Nat
  plusRank : Rat
  minusRank : Rat
  alternate : Nat

/-- Body of the loop (wilcoxon.c:181-202). -/
def wStep (s : WSums) (d r : Rat) : WSums :=
  if d < 0 ∧ absR d > 5 / 1000 then { s with minus := s.minus + 1, minusRank := s.minusRank + r }
  else if d > 0 ∧ absR d > 5 / 1000 then { s with plus := s.plus + 1, plusRank := s.plusRank + r }
  else if s.alternate % 2 = 0 then
    { s with plus := s.plus + 1, plusRank := s.plusRank + r, alternate := s.alternate + 1 }
  else { s with minus := s.minus + 1, minusRank := s.minusRank + r, alternate := s.alternate + 1 }

/-- The loop over the blocks (wilcoxon.c:166-203). -/
def wLoop : WSums → List (Rat × Rat) → WSums
  | s, [] => s
  | s, p :: ps => wLoop (wStep s p.1 p.2) ps

/-- The sums for differences `d`, ranked by size (wilcoxon.c:105-112, 166-203); `ptr` is what `qsort` delivers. -/
def wSums (d : List Rat) (ptr : List Nat) : WSums :=
  wLoop ⟨0, 0, 0, 0, 0⟩ (d.zip ((rankArr (d.map absR) ptr).map (·.getD 0)))

/-- The entries `(z, perc_interior)` of `Z2tail` (statdist.c:20-31), `z` in thousandths, the other in per cent. -/
def z2tail : List (Nat × Nat) :=
  [(2575, 99), (2329, 98), (2170, 97), (2055, 96), (1960, 95), (1881, 94), (1811, 93), (1751, 92), (1695, 91), (1645, 90)]

/-- The choice of the threshold for alpha = 0.05 (wilcoxon.c:253-258): the last entry with
`perc_interior - 0.95 > -0.001`. -/
def zThreshold : Rat :=
  (z2tail.foldl (fun z (e : Nat × Nat) => if (e.2 : Rat) / 100 - (1 - 1 / 20) > -1 / 1000 then (e.1 : Rat) / 1000 else z)
    (2575 / 1000))

/-- `wilcoxon_test_analysis` (wilcoxon.c:247-319).  The product in `var` is taken not to overflow (fewer than 1024
blocks); without blocks the statistic is not a number and the comparison fails, as it does with the squares. -/
def wilcoxonAnalysis (a b : Nat) (sumA sumB : Rat) (zeroBest : Bool) : Int :=
  let W := if a < b then sumA else sumB
  let n := a + b
  let betterA := if a < b then false else true
  let betterA := if zeroBest then !betterA else betterA
  let E := (n : Rat) * ((n : Rat) + 1) / 4
  let var := (((n * (n + 1) * (2 * n + 1) : Nat)) : Rat) / 24
  if (W - E) * (W - E) > zThreshold * zThreshold * var then (if betterA then -1 else 1) else 0

/-- `compute_wilcoxon_for_treatment` (wilcoxon.c:74-241); `ptr` is the order of the sizes of the differences that `qsort`
delivers. -/
def wilcoxon (l : List (Rat × Rat)) (ptr : List Nat) (zeroBest : Bool) : Int :=
  if (l.map (·.1)).sum > (l.map (·.2)).sum then
    let s := wSums (l.map (fun p => p.1 - p.2)) ptr
    wilcoxonAnalysis s.plus s.minus s.plusRank s.minusRank zeroBest * 1
  else
    let s := wSums (l.map (fun p => p.2 - p.1)) ptr
    wilcoxonAnalysis s.plus s.minus s.plusRank s.minusRank zeroBest * (-1)

end Verif.Stats
