import Verif.Summary.Model
import Verif.SysRep.Spec
/-!
# Model of asclite's summary reports (src/asclite/core/rawsys_reportgenerator.cpp, statistics.cpp)

The counts of the speakers (modelled in the topic Scorer) are the input, with the words' confidences.  `double` is `Rat`; the logarithm to the base 2 and the
square root are parameters.  `int` conversions out of range are undefined (`none`).  `uint` does not overflow.
-/
set_option autoImplicit false
namespace Verif.SysRep
open Verif.Summary (fRound clamp)

/-- A word: how it is scored and the confidence of the system's token, `none` if there is none. -/
structure W where
  verdict : Verdict
  conf : Option Rat
  deriving DecidableEq

/-- `RAWSYS_Datas` of a speaker, src/asclite/core/rawsys_reportgenerator.h:34-45, as the list of what was added to it; a segment is the list of its words. -/
structure Spk where
  name : Str
  segs : List (List W)
  deriving DecidableEq

/-- The words of a speaker. -/
def Spk.words (s : Spk) : List W := s.segs.flatten

/-- `GetNumberRefWords`: counted by all but `AddInsertionWord`, src/asclite/core/rawsys_reportgenerator.cpp:36-84. -/
def refWords (s : Spk) : Nat := s.words.countP fun w => w.verdict ≠ .insertion

/-- The numbers of a speaker, src/asclite/core/rawsys_reportgenerator.h:52-61, rawsys_reportgenerator.cpp:36-84. -/
def num (c : Col) (s : Spk) : Nat :=
  match c with
  | .corr => s.words.countP fun w => w.verdict = .correct
  | .sub => s.words.countP fun w => w.verdict = .substitution
  | .spk => s.words.countP fun w => w.verdict = .speaker
  | .del => s.words.countP fun w => w.verdict = .deletion
  | .ins => s.words.countP fun w => w.verdict = .insertion
  | .err => (s.words.countP fun w => w.verdict = .substitution) + (s.words.countP fun w => w.verdict = .insertion) +
      (s.words.countP fun w => w.verdict = .deletion) + s.words.countP fun w => w.verdict = .speaker

/-- `GetNumberSegmentsErrors`, src/asclite/core/rawsys_reportgenerator.cpp:86-92, 264-306. -/
def segErrs (s : Spk) : Nat := s.segs.countP fun ws => ws.any fun w => w.verdict ≠ .correct

/-! ## NCE -/

/-- What a word adds to `m_SumConfidenceCorrect` or `m_SumConfidenceIncorrect`, src/asclite/core/rawsys_reportgenerator.cpp:42-84: the logarithm of the
confidence, for wrong words too.  Only correct words may be without a token (259-268). -/
def confSum (lg : Rat → Rat) (ws : List W) : Rat :=
  ws.foldl (fun s w => s + if w.verdict = .deletion then 0 else (w.conf.map fun c => lg (clamp c)).getD 0) 0

/-- `GetNCE`, src/asclite/core/rawsys_reportgenerator.cpp:94-107, and `GetTotalNCE`, 919-932. -/
def nce (lg : Rat → Rat) (n k : Nat) (sum : Rat) : Rat :=
  if n + k = 0 then -2000
  else
    let pc := clamp ((n : Rat) / ((n + k : Nat) : Rat))
    let h := -(n : Rat) * lg pc - (k : Rat) * lg (1 - pc)
    if h = 0 then -2000 else (h + sum) / h

/-- Words of the system that are wrong. -/
def wrong (s : Spk) : Nat := num .ins s + num .sub s + num .spk s

/-- The NCE of a speaker. -/
def spkNce (lg : Rat → Rat) (s : Spk) : Rat := nce lg (num .corr s) (wrong s) (confSum lg s.words)

/-- The NCE of all speakers, src/asclite/core/rawsys_reportgenerator.cpp:640.  The two sums are kept apart from the speakers', with the same content
for the first system. -/
def totalNce (lg : Rat → Rat) (ss : List Spk) : Rat :=
  nce lg (ss.map (num .corr)).sum (ss.map wrong).sum (ss.map fun s => confSum lg s.words).sum

/-! ## Statistics -/

/-- The result of `sort`, src/asclite/core/statistics.cpp:43. -/
def insertR (x : Rat) : List Rat → List Rat
  | [] => [x]
  | y :: l => if x ≤ y then x :: y :: l else y :: insertR x l

def sortR (l : List Rat) : List Rat := l.foldr insertR []

/-- `ceil(log(v)/log(10))`, src/asclite/core/statistics.cpp:51, 63-66: the least `k` with `v ≤ 10^k` (theorem
`ceilLog_spec`), the number of digits of `⌈v⌉ - 1`.  Values up to 1 have a result of at most 0; the
conversion of the infinite logarithm of 0 is undefined (x86 delivers the least `int`).  Both are taken as 0: the widths, of at least 5, stay the same. -/
def ceilLog (v : Rat) : Nat := if v ≤ 1 then 0 else (Nat.toDigits 10 (v.ceil.toNat - 1)).length

/-- `Statistics::Compute`, src/asclite/core/statistics.cpp:34-72. -/
structure Stat where
  sum : Rat
  mean : Rat
  sd : Option Rat
  median : Rat
  size : Nat
  deriving DecidableEq

/-- For a single value 0 is divided by 0: `sd` is not a number. -/
def Stat.of (sqrt : Rat → Rat) (l : List Rat) : Stat :=
  if l = [] then ⟨0, 0, some 0, 0, 1⟩
  else
    let v := sortR l
    let n : Rat := v.length
    let sum := v.foldl (· + ·) 0
    let sqr := v.foldl (fun s x => s + x * x) 0
    let mean := sum / n
    let sd := if v.length = 1 then none else some (sqrt ((n * sqr - sum * sum) / (n * (n - 1))))
    let median := if v.length % 2 = 0 then (v.getD (v.length / 2) 0 + v.getD (v.length / 2 - 1) 0) / 2 else v.getD (v.length / 2) 0
    ⟨sum, mean, sd, median,
     (v.foldl (fun m x => max m (ceilLog x)) 0) |> max (ceilLog sum + 2) |> max (ceilLog mean + 2) |> max ((sd.map ceilLog).getD 0 + 2) |> max (ceilLog median + 2)⟩

/-- `GetSum(1)`, src/asclite/core/statistics.h:42. -/
def Stat.safeSum (s : Stat) : Rat := if s.sum = 0 then 1 else s.sum

/-- Speakers with reference words, src/asclite/core/rawsys_reportgenerator.cpp:337-357. -/
def notNull (ss : List Spk) : List Spk := ss.filter fun s => refWords s ≠ 0

/-- The percentages, src/asclite/core/rawsys_reportgenerator.h:63-69. -/
def pctOf (c : Col) (s : Spk) : Rat := 100 * (num c s : Rat) / (refWords s : Rat)
def pctSeg (s : Spk) : Rat := 100 * (segErrs s : Rat) / (s.segs.length : Rat)

/-! ## Text -/

/-- `AddStringText`, src/asclite/core/rawsys_reportgenerator.cpp:138-168. -/
inductive Just
  | left | middle | right
  deriving DecidableEq

def place (j : Just) (w : Nat) (v : Str) : Str :=
  if w < v.length then "...".toList ++ v.drop (v.length - w + 3)
  else match j with
  | .left => v ++ List.replicate (w - v.length) ' '
  | .middle => List.replicate ((w - v.length) / 2) ' ' ++ v ++ List.replicate (w - (w - v.length) / 2 - v.length) ' '
  | .right => List.replicate (w - v.length) ' ' ++ v

/-- Conversion to `int` of a number of that size, `none` = undefined. -/
def toInt (k : Int) : Option Int := if -2147483648 ≤ k ∧ k ≤ 2147483647 then some k else none

/-- `%.1f` of `F_ROUND(value, 1)`, src/asclite/core/rawsys_reportgenerator.cpp:170-181, rawsys_reportgenerator.h:28-31. -/
def text1 (x : Rat) : Option Str := (toInt (fRound x 1)).map oneDecimal

/-- `%.3f` of `F_ROUND(value, 3)`. -/
def text3 (x : Rat) : Option Str := (toInt (fRound x 3)).map fun k =>
  (if k < 0 then ['-'] else []) ++ Nat.toDigits 10 (k.natAbs / 1000) ++ ['.'] ++
    (List.replicate (3 - (Nat.toDigits 10 (k.natAbs % 1000)).length) '0' ++ Nat.toDigits 10 (k.natAbs % 1000))

/-- `%i` of a count. -/
def textN (n : Nat) : Str := Nat.toDigits 10 n

/-! ## The report -/

/-- The options: raw counts or percentages (`m_RawSys`), and the column on speakers. -/
structure Opt where
  raw : Bool
  withSpk : Bool
  deriving DecidableEq

/-- Statistics of a column: of the counts of all speakers; of the counts and of the percentages of the speakers with reference words,
src/asclite/core/rawsys_reportgenerator.cpp:316-388. -/
def statAll (sqrt : Rat → Rat) (f : Spk → Nat) (ss : List Spk) : Stat := Stat.of sqrt (ss.map fun s => (f s : Rat))
def statNN (sqrt : Rat → Rat) (c : Col) (ss : List Spk) : Stat := Stat.of sqrt ((notNull ss).map fun s => (num c s : Rat))
def statPct (sqrt : Rat → Rat) (c : Col) (ss : List Spk) : Stat := Stat.of sqrt ((notNull ss).map (pctOf c))

/-- `isStarDiezePlus`, src/asclite/core/rawsys_reportgenerator.cpp:358-359. -/
def flagged (ss : List Spk) : Bool := ss.any fun s => refWords s = 0

/-- The widths of the columns, src/asclite/core/rawsys_reportgenerator.cpp:203-213, 320, 390-414. -/
def wName (ss : List Spk) : Nat := ss.foldl (fun m s => max m s.name.length) 7
def wSeg (sqrt : Rat → Rat) (ss : List Spk) : Nat := max 5 (statAll sqrt (fun s => s.segs.length) ss).size
def wRef (sqrt : Rat → Rat) (ss : List Spk) : Nat := max 6 (statAll sqrt refWords ss).size
def wCol (sqrt : Rat → Rat) (c : Col) (ss : List Spk) : Nat :=
  max (max 6 (statAll sqrt (num c) ss).size) (statNN sqrt c ss).size + (if flagged ss then 1 else 0)
def wErr (sqrt : Rat → Rat) (ss : List Spk) : Nat := max (max 6 (statAll sqrt segErrs ss).size) (Stat.of sqrt (ss.map pctSeg)).size

/-- `sizeoffullline`, src/asclite/core/rawsys_reportgenerator.cpp:416; the last column has 9 places. -/
def wLine (sqrt : Rat → Rat) (o : Opt) (ss : List Spk) : Nat :=
  19 + (if o.withSpk then 1 else 0) + wName ss + wSeg sqrt ss + wRef sqrt ss + ((columns o.withSpk).map fun c => wCol sqrt c ss).sum + wErr sqrt ss + 9

/-- `AddSeparator`, src/asclite/core/rawsys_reportgenerator.cpp:192-197. -/
def separator (c : Char) (w : Nat) : Str := '|' :: List.replicate (w - 2) c ++ ['|']

/-- A row of the table from the texts of its cells, src/asclite/core/rawsys_reportgenerator.cpp:432-458 (and alike for all rows). -/
def rowText (sqrt : Rat → Rat) (o : Opt) (ss : List Spk) (j : Just) (name seg ref : Str) (cells : Col → Str) (serr nce : Str) : Str :=
  "| ".toList ++ place j (wName ss) name ++ " | ".toList ++ place .right (wSeg sqrt ss) seg ++ " ".toList ++ place .right (wRef sqrt ss) ref ++ " | ".toList ++
    ((columns o.withSpk).map fun c => place .right (wCol sqrt c ss) (cells c) ++ " ".toList).flatten ++
    place .right (wErr sqrt ss) serr ++ " | ".toList ++ place .middle 9 nce ++ " |".toList

/-- All texts or none. -/
def allCells (o : Opt) (f : Col → Option Str) : Option (Col → Str) :=
  if (columns o.withSpk).all fun c => (f c).isSome then some fun c => (f c).getD [] else none

/-- The cell of a speaker, src/asclite/core/rawsys_reportgenerator.cpp:474-557. -/
def spkCell (o : Opt) (ss : List Spk) (s : Spk) (c : Col) : Option Str :=
  let add : Str := if flagged ss then (if refWords s = 0 ∧ ¬ o.raw then ['*'] else [' ']) else []
  if o.raw ∨ refWords s = 0 then some (textN (num c s) ++ add) else (text1 (pctOf c s)).map (· ++ add)

/-- The cell NCE, src/asclite/core/rawsys_reportgenerator.cpp:559-567. -/
def nceCell (lg : Rat → Rat) (s : Spk) : Option Str :=
  let x := spkNce lg s
  if refWords s = 0 then some ['#']
  else if -1000 ≤ x ∧ x ≤ 1000 then text3 x
  else if x ≤ -1000 then some "-inf".toList
  else some "+inf".toList

/-- The row of a speaker, src/asclite/core/rawsys_reportgenerator.cpp:460-572. -/
def spkRow (sqrt lg : Rat → Rat) (o : Opt) (ss : List Spk) (s : Spk) : Option Str :=
  match allCells o (spkCell o ss s), if o.raw then some (textN (segErrs s)) else text1 (pctSeg s), nceCell lg s with
  | some cells, some serr, some nc => some (rowText sqrt o ss .left s.name (textN s.segs.length) (textN (refWords s)) cells serr nc)
  | _, _, _ => none

/-- The cell of the row of all speakers, src/asclite/core/rawsys_reportgenerator.cpp:589-632.  `GetSum(1)` is never 0. -/
def sumCell (sqrt : Rat → Rat) (o : Opt) (ss : List Spk) (c : Col) : Option Str :=
  let add : Str := if flagged ss then [' '] else []
  let t := (statAll sqrt (num c) ss).sum
  if o.raw then some (textN t.floor.toNat ++ add)
  else (text1 (if (statAll sqrt refWords ss).safeSum = 0 then 0 else 100 * t / (statAll sqrt refWords ss).safeSum)).map (· ++ add)

/-- The row of all speakers, src/asclite/core/rawsys_reportgenerator.cpp:574-642. -/
def sumRow (sqrt lg : Rat → Rat) (o : Opt) (ss : List Spk) : Option Str :=
  let segs := statAll sqrt (fun s => s.segs.length) ss
  let es := statAll sqrt segErrs ss
  match allCells o (sumCell sqrt o ss), if o.raw then some (textN es.sum.floor.toNat) else text1 (100 * es.sum / segs.safeSum), text3 (totalNce lg ss) with
  | some cells, some serr, some nc =>
    some (rowText sqrt o ss .left (if o.raw then "Sum".toList else "Sum/Avg".toList) (textN segs.sum.floor.toNat) (textN (statAll sqrt refWords ss).sum.floor.toNat) cells serr nc)
  | _, _, _ => none

/-- The speakers whose NCE enters the statistics, src/asclite/core/rawsys_reportgenerator.cpp:334-335. -/
def nceList (lg : Rat → Rat) (ss : List Spk) : List Rat :=
  ((notNull ss).filter fun s => -1000 ≤ spkNce lg s ∧ spkNce lg s ≤ 1000).map (spkNce lg)

/-- A row Mean, S.D. or Median, src/asclite/core/rawsys_reportgenerator.cpp:646-836; `pick` takes the value from a statistic. -/
def statRow (sqrt lg : Rat → Rat) (o : Opt) (ss : List Spk) (name : Str) (pick : Stat → Option Rat) : Option Str :=
  let add : Str := if flagged ss then ['+'] else []
  let t1 : Stat → Option Str := fun st => (pick st).bind text1
  match allCells o (fun c => (t1 (if o.raw then statNN sqrt c ss else statPct sqrt c ss)).map (· ++ add)),
    t1 (statAll sqrt (fun s => s.segs.length) ss), t1 (statAll sqrt refWords ss),
    t1 (if o.raw then statAll sqrt segErrs ss else Stat.of sqrt (ss.map pctSeg)), (pick (Stat.of sqrt (nceList lg ss))).bind text3 with
  | some cells, some seg, some ref, some serr, some nc => some (rowText sqrt o ss .middle name seg ref cells serr nc)
  | _, _, _, _, _ => none

/-- The heading of a column. -/
def Col.title : Col → Str
  | .corr => "Corr".toList
  | .sub => "Sub".toList
  | .spk => "SpSub".toList
  | .del => "Del".toList
  | .ins => "Ins".toList
  | .err => "Err".toList

/-- The table of `GenerateSystem`, src/asclite/core/rawsys_reportgenerator.cpp:418-844, line by line; `none` = a line with an undefined number.  The notes
below the table are left out; `title` is the file name of the system without directories. -/
def table (sqrt lg : Rat → Rat) (o : Opt) (title : Str) (ss : List Spk) : List (Option Str) :=
  let w := wLine sqrt o ss
  [some (place .middle w "SYSTEM SUMMARY PERCENTAGE by SPEAKER".toList), some ('.' :: List.replicate (w - 2) '-' ++ ['.']),
   some ('|' :: place .middle (w - 2) title ++ ['|']), some (separator '-' w),
   some (rowText sqrt o ss .left "Speaker".toList "#Snt".toList "#Wrd".toList Col.title "S.Err".toList "NCE".toList)] ++
  (ss.map fun s => [some (separator '-' w), spkRow sqrt lg o ss s]).flatten ++
  [some (separator '=' w), sumRow sqrt lg o ss, some (separator '=' w),
   statRow sqrt lg o ss "Mean".toList (fun st => some st.mean), statRow sqrt lg o ss "S.D.".toList Stat.sd,
   statRow sqrt lg o ss "Median".toList (fun st => some st.median), some ('\'' :: List.replicate (w - 2) '-' ++ ['\''])]

end Verif.SysRep
