import Verif.Unified.Spec
import Verif.Stats.Model
import Verif.Mapsswe.Model
/-!
# Model of the options of `sc_stats` (sclite `sc_stats.c`) and of the report on all tests (sclite `rank.c`)

The bits of `stats`, `stats_graphs` and `reports` are represented by the list of the names of those that are set.
-/
set_option autoImplicit false
namespace Verif.Unified
open Verif.Stats

/-- What `proc_arcs` sets (sc_stats.c:301, 307-317).  `pipein` is not initialised. -/
structure Opts where
  npralign : Nat
  pipein : Option Bool
  feedback : Int
  outDir : Option Str
  tests : List Str
  verbose : Bool
  unified : Bool
  graphs : List Str
  formula : Str
  testName : Str
  outName : Str
  reports : List Str
  width : Int
deriving DecidableEq

/-- The defaults (sc_stats.c:307-317). -/
def defaults : Opts where
  npralign := 0
  pipein := none
  feedback := 1
  outDir := none
  tests := []
  verbose := false
  unified := false
  graphs := []
  formula := "E".toList
  testName := []
  outName := "Ensemble".toList
  reports := []
  width := 100

/-- `^=` on a bit. -/
def toggle (s : Str) (l : List Str) : List Str := if s ∈ l then l.filter (fun x => decide (x ≠ s)) else s :: l

/-- The names after `-t` that change a bit (sc_stats.c:353-366). -/
def knownTests : List Str :=
  ["mcn".toList, "mapsswe".toList, "mapsswe_seg".toList, "sign".toList, "wilc".toList, "anovar".toList]

/-- A name after `-t` (sc_stats.c:353-370). -/
def testStep (l : List Str) (s : Str) : List Str :=
  if s ∈ knownTests then toggle s l
  else if s = "std4".toList then ["mcn".toList, "mapsswe".toList, "sign".toList, "wilc".toList]
  else l

/-- The names after `-r` that change a bit (sc_stats.c:378-391). -/
def knownReports : List Str := ["sum".toList, "rsum".toList, "es".toList, "res".toList, "prn".toList, "lur".toList]

/-- A name after `-r` (sc_stats.c:378-395). -/
def reportStep (l : List Str) (s : Str) : List Str :=
  if s ∈ knownReports then toggle s l
  else if s = "none".toList then []
  else l

/-- The names after `-g` that change a bit (sc_stats.c:402-410). -/
def knownGraphs : List Str := ["range".toList, "grange".toList, "grange2".toList, "det".toList]

/-- A name after `-g` (sc_stats.c:402-413). -/
def graphStep (l : List Str) (s : Str) : List Str :=
  if s ∈ knownGraphs then toggle s l else l

/-- The arguments up to the next one that begins with a hyphen. -/
def plain (l : List Str) : List Str := l.takeWhile (fun s => !dash s)

/-- The arguments from the next one that begins with a hyphen. -/
def skip (l : List Str) : List Str := l.dropWhile (fun s => !dash s)

/-- What becomes of a command line: the program stops, has undefined behaviour, or runs. -/
inductive Out
  | exit
  | undef
  | run (o : Opts)
deriving DecidableEq

/-- The loop of `proc_arcs` (sc_stats.c:318-441).  `atoi` is a parameter.  The second test for `-f` (417-430) cannot be reached. -/
def procLoop (atoi : Str → Int) : Nat → Opts → List Str → Out
  | 0, o, _ => .run o
  | _ + 1, o, [] => .run o
  | f + 1, o, a :: rest =>
    if dash a = false then .run o
    else if a = "-a".toList then
      (match rest with
      | [] => .exit
      | b :: _ =>
        if dash b = true then .exit
        else if o.npralign + (plain rest).length > 40 then .undef
        else procLoop atoi f { o with npralign := o.npralign + (plain rest).length } (skip rest))
    else if a = "-p".toList then procLoop atoi f { o with pipein := some true } rest
    else if a = "-f".toList then
      (match rest with
      | [] => .exit
      | v :: r => procLoop atoi f { o with feedback := atoi v } r)
    else if a = "-O".toList then
      (match rest with
      | [] => .exit
      | v :: r => procLoop atoi f { o with outDir := some v } r)
    else if a = "-n".toList then
      (match rest with
      | [] => .exit
      | v :: r => procLoop atoi f { o with outName := v } r)
    else if a = "-e".toList then
      (match rest with
      | [] => .exit
      | v :: r => procLoop atoi f { o with testName := v } r)
    else if a = "-l".toList then
      (match rest with
      | [] => .exit
      | v :: r => procLoop atoi f { o with width := atoi v } r)
    else if a = "-v".toList then procLoop atoi f { o with verbose := true } rest
    else if a = "-u".toList then procLoop atoi f { o with unified := true } rest
    else if a = "-t".toList then
      (match rest with
      | [] => .exit
      | v :: r => procLoop atoi f { o with tests := (plain (v :: r)).foldl testStep o.tests } (skip (v :: r)))
    else if a = "-r".toList then
      (match rest with
      | [] => .exit
      | v :: r => procLoop atoi f { o with reports := (plain (v :: r)).foldl reportStep o.reports } (skip (v :: r)))
    else if a = "-g".toList then
      (match rest with
      | [] => .exit
      | v :: r => procLoop atoi f { o with graphs := (plain (v :: r)).foldl graphStep o.graphs } (skip (v :: r)))
    else if a = "-w".toList then
      procLoop atoi f { o with graphs := ["range".toList], tests := ["mcn".toList, "mapsswe".toList, "sign".toList, "wilc".toList],
                               unified := true } rest
    else .exit

/-- `proc_arcs` (sc_stats.c:301-442). -/
def procArgs (atoi : Str → Int) (args : List Str) : Out :=
  match args with
  | [] => .exit
  | a :: r => procLoop atoi (a :: r).length defaults (a :: r)

/-- What `main` does after the options (sc_stats.c:93-106): whether the alignments are read from the input, and the settings;
undefined if `pipein` has not been set. -/
def mainRun (atoi : Str → Int) (args : List Str) : Out :=
  match procArgs atoi args with
  | .run o => match o.pipein with
    | none => .undef
    | some _ => .run o
  | x => x

/-! ### The report on all tests -/

/-- The confidence of McNemar's test (sentmcn.c:161-175, 344-345). -/
def mcnConf (a b : Nat) : Rat := if (b = 0 ∧ a = 0) ∨ b = a then 1 else 2 * accBinomial (min a b) (a + b) (1 / 2)

/-- The confidence of the sign test (signtest.c:227-236). -/
def signConf (a b z : Nat) : Rat :=
  let b := b + (z / 2 + z % 2)
  let a := a + z / 2
  if a ≠ b then 2 * accBinomial (min a b) (a + b) (1 / 2) else 1

/-- The confidence of the Wilcoxon and of the matched pairs test for a statistic whose square is `q` (wilcoxon.c:287,
mtchprs.c:281). -/
def normConf (q : Rat) : Rat := 1 - 2 * (normprobSq q - 1 / 2)

/-- The square of the statistic of the Wilcoxon test (wilcoxon.c:260-285). -/
def wilcoxonSq (a b : Nat) (sumA sumB : Rat) : Rat :=
  let W := if a < b then sumA else sumB
  let n := a + b
  let E := (n : Rat) * ((n : Rat) + 1) / 4
  let var := (((n * (n + 1) * (2 * n + 1) : Nat)) : Rat) / 24
  (W - E) * (W - E) / var

/-- The square of the statistic of the matched pairs test (statdist.c:594-628). -/
def matchedSq (d : List Int) : Rat :=
  let n : Rat := (d.length : Rat)
  let mean : Rat := (d.sum : Rat) / n
  let tmp : Rat := (d.map (fun (x : Int) => ((x : Rat) - mean) * ((x : Rat) - mean))).sum
  if tmp ≠ 0 then mean * mean * n / (tmp / (n - 1)) else 0

/-- The confidence of the analysis of variance: the table is allocated and never written (anovar.c:63, 67). -/
def anovarConf : Rat := 0

/-- The third column of an entry of the report (rank.c:548-555). -/
def stars (conf : Rat) : Str :=
  if conf ≤ 1 / 1000 then "***".toList
  else if conf ≤ 1 / 100 then "**".toList
  else if conf ≤ 5 / 100 then "*".toList
  else []

/-- The first column of an entry of the report, for the systems `x` and `y` (rank.c:538-543). -/
def named (win : Int) (x y : Str) : Str := if win = 0 then "~".toList else if win < 0 then x else y

/-- The entry of the summary per system (rank.c:694-703), for the systems `i` and `j`. -/
def summaryEntry (wins : Nat → Nat → Int) (names : Nat → Str) (i j : Nat) : Str :=
  let t1 := if i < j then i else j
  let t2 := if i < j then j else i
  if wins t1 t2 = 0 then "same".toList else if wins t1 t2 < 0 then names t1 else names t2

/-- The formats of the report for `n` systems (rank.c:458, 461-473), `none` if one of them overflows its 100 bytes. -/
def formats (n : Nat) : Option (Str × Str × Str) :=
  let title := "c=c".toList ++ (List.replicate n "|caa".toList).flatten ++ "=c".toList
  let row := "c=c".toList ++ (List.replicate n "|rrl".toList).flatten ++ "=c".toList
  let header := "ca".toList ++ (List.replicate n "aaa".toList).flatten ++ "a".toList
  if title.length + 1 ≤ 100 ∧ row.length + 1 ≤ 100 ∧ header.length + 1 ≤ 100 then some (title, row, header) else none

end Verif.Unified
