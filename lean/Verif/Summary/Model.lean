import Verif.Range.Model
import Verif.Det.Model
/-!
# Model of the summaries of sclite (src/sclite/scores.c:1054-1944)

`double` and `float` are modelled by `Rat`, `log` is a parameter; `int` does not overflow.  The groups enter with their counts
(`add_PATH_score` is modelled in the topics Score and Weigh).  `merges` and `splits` are left out: they are set to 0
(scores.c:781-790) and never changed, and sclite always passes `do_sm` 0.  The layout of the tables is in the topic Rpg; here
are the numbers in their cells.
-/
set_option autoImplicit false
namespace Verif.Summary
open Verif.Range Verif.Det

abbrev Str := List Char

/-- What `compute_SCORE_nce` looks at in a word that is aligned, src/sclite/scores.c:1882-1898: if the pair is correct, if the
hypothesis word is empty, its confidence.  Deleted words are left out. -/
structure HWord where
  correct : Bool
  empty : Bool
  conf : Rat
  deriving DecidableEq

/-- A path: the attribute PA_HYP_CONF and the hypothesis words. -/
structure HPath where
  hasConf : Bool
  words : List HWord
  deriving DecidableEq

/-- `GRP`, src/sclite/sctk.h. -/
structure Grp where
  name : Str
  corr : Nat
  sub : Nat
  del : Nat
  ins : Nat
  nsent : Nat
  serr : Nat
  wRef : Rat
  wCorr : Rat
  wSub : Rat
  wDel : Rat
  wIns : Rat
  paths : List HPath
  deriving DecidableEq

/-- The three summaries sclite writes (sum, rsum, wws), src/sclite/sclite.c:283-299. -/
inductive Mode where
  | sum | raw | weighted
  deriving DecidableEq, Repr

/-- `pct`, src/sclite/sctk.h:45. -/
def pctR (num dem : Rat) : Rat := if dem = 0 then 0 else num / dem * 100

/-- `F_ROUND(x,p)` times 10^p, src/sclite/sctk.h:43. -/
def fRound (x : Rat) (p : Nat) : Int := trunc (x * (10 : Rat) ^ p + (if 0 < x then 1 / 2 else -1 / 2))

/-- The five values of words of a row. -/
structure Vals where
  corr : Rat
  sub : Rat
  del : Rat
  ins : Rat
  err : Rat
  deriving DecidableEq

/-- `Trefs`, src/sclite/scores.c:1120-1125. -/
def trefs (m : Mode) (g : Grp) : Rat := if m = .weighted then g.wRef else ((g.sub + g.corr + g.del : Nat) : Rat)

/-- The values of a speaker, src/sclite/scores.c:1127-1159. -/
def vals (m : Mode) (g : Grp) : Vals :=
  if m = .raw ∨ trefs m g = 0 then ⟨g.corr, g.sub, g.del, g.ins, ((g.sub + g.ins + g.del : Nat) : Rat)⟩
  else if m = .weighted then
    ⟨pctR g.wCorr g.wRef, pctR g.wSub g.wRef, pctR g.wDel g.wRef, pctR g.wIns g.wRef, pctR (g.wSub + g.wIns + g.wDel) g.wRef⟩
  else
    ⟨pctR g.corr (trefs m g), pctR g.sub (trefs m g), pctR g.del (trefs m g), pctR g.ins (trefs m g),
     pctR ((g.sub + g.ins + g.del : Nat) : Rat) (trefs m g)⟩

/-- `serr_arr`, src/sclite/scores.c:1160-1163. -/
def serrVal (m : Mode) (g : Grp) : Rat := if m = .raw then g.serr else pctR g.serr g.nsent

/-- `word_num_arr`, src/sclite/scores.c:1166-1167. -/
def wordNum (g : Grp) : Nat := g.corr + g.sub + g.del

/-- Some paths have confidences and none lacks them, src/sclite/scores.c:1090-1104. -/
def hasConf (gs : List Grp) : Bool :=
  gs.any (fun g => g.paths.any HPath.hasConf) && !gs.any (fun g => g.paths.any fun p => !p.hasConf)

/-- `hyp_confidences_available`, src/sclite/det.c:7-17. -/
def confAvailable (gs : List Grp) : Bool := gs.all fun g => g.paths.all HPath.hasConf

/-! ## Normalised cross entropy -/

/-- The confidence with floor and ceiling, src/sclite/scores.c:1887-1894. -/
def clamp (c : Rat) : Rat :=
  let c := if c < 1 / 10000000 then 1 / 10000000 else c
  if c > 1 - 1 / 10000000 then 1 - 1 / 10000000 else c

/-- The words that count, src/sclite/scores.c:1881-1882. -/
def counted (g : Grp) : List HWord := (g.paths.flatMap HPath.words).filter fun w => !w.empty

/-- `sum_c_spk + sum_i_spk`, src/sclite/scores.c:1876-1898; `lg` is the logarithm to the base 2. -/
def logSum (lg : Rat → Rat) (ws : List HWord) : Rat :=
  ws.foldl (fun s w => s + (if w.correct then lg (clamp w.conf) else lg (1 - clamp w.conf))) 0

/-- `H_of_C`, src/sclite/scores.c:1901-1908, 1918-1921: with no correct or no incorrect word 0 is multiplied with the infinite
logarithm of 0, or 0 is divided by 0: `none` = not a number. -/
def entropy (lg : Rat → Rat) (n k : Nat) : Option Rat :=
  if n = 0 ∨ k = 0 then none
  else
    let p : Rat := (n : Rat) / ((n + k : Nat) : Rat)
    some (-((n : Rat) * lg p + (k : Rat) * lg (1 - p)))

/-- `nce_arr[spkr]`, src/sclite/scores.c:1899-1916. -/
def nceSpk (lg : Rat → Rat) (g : Grp) : Option Rat :=
  if counted g ≠ [] then (entropy lg g.corr (g.sub + g.ins)).map fun h => (h + logSum lg (counted g)) / h else some 0

/-- `nce_system`, src/sclite/scores.c:1862-1866, 1918-1922. -/
def nceSys (lg : Rat → Rat) (gs : List Grp) : Option Rat :=
  (entropy lg (gs.foldl (fun s g => s + g.corr) 0) (gs.foldl (fun s g => s + g.sub) 0 + gs.foldl (fun s g => s + g.ins) 0)).map fun h =>
    (h + gs.foldl (fun s g => if counted g ≠ [] then s + logSum lg (counted g) else s) 0) / h

/-! ## The rows -/

/-- A row as printed: the numbers of sentences and words; the words' columns Corr, Sub, Del, Ins and Err in units of 10^-`prec`,
and if they carry an asterisk; S.Err in units of 10^-`sprec`. -/
structure Row where
  sents : Nat
  words : Int
  prec : Nat
  star : Bool
  cells : List Int
  sprec : Nat
  serr : Int
  deriving DecidableEq, Repr

/-- The row of a speaker, src/sclite/scores.c:1198-1205, 1280-1322. -/
def spkRow (m : Mode) (g : Grp) : Row :=
  let v := vals m g
  let prec := if m = .raw then 0 else 1
  let plain : Bool := m = .raw ∨ 0 < wordNum g
  let q := if plain then prec else 0
  ⟨g.nsent, wordNum g, q, !plain, [fRound v.corr q, fRound v.sub q, fRound v.del q, fRound v.ins q, fRound v.err q], prec,
   fRound (serrVal m g) prec⟩

/-- `NCE` of a speaker's row, src/sclite/scores.c:1323-1330: outer `none` = `#`, inner `none` = rounding of no number,
which is undefined. -/
def spkNce (lg : Rat → Rat) (g : Grp) : Option (Option Int) := if 0 < wordNum g then some ((nceSpk lg g).map fun x => fRound x 3) else none

/-- The totals, all of type `int`, src/sclite/scores.c:1067-1068, 1169-1178. -/
structure Totals where
  corr : Int
  sub : Int
  del : Int
  ins : Int
  ref : Int
  st : Nat
  ser : Nat
  word : Nat
  deriving DecidableEq

/-- `tot += x` for an `int` and a `double`. -/
def addInt (t : Int) (x : Rat) : Int := trunc ((t : Rat) + x)

/-- One speaker is added, src/sclite/scores.c:1169-1178. -/
def Totals.add (m : Mode) (t : Totals) (g : Grp) : Totals :=
  let w := m = .weighted
  ⟨addInt t.corr (if w then g.wCorr else g.corr), addInt t.sub (if w then g.wSub else g.sub), addInt t.del (if w then g.wDel else g.del),
   addInt t.ins (if w then g.wIns else g.ins), addInt t.ref (trefs m g), t.st + g.nsent, t.ser + g.serr, t.word + wordNum g⟩

/-- The totals of all speakers. -/
def totals (m : Mode) (gs : List Grp) : Totals := gs.foldl (Totals.add m) ⟨0, 0, 0, 0, 0, 0, 0, 0⟩

/-- The row `Sum/Avg` or `Sum`, src/sclite/scores.c:1347-1390. -/
def sumRow (m : Mode) (gs : List Grp) : Row :=
  let t := totals m gs
  let e := t.sub + t.ins + t.del
  if m = .raw then
    ⟨t.st, t.word, 0, false, [fRound t.corr 0, fRound t.sub 0, fRound t.del 0, fRound t.ins 0, fRound e 0], 0, fRound t.ser 0⟩
  else
    ⟨t.st, t.word, 1, false, [fRound (pctR t.corr t.ref) 1, fRound (pctR t.sub t.ref) 1, fRound (pctR t.del t.ref) 1,
      fRound (pctR t.ins t.ref) 1, fRound (pctR e t.ref) 1], 1, fRound (pctR t.ser t.st) 1⟩

/-! ## Mean, standard deviation and median -/

/-- `Zero_spkr`, src/sclite/scores.c:1319: speakers printed with an asterisk. -/
def zeroSpk (m : Mode) (gs : List Grp) : Nat := (gs.filter fun g => m ≠ .raw ∧ wordNum g = 0).length

/-- The entries from `i` on are moved up by one, the last one is set to -1000, src/sclite/scores.c:1399-1411. -/
def shiftUp (l : List Rat) (i : Nat) : List Rat := l.eraseIdx i ++ [-1000]

/-- Speakers without words are taken out, src/sclite/scores.c:1393-1414: the numbers of words are not moved with the values. -/
def takeOut (m : Mode) (gs : List Grp) (l : List Rat) : List Rat :=
  if 0 < zeroSpk m gs then (List.range gs.length).foldl (fun l i => if (gs.map wordNum).getD i 1 = 0 then shiftUp l i else l) l else l

/-- The values of which the mean of a words' column is taken, src/sclite/scores.c:1421-1431. -/
def used (m : Mode) (gs : List Grp) (f : Vals → Rat) : List Rat :=
  (takeOut m gs (gs.map fun g => f (vals m g))).take (gs.length - zeroSpk m gs)

/-- Mean, variance and median, `calc_mean_var_std_dev_Zstat_double`, src/sclite/statdist.c:630-671; `ptr` is what sorting
delivers.  The standard deviation that is printed is the root of the variance. -/
def stats (sort : List Rat → List Nat) (l : List Rat) : Rat × Rat × Rat := (calcMean l, calcVariance l, calcMedian l (sort l))

/-- `calc_mean_var_std_dev_Zstat`, src/sclite/statdist.c:594-625: as before, but without values the places -1 and 0 of an
empty array are read (`none`). -/
def statsInt (sort : List Rat → List Nat) (l : List Rat) : Option (Rat × Rat × Rat) := if l = [] then none else some (stats sort l)

/-- The rows Mean, S.D. and Median, src/sclite/scores.c:1415-1541, as columns: sentences, words, Corr, Sub, Del, Ins, Err, S.Err;
and if the words' columns carry a plus sign. -/
def statRows (m : Mode) (sort : List Rat → List Nat) (gs : List Grp) : Option (List (Rat × Rat × Rat) × Bool) :=
  match statsInt sort (gs.map fun g => (g.nsent : Rat)), statsInt sort (gs.map fun g => (wordNum g : Rat)) with
  | some a, some b =>
    some (a :: b :: (([Vals.corr, Vals.sub, Vals.del, Vals.ins, Vals.err].map fun f => stats sort (used m gs f)) ++
      [stats sort (gs.map (serrVal m))]), 0 < zeroSpk m gs)
  | _, _ => none

/-! ## Several systems -/

/-- A system: title and groups. -/
structure Sys where
  title : Str
  grps : List Grp
  deriving DecidableEq

/-- The errors of a speaker. -/
def errors (g : Grp) : Nat := g.ins + g.sub + g.del

/-- `errs[s][g]`, src/sclite/scores.c:1589-1600. -/
def errEntry (raw : Bool) (g : Grp) : Rat := if raw then errors g else pctR (errors g) ((g.corr + g.sub + g.del : Nat) : Rat)

/-- `print_N_system_summary`, src/sclite/scores.c:1555-1697: names and rows of the speakers, the row Average or Sum, and for each
system mean, variance and median.  `none` = undefined: no system, a format of more than 49 characters (1621-1625), or more
speakers than the first system has and 5 (1584, 1590-1600).  Rows are matched by number; missing entries are 0.0. -/
structure NSummary where
  names : List Str
  rows : List (List Int)
  avg : List Int
  stats : List (Rat × Rat × Rat)
  deriving DecidableEq

def nSummary (sort : List Rat → List Nat) (raw : Bool) (scs : List Sys) : Option NSummary :=
  match scs with
  | [] => none
  | s0 :: _ =>
    let n := s0.grps.length
    if 50 < 2 * scs.length + 2 ∨ scs.any (fun s => n + 5 < s.grps.length) then none
    else
      let errs : Sys → List Rat := fun s => (List.range n).map fun g => ((s.grps[g]?).map (errEntry raw)).getD 0
      let prec := if raw then 0 else 1
      let tot : (Grp → Nat) → Sys → Nat := fun f s => s.grps.foldl (fun t g => t + f g) 0
      some ⟨s0.grps.map Grp.name, (List.range n).map fun g => scs.map fun s => fRound ((errs s).getD g 0) prec,
        scs.map fun s => if raw then fRound (tot errors s) 1 else fRound (pctR (tot errors s) (tot wordNum s)) 1,
        scs.map fun s => stats sort (errs s)⟩

/-- A row of `print_N_system_executive_summary`, src/sclite/scores.c:1767-1822; the last column is absent, `---` (`some none`)
or the NCE (inner `none` = undefined). -/
structure ExecRow where
  title : Str
  sents : Nat
  refs : Nat
  prec : Nat
  cells : List Int
  nce : Option (Option (Option Int))
  deriving DecidableEq

/-- `print_N_system_executive_summary`, src/sclite/scores.c:1705-1829. -/
def execSummary (lg : Rat → Rat) (raw : Bool) (scs : List Sys) : List ExecRow :=
  let one := scs.any fun s => confAvailable s.grps
  scs.map fun s =>
    let tot : (Grp → Nat) → Nat := fun f => s.grps.foldl (fun t g => t + f g) 0
    let cor := tot Grp.corr
    let sub := tot Grp.sub
    let ins := tot Grp.ins
    let del := tot Grp.del
    let ref := cor + sub + del
    let err := sub + del + ins
    ⟨s.title, tot Grp.nsent, ref, if raw then 0 else 1,
     if raw then [cor, sub, del, ins, err, tot Grp.serr]
     else [fRound (pctR cor ref) 1, fRound (pctR sub ref) 1, fRound (pctR del ref) 1, fRound (pctR ins ref) 1, fRound (pctR err ref) 1,
       fRound (pctR (tot Grp.serr) (tot Grp.nsent)) 1],
     if one then some (if confAvailable s.grps then some ((nceSys lg s.grps).map fun x => fRound x 3) else none) else none⟩

end Verif.Summary
