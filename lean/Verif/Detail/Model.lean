import Verif.Text.Model
import Verif.Score.Model
/-!
# Counted word lists and the detailed reports

`AUTO_LEX` (src/sclite/alex.c), the reports of src/sclite/sc_dtl.c made with it, and the list of missed words of the lattice analysis
(src/sclite/corresp.c).
-/
set_option autoImplicit false
namespace Verif.Detail
open Verif.Text
open Verif.Sgml (Entry)
open Verif.Score (Grp Scores)

/-! ## Counted word lists -/

/-- `AUTO_LEX`, src/sclite/alex.h:3-13: the texts in the order of their arrival, the positions in the order of the texts, the counts
(`field_a`; beyond the texts all 0) and the size of the arrays.  `field_b` and `field_c` are left out. -/
structure Lex where
  str : List (List Nat)
  sort : List Nat
  cnt : List Nat
  max : Nat
  deriving Repr, DecidableEq

/-- `AUTO_LEX_init`, src/sclite/alex.c:5-13. -/
def initLex (size : Nat) : Lex := ⟨[], [], [], size⟩

/-- The loop of `index_search`, src/sclite/alex.c:37-49: whether found, and the place in the order; `none` = undefined (an index outside
of the arrays, or texts that `TEXT_strcmp` cannot compare). -/
def searchLoop (e : Enc) (lex : Lex) (goal : List Nat) : Nat → Int → Int → Option (Bool × Nat)
  | 0, _, _ => none
  | fuel + 1, low, high =>
    let mid := (low + high).tdiv 2
    match (lex.sort[mid.toNat]?).bind fun i => lex.str[i]? with
    | none => none
    | some s =>
      match strcmp e goal s with
      | none => none
      | some r =>
        if r = 0 then some (true, mid.toNat)
        else
          let low' := if r < 0 then low else mid + 1
          let high' := if r < 0 then mid - 1 else high
          if low' ≤ high' then searchLoop e lex goal fuel low' high' else some (false, low'.toNat)

/-- `index_search`, src/sclite/alex.c:25-53. -/
def search (e : Enc) (lex : Lex) (goal : List Nat) : Option (Bool × Nat) :=
  if lex.str.length = 0 then some (false, 0) else searchLoop e lex goal (lex.str.length + 1) 0 ((lex.str.length : Int) - 1)

/-- `AUTO_LEX_find`, src/sclite/alex.c:55-61; the inner `none` = -1. -/
def find (e : Enc) (lex : Lex) (w : List Nat) : Option (Option Nat) :=
  (search e lex w).map fun r => if r.1 then some r.2 else none

/-- `AUTO_LEX_insert`, src/sclite/alex.c:63-128: the list and the number of the text; `none` = undefined.  The moving of the data into
larger arrays keeps them as they are. -/
def insert (e : Enc) (lex : Lex) (w : List Nat) : Option (Lex × Nat) :=
  let max := if lex.str.length + 1 ≥ lex.max then lex.max * 2 else lex.max
  match search e lex w with
  | none => none
  | some (true, i) => (lex.sort[i]?).map fun k => ({ lex with max := max }, k)
  | some (false, i) =>
    if lex.str.length < max then
      some (⟨lex.str ++ [w], lex.sort.take i ++ lex.str.length :: lex.sort.drop i, lex.cnt ++ [0], max⟩, lex.str.length)
    else none

/-- `talex->field_a[lid] ++`, e.g. src/sclite/sc_dtl.c:442. -/
def bump (lex : Lex) (i : Nat) : Lex := { lex with cnt := lex.cnt.modify i (· + 1) }

/-- Inserting and counting, src/sclite/sc_dtl.c:441-442. -/
def count (e : Enc) (lex : Lex) (w : List Nat) : Option Lex := (insert e lex w).map fun r => bump r.1 r.2

/-- Counting one text after the other. -/
def countAll (e : Enc) : Lex → List (List Nat) → Option Lex
  | lex, [] => some lex
  | lex, w :: ws =>
    match count e lex w with
    | none => none
    | some lex' => countAll e lex' ws

/-- The count of a text by its number. -/
def Lex.at (lex : Lex) (i : Nat) : Nat := lex.cnt.getD i 0

/-- Inserting a number into a sorted list. -/
def put (x : Nat) : List Nat → List Nat
  | [] => [x]
  | y :: l => if x ≤ y then x :: y :: l else y :: put x l

/-- `qsort` with `qsort_int_compare`, src/sclite/alex.c:194-195 and src/sclite/order.c:42-44: the numbers in order. -/
def sortNum : List Nat → List Nat
  | [] => []
  | x :: l => put x (sortNum l)

/-- The second sorting of `AUTO_LEX_printout`, src/sclite/alex.c:178-201: runs of equal counts are put into the order of the texts;
`none` = the program exits, or an index outside. -/
def secondary (lex : Lex) : Nat → List Nat → Option (List Nat)
  | _, [] => some []
  | 0, _ :: _ => none
  | fuel + 1, p :: rest =>
    let run := p :: rest.takeWhile (fun q => lex.at p = lex.at q)
    match run.mapM (fun x => lex.sort.idxOf? x) with
    | none => none
    | some is =>
      match (sortNum is).mapM (fun i => lex.sort[i]?) with
      | none => none
      | some back => (secondary lex fuel (rest.dropWhile (fun q => lex.at p = lex.at q))).map (back ++ ·)

/-- What `AUTO_LEX_printout` prints: the number of texts, how many of them reach the threshold, the lines and the sum. -/
structure Printout where
  total : Nat
  reaching : Nat
  lines : List (Nat × List Nat)
  sum : Nat
  deriving Repr, DecidableEq

/-- `AUTO_LEX_printout`, src/sclite/alex.c:168-221; `ptr` is what `qsort` makes of the positions (`sort_int_arr`, decreasing), any sorted
permutation.  The test on the threshold looks at another text's count (`sort` of the position, line 212). -/
def printout (lex : Lex) (ptr : List Nat) (threshold : Nat) : Option Printout :=
  match secondary lex lex.str.length ptr with
  | none => none
  | some ord =>
    let shown := ord.filter fun i => decide (threshold ≤ lex.at (lex.sort.getD i 0))
    some ⟨lex.str.length, (lex.sort.filter fun i => decide (threshold ≤ lex.at i)).length, shown.map fun i => (lex.at i, lex.str.getD i []),
      (shown.map lex.at).sum⟩

/-! ## Reports -/

/-- The text of a confusion pair, src/sclite/sc_dtl.c:470-472: the words with an arrow between them. -/
def pairText (a b : List Nat) : List Nat := a ++ [32, 61, 61, 62, 32] ++ b

/-- The words of `locate_insertions`, `locate_deletions`, `locate_confusion_pairs`, `locate_substitutions` and `locate_misrecognized`,
src/sclite/sc_dtl.c:434-507, for one element of a path. -/
def insWord {W : Type} (value : W → List Nat) : Entry W → Option (List Nat)
  | .ins b => some (value b)
  | _ => none
def delWord {W : Type} (value : W → List Nat) : Entry W → Option (List Nat)
  | .del a => some (value a)
  | _ => none
def confWord {W : Type} (value : W → List Nat) : Entry W → Option (List Nat)
  | .pair .sub a b => some (pairText (value a) (value b))
  | _ => none
def subWord {W : Type} (value : W → List Nat) : Entry W → Option (List Nat)
  | .pair .sub a _ => some (value a)
  | _ => none
def falseWord {W : Type} (value : W → List Nat) : Entry W → Option (List Nat)
  | .pair .sub _ b => some (value b)
  | _ => none

/-- One of the five lists: a fresh list of size 200, all groups, all paths, printed with threshold 1; src/sclite/sc_dtl.c:381-422.
`qs` stands for `qsort`. -/
def table {W : Type} (e : Enc) (qs : Lex → List Nat) (f : Entry W → Option (List Nat)) (grps : List (Grp W)) : Option Printout :=
  match countAll e (initLex 200) ((grps.flatMap fun g => g.paths.flatten).filterMap f) with
  | none => none
  | some lex => printout lex (qs lex) 1

/-- The list of confusion pairs, src/sclite/sc_dtl.c:381-386: `rsprintf` writes each pair into a buffer of 10000 bytes
(src/sclite/rsprintf.c:9 and 31), `none` if it does not fit. -/
def confTable {W : Type} (e : Enc) (qs : Lex → List Nat) (value : W → List Nat) (grps : List (Grp W)) : Option Printout :=
  if ((grps.flatMap fun g => g.paths.flatten).filterMap (confWord value)).all (fun t => decide (t.length < 10000)) then
    table e qs (confWord value) grps
  else none

/-- How many paths contain an element of a kind, src/sclite/sc_dtl.c:287-301. -/
def pathsWith {W : Type} (p : Entry W → Bool) (grps : List (Grp W)) : Nat :=
  (grps.flatMap fun g => g.paths).countP fun path => decide (0 < path.countP p)

/-- A percentage rounded to tenths, `F_ROUND(pct(num,dem),1)`, src/sclite/sctk.h:43-45, in tenths, with exact numbers. -/
def tenths (num den : Nat) : Nat := if den = 0 then 0 else (2000 * num + den) / (2 * den)

/-- `F_ROUND(100.0 - pct(e,r),1)` in tenths, for `r > 0`; negative numbers are rounded away from zero at a half. -/
def accuracy (err ref : Nat) : Int :=
  if err < ref then (((2000 * (ref - err) + ref) / (2 * ref) : Nat) : Int) else -(((2000 * (err - ref) + ref) / (2 * ref) : Nat) : Int)

/-- The numbers of the detailed report. -/
structure Report where
  nsent : Nat
  nserr : Nat
  withSub : Nat
  withDel : Nat
  withIns : Nat
  corr : Nat
  sub : Nat
  del : Nat
  ins : Nat
  ref : Nat
  hyp : Nat
  aligned : Nat
  err : Nat
  /-- Percentages in tenths: error, correct, substitutions, deletions, insertions, accuracy; `none` = UNDEF. -/
  pcts : Option (Nat × Nat × Nat × Nat × Nat × Int)
  confusions : Printout
  insertions : Printout
  deletions : Printout
  substitutions : Printout
  falsely : Printout

/-- `score_dtl_overall`, src/sclite/sc_dtl.c:275-431; for a single group this is `score_dtl_spkr`, lines 120-273.  The percentages of
sentences and the layout are left out. -/
def report {W : Type} (e : Enc) (qs : Lex → List Nat) (value : W → List Nat) (grps : List (Grp W)) : Option Report :=
  let c := (grps.map (·.corr)).sum
  let s := (grps.map (·.sub)).sum
  let d := (grps.map (·.del)).sum
  let n := (grps.map (·.ins)).sum
  let r := c + s + d
  let er := s + d + n
  match confTable e qs value grps, table e qs (insWord value) grps, table e qs (delWord value) grps,
      table e qs (subWord value) grps, table e qs (falseWord value) grps with
  | some t1, some t2, some t3, some t4, some t5 =>
    some ⟨(grps.map (·.nsent)).sum, (grps.map (·.serr)).sum,
      pathsWith (fun en => match en with | .pair .sub _ _ => true | _ => false) grps,
      pathsWith (fun en => match en with | .del _ => true | _ => false) grps,
      pathsWith (fun en => match en with | .ins _ => true | _ => false) grps,
      c, s, d, n, r, c + s + n, c + s + n + d, er,
      if 0 < r then some (tenths er r, tenths c r, tenths s r, tenths d r, tenths n r, accuracy er r) else none,
      t1, t2, t3, t4, t5⟩
  | _, _, _, _, _ => none

/-! ## The missed words of the lattice analysis -/

/-- Counting a missed word, src/sclite/corresp.c:358-363: `AUTO_LEX_find` gives the place in the order, which is used as the number of
the text. -/
def missed (e : Enc) (lex : Lex) (w : List Nat) : Option Lex :=
  match find e lex w with
  | none => none
  | some (some i) => some (bump lex i)
  | some none => (insert e lex w).map fun r => bump { r.1 with cnt := r.1.cnt.set r.2 0 } r.2

/-- Counting all of them. -/
def missedAll (e : Enc) : Lex → List (List Nat) → Option Lex
  | lex, [] => some lex
  | lex, w :: ws =>
    match missed e lex w with
    | none => none
    | some lex' => missedAll e lex' ws

end Verif.Detail
