import Verif.Sgml.Model
/-!
# Curves and histograms of confidences

src/sclite/det.c.  Confidences are exact numbers.
-/
set_option autoImplicit false
namespace Verif.Det
open Verif.Sgml (Entry)

/-! ## Trade-off curves -/

/-- The confidences of the correct words, src/sclite/det.c:80-84; `isNull` says that the word is empty. -/
def targets {W : Type} (conf : W → Rat) (isNull : W → Bool) : List (Entry W) → List Rat
  | [] => []
  | .pair .corr _ b :: es => if isNull b then targets conf isNull es else conf b :: targets conf isNull es
  | _ :: es => targets conf isNull es

/-- The confidences of the substituted and inserted words, src/sclite/det.c:85-92. -/
def nonTargets {W : Type} (conf : W → Rat) : List (Entry W) → List Rat
  | [] => []
  | .pair .sub _ b :: es => conf b :: nonTargets conf es
  | .ins b :: es => conf b :: nonTargets conf es
  | _ :: es => nonTargets conf es

/-- An array of confidences: the cells in use and its size. -/
structure Arr where
  used : List Rat
  max : Nat
  deriving DecidableEq, Repr

/-- A new array of zeros for the next system, src/sclite/det.c:71-72; the number of cells in use is not set back. -/
def fresh (n max : Nat) : Arr := ⟨List.replicate n 0, max⟩

/-- Adding a confidence, src/sclite/det.c:82-84 and 87-91. -/
def Arr.push (a : Arr) (x : Rat) : Arr := ⟨a.used ++ [x], if a.max ≤ a.used.length then a.max * 2 else a.max⟩

/-- Adding the confidences of a system, src/sclite/det.c:74-96. -/
def Arr.fill (a : Arr) (xs : List Rat) : Arr := xs.foldl Arr.push a

/-- Insertion into a sorted list; for `insertSort`. -/
def insertR (x : Rat) : List Rat → List Rat
  | [] => [x]
  | y :: ys => if x ≤ y then x :: y :: ys else y :: insertR x ys

/-- The sorted array; `qsort` with `qsort_double_compare`, src/sclite/order.c:63-66: equal numbers cannot be told apart, so every sort gives
the same. -/
def sortR : List Rat → List Rat
  | [] => []
  | x :: xs => insertR x (sortR xs)

/-- The cells of a sorted array with the sentinel `SMAX` (here `none`) after the last number, src/sclite/det.c:190-196.  Cells that follow
are zero. -/
def cells (a : Arr) : List (Option Rat) := (sortR a.used).map some ++ none :: List.replicate (a.max - a.used.length - 1) (some 0)

/-- Comparison of cells; all numbers are less than `SMAX`. -/
def le : Option Rat → Option Rat → Bool
  | _, none => true
  | none, some _ => false
  | some a, some b => decide (a ≤ b)

/-- A row of the table: the fixed first point, a point of misses and false alarms (numerators over the numbers of correct and of wrong
words, to which the scale `ppndf` is applied), or a row never written. -/
inductive Pt where
  | start
  | frac (miss fa : Int)
  | zero
  deriving DecidableEq, Repr

/-- The loop of `Compute_ROC`, src/sclite/det.c:204-225; `none` = undefined.  `fuel` bounds the number of rounds, each of which writes a
row. -/
def rocLoop (T F : List (Option Rat)) (n m rows : Nat) : Nat → Nat → Nat → Nat → Option (List Pt)
  | 0, _, _, _ => none
  | fuel + 1, nt, nf, npts =>
    if ¬ (nt < n ∨ nf < m) then some []
    else
      match T[nt]?, F[nf]? with
      | some t, some f =>
        if npts + 1 < rows then
          if le t f = true ∧ nt < n then
            (rocLoop T F n m rows fuel (nt + 1) nf (npts + 1)).map fun r => .frac nt ((m : Int) - ((nf : Int) - 1)) :: r
          else
            (rocLoop T F n m rows fuel nt (nf + 1) (npts + 1)).map fun r => .frac ((nt : Int) - 1) ((m : Int) - nf) :: r
        else none
      | _, _ => none

/-- `Compute_ROC`, src/sclite/det.c:183-226. -/
def computeRoc (t f : Arr) : Option (List Pt) :=
  if t.used.length < t.max ∧ f.used.length < f.max ∧ 0 < t.used.length + f.used.length then
    (rocLoop (cells t) (cells f) t.used.length f.used.length (t.used.length + f.used.length) (t.used.length + f.used.length) 1 1 0).map
      fun r => .start :: r
  else none

/-- The rows that are printed, src/sclite/det.c:110-111. -/
def printed (rows : Nat) (pts : List Pt) : List Pt := (pts ++ List.replicate (rows - pts.length) Pt.zero).take (rows - 1)

/-- The loop over the systems of `make_SCORES_DET_curve`, src/sclite/det.c:69-122, on the confidences of correct and wrong words. -/
def detLoop : Nat → Nat → Nat → Nat → List (List Rat × List Rat) → Option (List (List Pt))
  | _, _, _, _, [] => some []
  | nt, maxT, nf, maxF, s :: ss =>
    let t := (fresh nt maxT).fill s.1
    let f := (fresh nf maxF).fill s.2
    match computeRoc t f with
    | none => none
    | some pts => (detLoop t.used.length t.max f.used.length f.max ss).map fun r => printed (t.used.length + f.used.length) pts :: r

/-- `make_SCORES_DET_curve`, src/sclite/det.c:19-144: the tables of all systems. -/
def detCurves {W : Type} (conf : W → Rat) (isNull : W → Bool) (systems : List (List (List (Entry W)))) : Option (List (List Pt)) :=
  detLoop 0 10000 0 10000 (systems.map fun ps => (targets conf isNull ps.flatten, nonTargets conf ps.flatten))

/-! ## Histograms -/

/-- Conversion to `int`: the fraction is cut off. -/
def trunc (q : Rat) : Int := if q < 0 then -(-q).floor else q.floor

/-- The bin of a confidence, src/sclite/det.c:607-614; `none` = out of range.  The range is from 0 to 1 in all calls.  Numbers are taken to
fit into an `int`. -/
def bin (nbin : Nat) (c : Rat) : Option Nat :=
  let d := c * nbin
  let i := if d ≤ nbin ∧ trunc d = nbin then (nbin : Int) - 1 else trunc d
  if i < 0 ∨ (nbin : Int) ≤ i then none else some i.toNat

/-- The hypothesis words that are not empty, with confidence and whether they are correct, src/sclite/det.c:604-606 and 488-490. -/
def hyps {W : Type} (conf : W → Rat) (isNull : W → Bool) : List (Entry W) → List (Rat × Bool)
  | [] => []
  | .del _ :: es => hyps conf isNull es
  | .ins b :: es => if isNull b then hyps conf isNull es else (conf b, false) :: hyps conf isNull es
  | .pair ev _ b :: es => if isNull b then hyps conf isNull es else (conf b, decide (ev = .corr)) :: hyps conf isNull es

/-- The numbers of correct and wrong words of each bin, and of the words out of range. -/
structure Hist where
  bins : List (Nat × Nat)
  errors : Nat
  deriving DecidableEq, Repr

/-- One word, src/sclite/det.c:607-621. -/
def Hist.add (h : Hist) (w : Rat × Bool) : Hist :=
  match bin h.bins.length w.1 with
  | none => { h with errors := h.errors + 1 }
  | some i => { h with bins := h.bins.modify i fun c => if w.2 then (c.1 + 1, c.2) else (c.1, c.2 + 1) }

/-- `binned_confidences`, src/sclite/det.c:588-641. -/
def histogram {W : Type} (conf : W → Rat) (isNull : W → Bool) (nbin : Nat) (paths : List (List (Entry W))) : Hist :=
  (hyps conf isNull paths.flatten).foldl Hist.add ⟨List.replicate nbin (0, 0), 0⟩

/-- The percentage of correct words of a bin, src/sclite/det.c:629-633. -/
def pctCorr (c : Nat × Nat) : Rat := if c.1 + c.2 = 0 then 0 else (c.1 : Rat) / ((c.1 + c.2 : Nat) : Rat) * 100

/-! ## Bins of equal numbers of words -/

/-- A bin: its words' numbers and the bounds of the confidences. -/
structure Chunk where
  corr : Nat
  err : Nat
  min : Rat
  max : Rat
  deriving DecidableEq, Repr

/-- The bin of some words, src/sclite/det.c:515-523. -/
def chunk (ws : List (Rat × Bool)) : Chunk :=
  ws.foldl (fun k w => ⟨if w.2 then k.corr + 1 else k.corr, if w.2 then k.err else k.err + 1, if w.1 < k.min then w.1 else k.min,
    if k.max < w.1 then w.1 else k.max⟩) ⟨0, 0, 99999, -999999 / 10⟩

/-- The loop over the bins, src/sclite/det.c:513-532, on the sorted words; `none` = a read outside of the arrays. -/
def chunkLoop (ws : List (Rat × Bool)) (step : Nat) : Nat → Nat → Nat → Option (List Chunk)
  | 0, _, _ => none
  | fuel + 1, l, b =>
    if l < b ∧ l < ws.length then
      if b ≤ ws.length then
        let b' := b + step
        (chunkLoop ws step fuel b (if ws.length < b' + step then ws.length else b')).map fun r => chunk ((ws.drop l).take (b - l)) :: r
      else none
    else some []

/-- `make_scaled_binned_confidence`, src/sclite/det.c:464-580: `ptr` are the positions in sorted order; `none` = undefined, in particular for
0 bins.  Growing of the arrays is not modelled. -/
def scaled (words : List (Rat × Bool)) (ptr : List Nat) (bins : Nat) : Option (List Chunk) :=
  if bins = 0 then none
  else
    match ptr.mapM fun i => words[i]? with
    | none => none
    | some ws => chunkLoop ws (ws.length / bins) (ws.length + 1) 0 (ws.length / bins)

end Verif.Det
