import Verif.Detail.Model
import Verif.Text.Spec
import Verif.Score.Spec
/-!
# Specification vocabulary for counted word lists and the detailed reports
-/
set_option autoImplicit false
namespace Verif.Detail
open Verif.Text
open Verif.Sgml (Entry)

/-- A text comes before another one. -/
def Lt (e : Enc) (x y : List Nat) : Prop := ∃ r : Int, strcmp e x y = some r ∧ r < 0

/-- A line comes before another one: more occurrences, or as many and an earlier text. -/
def Above (e : Enc) (x y : Nat × List Nat) : Prop := y.1 < x.1 ∨ (x.1 = y.1 ∧ Lt e x.2 y.2)

/-- The printed list is that of the occurrences `ws`: each text that occurs has one line with the number of its occurrences, the most
frequent texts come first and equally frequent ones in the order of the texts; the headings give the number of lines and the sum at the end
is the number of occurrences. -/
structure IsTable (e : Enc) (ws : List (List Nat)) (p : Printout) : Prop where
  lines : ∀ (n : Nat) (w : List Nat), (n, w) ∈ p.lines ↔ w ∈ ws ∧ n = ws.count w
  order : p.lines.Pairwise (Above e)
  total : p.total = p.lines.length
  reaching : p.reaching = p.lines.length
  sum : p.sum = ws.length

/-- What the C library's `qsort` gives: the positions in an order of decreasing counts. -/
def IsSort (lex : Lex) (ptr : List Nat) : Prop :=
  ptr.Perm (List.range lex.str.length) ∧ ptr.Pairwise fun i j => lex.at j ≤ lex.at i

/-- Each text that occurs for the first time comes after all texts that occurred before. -/
def NewInOrder (e : Enc) (ws : List (List Nat)) : Prop :=
  ∀ (pre post : List (List Nat)) (w : List Nat), ws = pre ++ w :: post → w ∉ pre → ∀ v ∈ pre, Lt e v w

/-- The inserted word, the deleted word, the substituted pair, its reference word and its hypothesis word. -/
def inserted {W : Type} (value : W → List Nat) : Entry W → Option (List Nat)
  | .ins b => some (value b)
  | _ => none
def deleted {W : Type} (value : W → List Nat) : Entry W → Option (List Nat)
  | .del a => some (value a)
  | _ => none
def confused {W : Type} (value : W → List Nat) : Entry W → Option (List Nat × List Nat)
  | .pair .sub a b => some (value a, value b)
  | _ => none

/-- A pair as it is printed. -/
def arrow (x : List Nat × List Nat) : List Nat := x.1 ++ [32, 61, 61, 62, 32] ++ x.2

/-- The report is that of these alignments: numbers of sentences and words, and the five lists. -/
structure IsReport {W : Type} (e : Enc) (value : W → List Nat) (paths : List (List (Entry W))) (r : Report) : Prop where
  nsent : r.nsent = paths.length
  nserr : r.nserr = paths.countP (·.any Score.isErr)
  withSub : r.withSub = paths.countP (·.any Score.isSub)
  withDel : r.withDel = paths.countP (·.any Score.isDel)
  withIns : r.withIns = paths.countP (·.any Score.isIns)
  corr : r.corr = paths.flatten.countP Score.isCorr
  sub : r.sub = paths.flatten.countP Score.isSub
  del : r.del = paths.flatten.countP Score.isDel
  ins : r.ins = paths.flatten.countP Score.isIns
  ref : r.ref = r.corr + r.sub + r.del
  hyp : r.hyp = r.corr + r.sub + r.ins
  aligned : r.aligned = r.corr + r.sub + r.ins + r.del
  err : r.err = paths.flatten.countP Score.isErr
  confusions : IsTable e ((paths.flatten.filterMap (confused value)).map arrow) r.confusions
  insertions : IsTable e (paths.flatten.filterMap (inserted value)) r.insertions
  deletions : IsTable e (paths.flatten.filterMap (deleted value)) r.deletions
  substitutions : IsTable e ((paths.flatten.filterMap (confused value)).map (·.1)) r.substitutions
  falsely : IsTable e ((paths.flatten.filterMap (confused value)).map (·.2)) r.falsely

/-- `t` tenths is nearest to the percentage `num / den`: they differ by half a tenth at most. -/
def Nearest (num : Int) (den : Nat) (t : Int) : Prop := 2000 * num ≤ 2 * den * t + den ∧ 2 * den * t ≤ 2000 * num + den

end Verif.Detail
