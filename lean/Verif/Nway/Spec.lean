import Verif.AscGraph.Spec
/-!
# Specification of an alignment of several systems with each other

Independent of the cost table and of coordinates.  An alignment is a list of columns; a column holds at most one token
per stream, and at least one token.
-/
set_option autoImplicit false
namespace Verif.Nway
open Verif.AscGraph

/-- An alignment of all the streams with each other: no empty column, and every stream is read along one complete
path. -/
def IsNway (g : G) (cols : List Column) : Prop :=
  (∀ col ∈ cols, col.length = g.dim ∧ occupied col ≠ []) ∧
  ∀ (i : Nat) (s : Stream), g.streams[i]? = some s → CompletePath s (proj i cols)

/-- The tokens of a column, in the order of the streams. -/
def tokensOf (g : G) (col : Column) : List Tok :=
  (occupied col).filterMap (fun i => g.tok i ((col.getD i none).getD 0))

/-- How many tokens of the list agree, at most: the size of the largest group of tokens equivalent to one of them. -/
def agreeing (eqv : Tok → Tok → Bool) (ts : List Tok) : Nat :=
  (ts.map (fun t => ts.countP (fun u => eqv t u))).foldr max 0

/-- Unit costs of an n-way alignment. -/
structure Prices where
  missing : Int
  missingOptional : Int
  disagree : Int

/-- Cost of a column: every stream without a token costs `missing` (`missingOptional` if the last token of the column is
optional), every token outside the largest group of agreeing tokens costs `disagree`. -/
def Prices.col (k : Prices) (eqv : Tok → Tok → Bool) (dim : Nat) (ts : List Tok) : Int :=
  (if (ts.getLast?.map Tok.optional).getD false then k.missingOptional else k.missing) * ((dim - ts.length : Nat) : Int) +
    k.disagree * ((ts.length - agreeing eqv ts : Nat) : Int)

/-- Cost of an alignment. -/
def Prices.total (k : Prices) (eqv : Tok → Tok → Bool) (g : G) (cols : List Column) : Int :=
  (cols.map (fun col => k.col eqv g.dim (tokensOf g col))).sum

/-- Token equivalence is an equivalence relation. -/
structure Equiv (eqv : Tok → Tok → Bool) : Prop where
  refl : ∀ a, eqv a a = true
  symm : ∀ a b, eqv a b = true → eqv b a = true
  trans : ∀ a b c, eqv a b = true → eqv b c = true → eqv a c = true

/-- What the times of the tokens of a column should cost: how far each of them is from the common span, added up. -/
def spread (lo hi : Int) (ts : List Tok) : Int := (ts.map (fun t => (hi - t.stop) + (t.start - lo))).sum

/-- `lo`, `hi` is the time span of the tokens. -/
def Span (lo hi : Int) (ts : List Tok) : Prop :=
  (∃ t ∈ ts, t.start = lo) ∧ (∃ t ∈ ts, t.stop = hi) ∧ ∀ t ∈ ts, lo ≤ t.start ∧ t.stop ≤ hi

/-- All ways to pick one element of each list, the first list changing fastest. -/
def grid : List (List Nat) → List Coord
  | [] => [[]]
  | xs :: ls => (grid ls).flatMap (fun r => xs.map (fun x => x :: r))

end Verif.Nway
