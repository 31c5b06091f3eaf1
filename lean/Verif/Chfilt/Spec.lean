import Verif.Chfilt.Model
/-!
# What a user expects of the segments chfilt writes
-/
set_option autoImplicit false
namespace Verif.Chfilt

/-- The records of one channel, in their order. -/
def of (c : String) (rs : List Rec) : List Rec := rs.filter (fun r => r.chan == c)

/-- Two segments share time. -/
def Overlap (x y : Rec) : Prop := x.bt < y.et ∧ y.bt < x.et

/-- A relation between neighbours. -/
def Neighbours (R : Rec → Rec → Prop) : List Rec → Prop
  | [] => True
  | [_] => True
  | x :: y :: rs => R x y ∧ Neighbours R (y :: rs)

/-- In order, none begins before the one before it has ended. -/
def Disjoint (rs : List Rec) : Prop := Neighbours (fun x y => x.et ≤ y.bt) rs

/-- Begins and ends do not go back from one segment to the next. -/
def Ordered (rs : List Rec) : Prop := rs.Pairwise (fun x y => x.bt ≤ y.bt ∧ x.et ≤ y.et)

/-- What a pause gives to either side, in halves of the unit: half of it, at most the padding. -/
def half (P a b : Int) : Int := if a < b then min (b - a) (2 * P) else 0

/-- Where the next segment begins, or the test ends. -/
def nextBegin (E : Int) : List Rec → Int
  | [] => E
  | q :: _ => q.bt

/-- The padded segments of a channel, in halves of the unit: half of each pause to either side, at most the padding. -/
def padded (P E : Int) : Int → List Rec → List Rec
  | _, [] => []
  | last, r :: rs =>
    { r with bt := 2 * r.bt - half P last r.bt, et := 2 * r.et + half P r.et (nextBegin E rs) } :: padded P E r.et rs

/-- A record for a gap. -/
def gapRec (c : String) (a b : Int) : Rec := { chan := c, spkr := .gap, bt := a, et := b, text := [] }

/-- The segments of a channel with records for the gaps longer than `d` before, between and after them. -/
def filled (c : String) (d E : Int) : Int → List Rec → List Rec
  | last, [] => if last + d < E then [gapRec c last E] else []
  | last, r :: rs => (if last + d < r.bt then [gapRec c last r.bt] else []) ++ r :: filled c d E r.et rs

end Verif.Chfilt
