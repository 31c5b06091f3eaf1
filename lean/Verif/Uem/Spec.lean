import Verif.Uem.Model
import Verif.Segmentor.Spec
/-!
# Vocabulary for the theorems on the UEM filter
-/
set_option autoImplicit false
namespace Verif.Uem
open Segmentor

/-- The region belongs to the file and channel of the segment. -/
def Elem.For (e : Elem) (g : Seg) : Prop := e.file = g.source ∧ e.channel = g.channel

/-- The name written in the region is an initial part of the segment's file name, same channel. -/
def Elem.ForPrefix (e : Elem) (g : Seg) : Prop :=
  (∃ rest, g.source.toList = e.file.toList ++ rest) ∧ e.channel = g.channel

/-- The segment lies within the region. -/
def Inside (g : Seg) (e : Elem) : Prop := e.start ≤ g.start ∧ g.stop ≤ e.stop

/-- The moment in the middle of the segment, rounded down for segments of non-negative times, lies in the region. -/
def MidInside (g : Seg) (e : Elem) : Prop :=
  e.start ≤ (g.start + g.stop).tdiv 2 ∧ (g.start + g.stop).tdiv 2 ≤ e.stop

/-- Some moment belongs to both, strictly between the ends, and a region's end is strictly inside the segment. -/
def Cut (g : Seg) (e : Elem) : Prop :=
  (g.start < e.start ∧ e.start < g.stop) ∨ (g.start < e.stop ∧ e.stop < g.stop)

/-- Two intervals have no common moment, their ends apart. -/
def Apart (i j : Int × Int) : Prop := i.2 ≤ j.1 ∨ j.2 ≤ i.1

/-- The moment `t` lies in one of the intervals (an interval ends before its second time). -/
def Covers (l : List (Int × Int)) (t : Int) : Prop := ∃ i ∈ l, i.1 ≤ t ∧ t < i.2

/-- The regions of a file and channel. -/
def regions (els : List Elem) (file channel : String) : List (Int × Int) :=
  (els.filter fun e => decide (e.file = file ∧ e.channel = channel)).map fun e => (e.start, e.stop)

/-- The tokens `ts` are linked one after the other, and not to anything else. -/
def Linked (prec next : Nat → List Nat) (ts : List Nat) : Prop :=
  ∀ a x b, ts = a ++ x :: b → next x = b.head?.toList ∧ prec x = a.getLast?.toList

end Verif.Uem
