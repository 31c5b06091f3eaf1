import Verif.Segmentor.Model
/-!
# Vocabulary for the segmentor theorems
-/
set_option autoImplicit false
namespace Verif.Segmentor

/-- Point `p` lies in the closed interval. -/
def Timed.has (a : Timed) (p : Int) : Prop := a.start ≤ p ∧ p ≤ a.stop

/-- Same recording and channel. -/
def SameKey (x y : Seg) : Prop := x.source = y.source ∧ x.channel = y.channel

/-- A usable segment: starts at or after 0, lasts a positive time, ends before the largest `int`. -/
def Proper (x : Seg) : Prop := 0 ≤ x.start ∧ x.start < x.stop ∧ x.stop < 2147483647

/-- One speaker's segments in a recording and channel come in time order without overlap. -/
def InOrder (sp : Speech) : Prop := sp.Pairwise fun x y => SameKey x y → x.stop ≤ y.start

end Verif.Segmentor
