import Verif.WtokeNet.Spec
/-!
# Leaving out what the other file does not cover (sclite `-m`): vocabulary for the properties
-/
set_option autoImplicit false
namespace Verif.Reduce
open Verif.WtokeNet

/-- A reference segment: begin and end time. -/
structure Seg where
  t1 : Rat
  t2 : Rat
deriving DecidableEq

/-- The segment lies before all of the words or after all of them. -/
def Seg.Apart (s : Seg) (ws : List Tok) : Prop := (∀ w ∈ ws, s.t2 ≤ w.t1) ∨ (∀ w ∈ ws, w.t1 + w.dur ≤ s.t1)

/-- The word begins after the end of all segments, or ends before the begin of all of them. -/
def Far (segs : List Seg) (w : Tok) : Prop := (∀ s ∈ segs, s.t2 < w.t1) ∨ (∀ s ∈ segs, w.t1 + w.dur < s.t1)

instance (segs : List Seg) (w : Tok) : Decidable (Far segs w) := by unfold Far; infer_instance

/-- The words of an item. -/
def words : Item → List Tok
  | .skip t => [t]
  | .single t => [t]
  | .block _ first more _ => first ++ more.flatMap (fun x => x.2)

/-- None of the words of the item is covered. -/
def AllFar (segs : List Seg) (i : Item) : Prop := ∀ w ∈ words i, Far segs w

instance (segs : List Seg) (i : Item) : Decidable (AllFar segs i) := by unfold AllFar; infer_instance

/-- A time-marked word list in its proper form: words and alternations, nothing left out yet, marks where they belong, and all
words between -999999 and 9999999 seconds. -/
def Plainly (i : Item) : Prop :=
  (∀ t ∈ i.lines, t.ignore = false) ∧ (∀ w ∈ words i, Plain w ∧ -999999 < w.t1 ∧ w.t1 + w.dur < 9999999) ∧
  match i with
  | .skip _ => False
  | .single _ => True
  | .block b _ more e => Is beginMark b.sp ∧ Is endMark e.sp ∧ ∀ x ∈ more, Is orMark x.1.sp

/-- The item is not an alternation without a covered word. -/
def Touched (segs : List Seg) : Item → Prop
  | .block b first more e => ¬ AllFar segs (.block b first more e)
  | _ => True

end Verif.Reduce
