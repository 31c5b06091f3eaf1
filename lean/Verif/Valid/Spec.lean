import Verif.Valid.Model
/-!
# What a user expects of the validator

The claims are for files whose times have at most three decimals, for which the tolerance of the program, just below a millisecond,
must make no difference.
-/
set_option autoImplicit false
namespace Verif.Valid

/-- A sort of lines by begin. -/
structure Sorts (sort : List Obj → List Obj) : Prop where
  perm : ∀ l, (sort l).Perm l
  sorted : ∀ l, (sort l).Pairwise (fun a b => a.beg ≤ b.beg)

/-- A time with at most three decimals, in nanoseconds. -/
def Milli (t : Int) : Prop := ∃ k : Int, t = 1000000 * k

/-- All times have at most three decimals. -/
def MilliFile (data : List Obj) : Prop := ∀ o ∈ data, Milli o.beg ∧ Milli o.dur

/-- Same channel of the same file. -/
def SameChan (a b : Obj) : Prop := a.src = b.src ∧ a.chnl = b.chnl

/-- Same speaker in the same channel of the same file. -/
def SameSpk (a b : Obj) : Prop := SameChan a b ∧ a.spkr = b.spkr

/-- Two objects share some time: neither ends before or when the other begins. -/
def Share (a b : Obj) : Prop := a.beg < b.beg + b.dur ∧ b.beg < a.beg + a.dur

/-- `a` lies within `b`. -/
def Within (a b : Obj) : Prop := b.beg ≤ a.beg ∧ a.beg + a.dur ≤ b.beg + b.dur

/-- A type with extent in time: all but the two points and the information on speakers. -/
def Timed (t : Ty) : Prop := t ≠ .ip ∧ t ≠ .cb ∧ t ≠ .spkrInfo

/-- `a` and `b` begin and end in different places of the file: no two lines of the same type and speaker share time. -/
def NoOverlap (data : List Obj) : Prop := data.Pairwise (fun a b => Timed a.ty → a.ty = b.ty → SameSpk a b → ¬ Share a b)

/-- Types in which there must be words. -/
def Holder (t : Ty) : Prop := t = .su ∨ t = .edit ∨ t = .filler

end Verif.Valid
