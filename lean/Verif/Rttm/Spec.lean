import Verif.Rttm.Model
/-!
# What a user expects of the tools for RTTM files

Turns are half-open intervals of time.
-/
set_option autoImplicit false
namespace Verif.Rttm

/-- Some turn contains the instant. -/
def Cov (l : List Seg) (x : Int) : Prop := ∃ a ∈ l, a.beg ≤ x ∧ x < a.fin

/-- The instant lies in a pause of at most `th` between the end of a turn and the beginning of a turn. -/
def InPause (th : Int) (l : List Seg) (x : Int) : Prop := ∃ a ∈ l, ∃ b ∈ l, a.fin ≤ x ∧ x < b.beg ∧ b.beg - a.fin ≤ th

/-- The turns of a speaker in a file. -/
def turnsOf (f s : Nat) (ls : List Line) : List Seg := (ls.filter (fun l => l.file == f && l.spkr == s)).map Line.seg

/-- The turns of a speaker in a channel of a file. -/
def turnsIn (f c s : Nat) (ls : List Line) : List Seg :=
  (ls.filter (fun l => l.file == f && l.chnl == c && l.spkr == s)).map Line.seg

/-- The turns of a channel of a file, whoever speaks. -/
def speechIn (f c : Nat) (ls : List Line) : List Seg := (ls.filter (fun l => l.file == f && l.chnl == c)).map Line.seg

/-- A sort of lines by begin. -/
structure Sorts (sort : List Line → List Line) : Prop where
  perm : ∀ l, (sort l).Perm l
  sorted : ∀ l, (sort l).Pairwise (fun a b => a.seg.beg ≤ b.seg.beg)

/-- Some segment contains the instant. -/
def UCov (l : List Utt) (x : Int) : Prop := ∃ a ∈ l, a.beg ≤ x ∧ x < a.fin

/-- The instant lies in a pause of at most `th`. -/
def UPause (th : Int) (l : List Utt) (x : Int) : Prop := ∃ a ∈ l, ∃ b ∈ l, a.fin ≤ x ∧ x < b.beg ∧ b.beg - a.fin ≤ th

/-- The order of a sorted RTTM file: file, channel, begin time with those not given first. -/
def RecLe (a b : Rec) : Prop :=
  a.file < b.file ∨ (a.file = b.file ∧ (a.chan < b.chan ∨ (a.chan = b.chan ∧
    match a.time, b.time with
    | none, _ => True
    | some _, none => False
    | some x, some y => x ≤ y)))

end Verif.Rttm
