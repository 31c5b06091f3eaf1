/-!
# Matched-pairs test: vocabulary for the properties
-/
set_option autoImplicit false
namespace Verif.Mapsswe

/-- Evaluation of an alignment entry: correct, insertion, or a substitution or deletion. -/
inductive Ev where
  | corr
  | ins
  | other
deriving DecidableEq

/-- An entry of an alignment: the reference word, if there is one, and the evaluation. -/
structure Entry (W : Type) where
  ref : Option W
  ev : Ev

/-- Only insertions are without a reference word. -/
def WellFormed {W : Type} (p : List (Entry W)) : Prop := ∀ e ∈ p, e.ref = none ↔ e.ev = Ev.ins

/-- Number of errors of an alignment. -/
def errors {W : Type} (p : List (Entry W)) : Nat := p.countP (fun e => e.ev ≠ Ev.corr)

/-- Number of reference words of an alignment. -/
def refWords {W : Type} (p : List (Entry W)) : Nat := p.countP (fun e => e.ev ≠ Ev.ins)

/-- A segment: reference words, errors of the first and of the second system. -/
structure Seg where
  ref : Nat
  err1 : Nat
  err2 : Nat
deriving DecidableEq

/-- The segment seen from the other system. -/
def Seg.swap (s : Seg) : Seg := ⟨s.ref, s.err2, s.err1⟩

/-- A system's alignments: speakers with their sentences. -/
abbrev System (N I P : Type) := List (N × List (I × P))

/-- Speakers occur once, and sentences once per speaker. -/
def Distinct {N I P : Type} (r : System N I P) : Prop :=
  (r.map (·.1)).Nodup ∧ ∀ g ∈ r, (g.2.map (·.1)).Nodup

/-- `p` is the system's alignment of sentence `i` of speaker `n`. -/
def Has {N I P : Type} (r : System N I P) (n : N) (i : I) (p : P) : Prop := ∃ ss, (n, ss) ∈ r ∧ (i, p) ∈ ss

/-- Sum of integers and sum of their squares. -/
def sumZ (d : List Int) : Int := d.sum
def sumSq (d : List Int) : Int := (d.map (fun x => x * x)).sum

end Verif.Mapsswe
