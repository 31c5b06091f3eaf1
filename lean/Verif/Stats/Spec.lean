/-!
# Ranks and comparison tests: vocabulary for the properties

Nothing here mentions how the program ranks or tests.
-/
set_option autoImplicit false
namespace Verif.Stats

/-- `ptr` lists the positions of `arr`, each once, so that the values ascend. -/
def Ascending (arr : List Rat) (ptr : List Nat) : Prop :=
  ptr.Perm (List.range arr.length) ∧ ptr.Pairwise (fun i j => arr.getD i 0 ≤ arr.getD j 0)

/-- `ptr` lists the positions of `arr`, each once, so that the values descend. -/
def Descending (arr : List Rat) (ptr : List Nat) : Prop :=
  ptr.Perm (List.range arr.length) ∧ ptr.Pairwise (fun i j => arr.getD j 0 ≤ arr.getD i 0)

/-- Number of values below `x`. -/
def below (arr : List Rat) (x : Rat) : Nat := arr.countP (fun y => y < x)

/-- Number of values above `x`. -/
def above (arr : List Rat) (x : Rat) : Nat := arr.countP (fun y => x < y)

/-- Number of values equal to `x`. -/
def same (arr : List Rat) (x : Rat) : Nat := arr.countP (fun y => y = x)

/-- The average of the places `first + 1, …, first + k`. -/
def averagePlace (first k : Nat) : Rat := (first : Rat) + ((k : Rat) + 1) / 2

/-- All outcomes of tossing a coin `n` times. -/
def tosses : Nat → List (List Bool)
  | 0 => [[]]
  | n + 1 => (tosses n).flatMap (fun s => [true :: s, false :: s])

/-- Probability that `n` tosses of a fair coin show one of the sides at most `r` times. -/
def splitProb (r n : Nat) : Rat :=
  (((tosses n).countP (fun s => min (s.count true) (s.count false) ≤ r) : Nat) : Rat) / (((tosses n).length : Nat) : Rat)

/-- Sum of the values. -/
def total (l : List Rat) : Rat := l.sum

/-- Number of speakers for whom the first system's value is smaller by more than `t`. -/
def smaller (t : Rat) (l : List (Rat × Rat)) : Nat := l.countP (fun p => p.1 < p.2 ∧ t < p.2 - p.1)

/-- A system's results: for every speaker (group of sentences) the sentences, each with "has an error". -/
abbrev Results (N I : Type) := List (N × List (I × Bool))

/-- All sentences with the speaker's name. -/
def sentences {N I : Type} (r : Results N I) : List ((N × I) × Bool) :=
  r.flatMap (fun g => g.2.map (fun s => ((g.1, s.1), s.2)))

/-- Speakers occur once, and sentences once per speaker. -/
def Distinct {N I : Type} (r : Results N I) : Prop :=
  (r.map (·.1)).Nodup ∧ ∀ g ∈ r, (g.2.map (·.1)).Nodup

/-- Number of sentences both have in which the first is `a` and the second `b` ("has an error"). -/
def both {N I : Type} [DecidableEq N] [DecidableEq I] (x y : Results N I) (a b : Bool) : Nat :=
  (sentences x).countP (fun s => s.2 = a ∧ (s.1, b) ∈ sentences y)

end Verif.Stats
