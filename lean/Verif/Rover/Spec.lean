import Verif.Rover.Model
/-!
# What the combination of systems and the vote are to achieve
-/
set_option autoImplicit false
namespace Verif.Rover
open Verif.Net

/-- From node `u` on the network is a sequence of slots: all arcs out of a node lead to the same next node, and carry the
words of the slot; the sequence ends in the stop node. -/
inductive Chain {W : Type} (n : Net W) : Nat → List (List W) → Prop where
  | stop {u : Nat} : n.stop = some u → n.out u = [] → Chain n u []
  | slot {u v : Nat} {s : List W} {ss : List (List W)} : s ≠ [] → (n.out u).map n.data = s.map some →
      (∀ a ∈ n.out u, n.dst a = v) → Chain n v ss → Chain n u (s :: ss)

/-- The whole network is the given sequence of slots; without slots it has no arc and no stop node. -/
def IsSlots {W : Type} (n : Net W) (slots : List (List W)) : Prop :=
  match slots with
  | [] => n.stop = none ∧ n.out n.start = []
  | _ => Chain n n.start slots

/-- `table` shows which system has which word in which slot: a row for each slot, a column for each system.  The entries
of a slot are those of its row in some order, with `null` for systems that have no word there; every slot has a word of
some system; reading down a column gives the words of the system. -/
structure Placed {W : Type} (null : W) (systems : List (List W)) (slots : List (List W)) (table : List (List (Option W))) :
    Prop where
  rows : table.length = slots.length
  width : ∀ r ∈ table, r.length = systems.length
  entries : ∀ (i : Nat) (r : List (Option W)) (s : List W), table[i]? = some r → slots[i]? = some s →
    s.Perm (r.map fun o => o.getD null)
  used : ∀ r ∈ table, ∃ w : W, some w ∈ r
  column : ∀ (j : Nat) (ws : List W), systems[j]? = some ws → table.filterMap (fun r => (r[j]?).join) = ws

/-! ## The vote -/

/-- Word equality is an equivalence. -/
structure Equiv {V : Type} (eq : V → V → Bool) : Prop where
  refl : ∀ x, eq x x = true
  symm : ∀ x y, eq x y = true → eq y x = true
  trans : ∀ x y z, eq x y = true → eq y z = true → eq x z = true

/-- The entries of the slot that vote for the word of `w`. -/
def voters {V : Type} (eq : V → V → Bool) (slot : List (Tok V)) (w : Tok V) : List (Tok V) :=
  slot.filter fun x => eq w.val x.val

/-- Mean of a quantity over entries. -/
def mean {V : Type} (f : Tok V → Rat) (l : List (Tok V)) : Rat := (l.map f).sum / (l.length : Rat)

/-- Largest confidence (at least 0). -/
def top {V : Type} (l : List (Tok V)) : Rat := (l.map Tok.conf).foldr (fun x m => if x ≤ m then m else x) 0

/-- The score of a word: `alpha` times its share of the votes plus `1 - alpha` times a confidence: its mean confidence, its
largest confidence, or its share of the summed confidences (not defined when that sum vanishes). -/
def scoreOf {V : Type} (eq : V → V → Bool) (m : Meth) (alpha : Rat) (slot : List (Tok V)) (w : Tok V) : Option Rat :=
  let share : Rat := ((voters eq slot w).length : Rat) / (slot.length : Rat)
  match m with
  | .meth1 | .oracle => some (alpha * share + (1 - alpha) * mean Tok.conf (voters eq slot w))
  | .maxconf => some (alpha * share + (1 - alpha) * top (voters eq slot w))
  | .avgconf =>
    if (slot.map Tok.conf).sum = 0 then none
    else some (alpha * share + (1 - alpha) * ((voters eq slot w).map Tok.conf).sum / (slot.map Tok.conf).sum)

/-- The output line for a word: mean start, mean duration, the word, mean confidence. -/
def lineOf {V : Type} (eq : V → V → Bool) (slot : List (Tok V)) (w : Tok V) : Line V :=
  .word (mean Tok.t1 (voters eq slot w)) (mean (fun x => x.t2 - x.t1) (voters eq slot w)) w.val
    (mean Tok.conf (voters eq slot w))

/-- The slot has at most `k` different words. -/
def AtMost {V : Type} (eq : V → V → Bool) (k : Nat) (slot : List (Tok V)) : Prop :=
  ∀ l : List (Tok V), l.Sublist slot → l.Pairwise (fun x y => eq x.val y.val = false) → l.length ≤ k

/-- `r` lists the different words of the slot in the order of their first occurrences. -/
structure FirstOnes {V : Type} (eq : V → V → Bool) (slot r : List (Tok V)) : Prop where
  sub : r.Sublist slot
  apart : r.Pairwise fun x y => eq x.val y.val = false
  all : ∀ (pre : List (Tok V)) (x : Tok V) (post : List (Tok V)), slot = pre ++ x :: post →
    (∀ y ∈ pre, eq y.val x.val = false) → x ∈ r

end Verif.Rover
