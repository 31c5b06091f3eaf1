import Verif.Store.Model
/-!
# Vocabulary for the theorems about stored alignments
-/
set_option autoImplicit false
namespace Verif.Store
open Verif.Scorer

/-- A pair of an alignment: reference word and hypothesis word, either may be missing. -/
abbrev Pair := Option Token × Option Token

/-- The only token among these, if there is one. -/
def Only (c : List (Option Token)) (o : Option Token) : Prop := c.filterMap id = o.toList

/-- The columns show these pairs: `k` hypotheses come first, at most one of them and one of the references has a token
in a column. -/
inductive Shows (k : Nat) : List Col → List Pair → Prop where
  | nil : Shows k [] []
  | cons (c : Col) (r h : Option Token) (cs : List Col) (ps : List Pair) :
      Only (c.drop k) r → Only (c.take k) h → Shows k cs ps → Shows k (c :: cs) ((r, h) :: ps)

/-- Two stretches of time with a common point. -/
def Meet (s e s' e' : Int) : Prop := ∃ t, s ≤ t ∧ t ≤ e ∧ s' ≤ t ∧ t ≤ e'

/-- Word and segment have a time in common. -/
def Overlaps (h : Token) (s : Seg) : Prop := Meet h.start h.stop s.start s.stop

/-- The segment under which a superfluous word is to be counted.  `l` and `r` are the segments of the reference words
before and after it, if any; `group` are the reference segments in order.  With times: the first of `l`, `r`, `group` it
overlaps.  Without: the first there is of `l`, `r`, else the first of `group` (compared by time nevertheless). -/
inductive Home (l r : Option Seg) (group : List Seg) (h : Token) : Seg → Prop where
  | left (s : Seg) : l = some s → (0 ≤ h.start → Overlaps h s) → Home l r group h s
  | right (s : Seg) : (∀ x, l = some x → 0 ≤ h.start ∧ ¬ Overlaps h x) → r = some s →
      (0 ≤ h.start → Overlaps h s) → Home l r group h s
  | time (s : Seg) (pre post : List Seg) : (∀ x, l = some x → 0 ≤ h.start ∧ ¬ Overlaps h x) →
      (∀ x, r = some x → 0 ≤ h.start ∧ ¬ Overlaps h x) → group = pre ++ s :: post →
      (∀ x ∈ pre, ¬ Overlaps h x) → Overlaps h s → Home l r group h s

/-- Segment of the last reference word of these pairs. -/
def leftOf (before : List Pair) : Option Seg := (before.filterMap Prod.fst).getLast?.map Token.seg
/-- Segment of the first reference word of these pairs. -/
def rightOf (after : List Pair) : Option Seg := (after.filterMap Prod.fst).head?.map Token.seg

/-- A stored pair: under which segment, and the pair. -/
abbrev Row := Seg × Pair

/-- Where the pairs of an alignment belong: a reference word under its own segment, a superfluous word at its home. -/
inductive Placed (group : List Seg) : List Pair → List Pair → List Row → Prop where
  | nil (before : List Pair) : Placed group before [] []
  | ref (before : List Pair) (r : Token) (h : Option Token) (after : List Pair) (rows : List Row) :
      Placed group (before ++ [(some r, h)]) after rows →
      Placed group before ((some r, h) :: after) ((r.seg, some r, h) :: rows)
  | ins (before : List Pair) (h : Token) (s : Seg) (after : List Pair) (rows : List Row) :
      Home (leftOf before) (rightOf after) group h s →
      Placed group (before ++ [(none, some h)]) after rows →
      Placed group before ((none, some h) :: after) ((s, none, some h) :: rows)

/-- The pairs of a system among stored tokens. -/
def rowsOfToks (k : Str) (ts : List TA) : List Pair := ts.filterMap fun t => (t.get k).map fun h => (t.ref, h)

/-- Everything stored for a system, with the segment under which it is stored. -/
def rowsOf (k : Str) (A : Alignment) : List Row :=
  (segsOf A).flatMap fun a => (rowsOfToks k a.toks).map fun p => (a.seg, p)

/-- No pair is empty. -/
def Filled (ps : List Pair) : Prop := ∀ p ∈ ps, p ≠ (none, none)

/-- The times of superfluous words and of the segments are in order. -/
def InOrder (ps : List Pair) (group : List Seg) : Prop :=
  (∀ h, (none, some h) ∈ ps → h.start ≤ h.stop) ∧ (∀ r h, (some r, h) ∈ ps → r.seg.start ≤ r.seg.stop) ∧
    ∀ s ∈ group, s.start ≤ s.stop

/-- The reference words of some pairs. -/
def refWords (ps : List Pair) : List Token := ps.filterMap Prod.fst

/-- The groups of a system and the pairs they show, in order. -/
inductive Plan : List Group → List (List Pair) → Prop where
  | nil : Plan [] []
  | cons (g : Group) (ps : List Pair) (gs : List Group) (pss : List (List Pair)) :
      Shows g.split g.cols ps → Filled ps → InOrder ps g.refs.flatten → Plan gs pss →
      Plan (g :: gs) (ps :: pss)

/-- Where the pairs of all groups belong, and the segments that are to appear: those of the pairs, and all reference
segments of a group without pairs. -/
inductive AllPlaced : List Group → List (List Pair) → List Row → List Seg → Prop where
  | nil : AllPlaced [] [] [] []
  | cons (g : Group) (ps : List Pair) (gs : List Group) (pss : List (List Pair)) (rows rest : List Row)
      (segs : List Seg) : Placed g.refs.flatten [] ps rows → AllPlaced gs pss rest segs →
      AllPlaced (g :: gs) (ps :: pss) (rows ++ rest)
        ((if ps = [] then g.refs.flatten else rows.map Prod.fst) ++ segs)

/-- A system: its title, its aligned groups and the pairs they show. -/
structure System where
  title : Str
  groups : List Group
  pairs : List (List Pair)

/-- The alignments of a system are in order, and no reference word occurs twice. -/
def System.Ok (s : System) : Prop := Plan s.groups s.pairs ∧ (refWords s.pairs.flatten).Nodup

/-- All systems are in order, with different titles none of which is `REFERENCE`. -/
def Proper (ss : List System) : Prop :=
  (∀ s ∈ ss, s.Ok ∧ s.title ≠ "REFERENCE".toList) ∧ (ss.map System.title).Nodup

/-- The systems as the program gets them. -/
def given (ss : List System) : List (Str × List Group) := ss.map fun s => (s.title, s.groups)

/-- The verdict on a pair. -/
def verdictOf (S : Setting) (p : Pair) : Option Verdict :=
  verdict S.eqv S.opt S.spkOpt S.spk (p.1.map Token.seen) (p.2.map Token.seen)

/-- How many rows under a speaker's segments deserve a verdict. -/
def tallyRows (S : Setting) (v : Verdict) (spk : Str) (rows : List Row) : Nat :=
  rows.countP fun w => w.1.speaker = spk ∧ verdictOf S w.2 = some v

/-- The number of cells of the table for an alignment of these numbers of words. -/
def cells : List Nat → Nat
  | [] => 1
  | n :: ns => (n + 1) * cells ns

end Verif.Store
