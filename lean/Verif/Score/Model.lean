import Verif.Sgml.Model
/-!
# Model of sclite's score groups and of sorting a path by time

An element of a path is an `Entry` (see `Verif.Sgml.Model`) over a type of words `W`.
-/
set_option autoImplicit false
namespace Verif.Score
open Verif.Sgml

/-! ## Score groups -/

/-- One speaker's scores, `GRP` in src/sclite/sctk.h:90-113 (the fields that are counted here).  Weights are summed
exactly; the rounding of `double` is not modelled. -/
structure Grp (W : Type) where
  name : List Nat
  corr : Nat
  ins : Nat
  del : Nat
  sub : Nat
  nsent : Nat
  serr : Nat
  wRef : Int
  wCorr : Int
  wIns : Int
  wDel : Int
  wSub : Int
  maxPath : Nat
  paths : List (List (Entry W))

/-- `SCORES`, src/sclite/sctk.h:136-152: the groups in use and the size of the array. -/
structure Scores (W : Type) where
  grps : List (Grp W)
  maxGrp : Nat

/-- `SCORES_init`, src/sclite/scores.c:803-831. -/
def init (W : Type) (ngrp : Nat) : Scores W := ⟨[], if ngrp < 20 then 20 else ngrp⟩

/-- A new group, src/sclite/scores.c:776-798. -/
def newGrp (W : Type) (name : List Nat) : Grp W := ⟨name, 0, 0, 0, 0, 0, 0, 0, 0, 0, 0, 0, 20, []⟩

/-- The search of `SCORES_get_grp`, src/sclite/scores.c:763-765. -/
def findGrp {W : Type} (name : List Nat) : List (Grp W) → Nat → Option Nat
  | [], _ => none
  | g :: gs, i => if name = g.name then some i else findGrp name gs (i + 1)

/-- `SCORES_get_grp`, src/sclite/scores.c:759-801; `none` = a write outside of the array. -/
def getGrp {W : Type} (sc : Scores W) (name : List Nat) : Option (Scores W × Nat) :=
  match findGrp name sc.grps 0 with
  | some i => some (sc, i)
  | none =>
    let max := if sc.grps.length + 1 ≥ sc.maxGrp then sc.maxGrp * 3 / 2 else sc.maxGrp
    if sc.grps.length < max then some (⟨sc.grps ++ [newGrp W name], max⟩, sc.grps.length) else none

/-- One element of a path, src/sclite/scores.c:1015-1039: the group and the number of errors.  Merges and splits only give
a warning. -/
def addEntry {W : Type} (weight : W → Int) (s : Grp W × Nat) : Entry W → Grp W × Nat
  | .ins b => ({ s.1 with ins := s.1.ins + 1, wIns := s.1.wIns + weight b }, s.2 + 1)
  | .del a => ({ s.1 with del := s.1.del + 1, wDel := s.1.wDel + weight a, wRef := s.1.wRef + weight a }, s.2 + 1)
  | .pair .corr a b =>
    ({ s.1 with corr := s.1.corr + 1, wRef := s.1.wRef + weight a, wCorr := s.1.wCorr + weight b }, s.2)
  | .pair .sub a b =>
    ({ s.1 with sub := s.1.sub + 1, wSub := s.1.wSub + (weight a + weight b), wRef := s.1.wRef + weight a }, s.2 + 1)
  | .pair _ _ _ => s

/-- Storing the path, src/sclite/scores.c:1043-1051; `none` = a write outside of the array. -/
def keepPath {W : Type} (g : Grp W) (path : List (Entry W)) : Option (Grp W) :=
  let max := if g.paths.length + 1 ≥ g.maxPath then g.maxPath * 2 else g.maxPath
  if g.paths.length < max then some { g with maxPath := max, paths := g.paths ++ [path] } else none

/-- `add_PATH_score` on the group, src/sclite/scores.c:1012-1052. -/
def addToGrp {W : Type} (weight : W → Int) (g : Grp W) (path : List (Entry W)) (keep : Bool) : Option (Grp W) :=
  let s := path.foldl (addEntry weight) (g, 0)
  let g' := { s.1 with nsent := s.1.nsent + 1, serr := if s.2 > 0 then s.1.serr + 1 else s.1.serr }
  if keep then keepPath g' path else some g'

/-- `add_PATH_score`, src/sclite/scores.c:1012-1052; `none` = an access outside of an array. -/
def addPath {W : Type} (weight : W → Int) (sc : Scores W) (path : List (Entry W)) (i : Nat) (keep : Bool) :
    Option (Scores W) :=
  match sc.grps[i]? with
  | none => none
  | some g => (addToGrp weight g path keep).map fun g' => { sc with grps := sc.grps.set i g' }

/-- Scoring one utterance: asking for the speaker's group and adding the path to it, as at src/sclite/align.c:565 and 611. -/
def score {W : Type} (weight : W → Int) (keep : Bool) (sc : Scores W) (utt : List Nat × List (Entry W)) : Option (Scores W) :=
  match getGrp sc utt.1 with
  | none => none
  | some (sc', i) => addPath weight sc' utt.2 i keep

/-- Scoring utterance after utterance. -/
def scoreAll {W : Type} (weight : W → Int) (keep : Bool) : Scores W → List (List Nat × List (Entry W)) → Option (Scores W)
  | sc, [] => some sc
  | sc, u :: us =>
    match score weight keep sc u with
    | none => none
    | some sc' => scoreAll weight keep sc' us

/-! ## Sorting by time -/

/-- Insertions and deletions, src/sclite/path.c:619-621. -/
def isIndel {W : Type} : Entry W → Bool
  | .ins _ => true
  | .del _ => true
  | .pair _ _ _ => false

/-- The start time by which an insertion or deletion is sorted, src/sclite/path.c:631-636. -/
def key {W : Type} (t1 : W → Int) : Entry W → Int
  | .ins b => t1 b
  | .del a => t1 a
  | .pair _ a _ => t1 a

/-- One pass over the run of insertions and deletions at the head of the list, src/sclite/path.c:626-645: the new list and
whether something changed. -/
def pass {W : Type} (t1 : W → Int) : List (Entry W) → List (Entry W) × Bool
  | [] => ([], false)
  | [a] => ([a], false)
  | a :: b :: l =>
    if isIndel b then
      if key t1 a > key t1 b then
        let r := pass t1 (a :: l)
        (b :: r.1, true)
      else
        let r := pass t1 (b :: l)
        (a :: r.1, r.2)
    else (a :: b :: l, false)
  termination_by l => l.length

/-- The loop over the passes, src/sclite/path.c:624-646; `none` = more than `fuel` passes. -/
def passes {W : Type} (t1 : W → Int) : Nat → List (Entry W) → Option (List (Entry W))
  | 0, _ => none
  | fuel + 1, l =>
    let r := pass t1 l
    if r.2 then passes t1 fuel r.1 else some r.1

/-- `sort_PATH_time_marks`, src/sclite/path.c:608-652, on the rest of the path from `x`; the fuel counts the runs, each run
is given the square of its length plus one as passes. -/
def sortPath {W : Type} (t1 : W → Int) : Nat → List (Entry W) → Option (List (Entry W))
  | 0, _ => none
  | fuel + 1, l =>
    let head := l.takeWhile fun e => !isIndel e
    let tail := l.dropWhile fun e => !isIndel e
    if tail = [] then some head
    else
      match passes t1 (tail.length * tail.length + 1) tail with
      | none => none
      | some s => (sortPath t1 fuel (s.dropWhile isIndel)).map fun r => head ++ s.takeWhile isIndel ++ r

end Verif.Score
