import Verif.Score.Model
/-!
# Specification vocabulary for scores and time sorting
-/
set_option autoImplicit false
namespace Verif.Score
open Verif.Sgml

variable {W : Type}

/-- The entry counts as correct / substituted / inserted / deleted / an error. -/
def isCorr : Entry W → Bool
  | .pair .corr _ _ => true
  | _ => false
def isSub : Entry W → Bool
  | .pair .sub _ _ => true
  | _ => false
def isIns : Entry W → Bool
  | .ins _ => true
  | _ => false
def isDel : Entry W → Bool
  | .del _ => true
  | _ => false
def isErr (e : Entry W) : Bool := isSub e || isIns e || isDel e

/-- The entry has a reference word / a hypothesis word. -/
def hasRef (e : Entry W) : Bool := e.ref.isSome
def hasHyp (e : Entry W) : Bool := e.hyp.isSome

/-- The sum of the weights of the reference / hypothesis words over the entries with a property. -/
def refWeight (weight : W → Int) (p : Entry W → Bool) (es : List (Entry W)) : Int :=
  ((es.filter p).filterMap Entry.ref |>.map weight).sum
def hypWeight (weight : W → Int) (p : Entry W → Bool) (es : List (Entry W)) : Int :=
  ((es.filter p).filterMap Entry.hyp |>.map weight).sum

/-- The group reports the totals of these paths. -/
structure Totals (weight : W → Int) (g : Grp W) (paths : List (List (Entry W))) : Prop where
  corr : g.corr = paths.flatten.countP isCorr
  sub : g.sub = paths.flatten.countP isSub
  ins : g.ins = paths.flatten.countP isIns
  del : g.del = paths.flatten.countP isDel
  nsent : g.nsent = paths.length
  serr : g.serr = paths.countP (·.any isErr)
  wRef : g.wRef = refWeight weight (fun e => isCorr e || isSub e || isDel e) paths.flatten
  wCorr : g.wCorr = hypWeight weight isCorr paths.flatten
  wIns : g.wIns = hypWeight weight isIns paths.flatten
  wDel : g.wDel = refWeight weight isDel paths.flatten
  wSub : g.wSub = refWeight weight isSub paths.flatten + hypWeight weight isSub paths.flatten

/-- The paths of one speaker, in order. -/
def pathsOf (name : List Nat) (us : List (List Nat × List (Entry W))) : List (List (Entry W)) :=
  (us.filter (·.1 = name)).map (·.2)

/-- States of a score table that the program can reach: by asking for groups and adding paths to groups it was given. -/
inductive Reach (weight : W → Int) : Scores W → Scores W → Prop where
  | refl {sc : Scores W} : Reach weight sc sc
  | get {sc sc' sc'' : Scores W} {name : List Nat} {i : Nat} : Reach weight sc sc' → getGrp sc' name = some (sc'', i) →
      Reach weight sc sc''
  | add {sc sc' sc'' : Scores W} {path : List (Entry W)} {i : Nat} {keep : Bool} : Reach weight sc sc' →
      addPath weight sc' path i keep = some sc'' → Reach weight sc sc''

/-- The start time of an inserted or deleted word. -/
def startTime (t1 : W → Int) : Entry W → Option Int
  | .ins b => some (t1 b)
  | .del a => some (t1 a)
  | .pair _ _ _ => none

/-- Within every run of insertions and deletions the start times do not decrease. -/
def RunsInOrder (t1 : W → Int) : List (Entry W) → Prop
  | a :: b :: l => (∀ x y, startTime t1 a = some x → startTime t1 b = some y → x ≤ y) ∧ RunsInOrder t1 (b :: l)
  | _ => True

end Verif.Score
