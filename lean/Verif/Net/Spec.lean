import Verif.Net.Model
/-!
# What a word network is, its paths, and alignments of two networks
-/
set_option autoImplicit false
namespace Verif.Net

/-- A well-formed acyclic network with one source: the arc lists of the nodes agree with the end points of the arcs,
`rank` grows along arcs, every node with outgoing arcs other than the start has incoming arcs, and the stop node (absent
only when the network is empty) is an end. -/
structure Net.WF {W : Type} (n : Net W) (rank : Nat → Nat) : Prop where
  start_lt : n.start < n.nNodes
  out_ok : ∀ v a, a ∈ n.out v → a < n.nArcs ∧ n.src a = v ∧ a ∈ n.inn (n.dst a) ∧ v < n.nNodes ∧
    n.dst a < n.nNodes ∧ rank v < rank (n.dst a)
  inn_ok : ∀ v a, a ∈ n.inn v → n.dst a = v ∧ a ∈ n.out (n.src a)
  out_nodup : ∀ v, (n.out v).Nodup
  inn_nodup : ∀ v, (n.inn v).Nodup
  source : ∀ v, n.out v ≠ [] → v ≠ n.start → n.inn v ≠ []
  start_inn : n.inn n.start = []
  stop_ok : ∀ s, n.stop = some s → n.out s = [] ∧ n.inn s ≠ []
  no_stop : n.stop = none → n.out n.start = []

/-- Every arc carries a word. -/
def Net.Words {W : Type} (n : Net W) : Prop := ∀ v a, a ∈ n.out v → ∃ w, n.data a = some w

/-- Nodes that can be reached from the start. -/
inductive Net.Reach {W : Type} (n : Net W) : Nat → Prop where
  | start : n.Reach n.start
  | step (v a : Nat) : n.Reach v → a ∈ n.out v → n.Reach (n.dst a)

/-- The visited bits of the reachable nodes agree. -/
def Flags.Uniform {W : Type} (fl : Flags) (n : Net W) : Prop := ∀ u, n.Reach u → fl.flag2 u = fl.flag2 n.start

/-- `n.Walk v p w`: the arcs `p` lead from node `v` to node `w`. -/
inductive Net.Walk {W : Type} (n : Net W) : Nat → List Nat → Nat → Prop where
  | nil (v : Nat) : n.Walk v [] v
  | cons (v a : Nat) (p : List Nat) (w : Nat) : a ∈ n.out v → n.Walk (n.dst a) p w → n.Walk v (a :: p) w

/-- The words a network can produce: those on a path from the start to the stop node; the empty network produces the
empty sequence. -/
def Net.Produces {W : Type} (n : Net W) (ws : List W) : Prop :=
  match n.stop with
  | none => ws = []
  | some s => ∃ p, n.Walk n.start p s ∧ p.map n.data = ws.map some

/-- A step of an alignment of two word sequences. -/
inductive Step (W : Type) where
  | sub (x y : W)
  | del (x : W)
  | ins (y : W)

/-- First words of the steps. -/
def lefts {W : Type} (s : List (Step W)) : List W :=
  s.filterMap fun e => match e with
    | .sub x _ => some x
    | .del x => some x
    | .ins _ => none

/-- Second words of the steps. -/
def rights {W : Type} (s : List (Step W)) : List W :=
  s.filterMap fun e => match e with
    | .sub _ y => some y
    | .del _ => none
    | .ins y => some y

/-- Cost of a step. -/
def Step.cost {W : Type} (F : Funcs W) : Step W → Int
  | .sub x y => F.dist (some x) (some y)
  | .del x => F.dist (some x) none
  | .ins y => F.dist none (some y)

/-- Total cost. -/
def costOf {W : Type} (F : Funcs W) (s : List (Step W)) : Int := (s.map (Step.cost F)).sum

/-- `s` aligns some word sequence of the first network with some word sequence of the second. -/
def Aligns {W : Type} (na nb : Net W) (s : List (Step W)) : Prop :=
  na.Produces (lefts s) ∧ nb.Produces (rights s)

/-- What a step contributes to the reported path.  Steps about null words only are dropped unless wanted, optionally
deletable words are forgiven when deleted or inserted, and paired words are correct exactly when equal. -/
def reported {W : Type} (F : Funcs W) (incl : Bool) : Step W → List (Entry W)
  | .sub x y =>
    if incl = false ∧ F.isNull x = true ∧ F.isNull y = true then []
    else [⟨some x, some y, if F.equal x y = true then .corr else .sub⟩]
  | .del x =>
    if incl = false ∧ F.isNull x = true then []
    else if F.optDel x = true then [⟨some x, some F.empty, .corr⟩] else [⟨some x, none, .del⟩]
  | .ins y =>
    if incl = false ∧ F.isNull y = true then []
    else if F.optDel y = true then [⟨some F.empty, some y, .corr⟩] else [⟨none, some y, .ins⟩]

/-- Deleting or inserting a word costs at most `m`, so little that leaving out everything in networks of the given size stays
below the built-in limits.  Nothing is asked of the cost of pairing two words. -/
def Funcs.Below {W : Type} (F : Funcs W) (m : Int) (arcs : Nat) : Prop :=
  0 ≤ m ∧ (∀ x, F.dist x none ≤ m ∧ F.dist none x ≤ m) ∧ m * arcs < bigEnd

/-- The documented standard price of a step in thousandths: 3 for an inserted or deleted word (2 if it is optionally
deletable, next to nothing for a null word), 4 for a substitution, nothing for a match (1 for two null words). -/
inductive Price {W : Type} (F : Funcs W) : Step W → Int → Prop where
  | ins_null {y : W} : F.isNull y = true → Price F (.ins y) 1
  | ins_opt {y : W} : F.isNull y = false → F.optDel y = true → Price F (.ins y) 2000
  | ins {y : W} : F.isNull y = false → F.optDel y = false → Price F (.ins y) 3000
  | del_null {x : W} : F.isNull x = true → Price F (.del x) 1
  | del_opt {x : W} : F.isNull x = false → F.optDel x = true → Price F (.del x) 2000
  | del {x : W} : F.isNull x = false → F.optDel x = false → Price F (.del x) 3000
  | nulls {x y : W} : F.isNull x = true → F.isNull y = true → Price F (.sub x y) 1000
  | corr {x y : W} : F.isNull x = false ∨ F.isNull y = false → F.equal x y = true → Price F (.sub x y) 0
  | sub {x y : W} : F.isNull x = false ∨ F.isNull y = false → F.equal x y = false → Price F (.sub x y) 4000

/-- The summed standard price of an alignment. -/
inductive Total {W : Type} (F : Funcs W) : List (Step W) → Int → Prop where
  | nil : Total F [] 0
  | cons {st : Step W} {c : Int} {s : List (Step W)} {t : Int} : Price F st c → Total F s t → Total F (st :: s) (c + t)

end Verif.Net
