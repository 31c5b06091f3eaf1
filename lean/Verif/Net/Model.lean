/-!
# Model of sclite word networks, their traversal and their alignment

src/sclite/netstr1.h, src/sclite/net_adt.c, src/sclite/net_dp.c.  Pointers to nodes and arcs are numbers; a network
records, per node, its two arc lists and, per arc, its end nodes and data.  Distances are exact whole numbers
(thousandths) where the code adds `float`s.
-/
set_option autoImplicit false
namespace Verif.Net

/-- `NETWORK`, `NODE`, `ARC`, src/sclite/netstr1.h:26-62.  `nNodes`, `nArcs`: how many were ever allocated, the next one
allocated gets this number.  `data = none` is a `NULL` data pointer. -/
structure Net (W : Type) where
  start : Nat
  stop : Option Nat
  nNodes : Nat
  nArcs : Nat
  src : Nat → Nat
  dst : Nat → Nat
  data : Nat → Option W
  out : Nat → List Nat
  inn : Nat → List Nat

/-- `Network_init`, src/sclite/net_adt.c:517-560. -/
def Net.init (W : Type) : Net W :=
  ⟨0, none, 1, 0, fun _ => 0, fun _ => 0, fun _ => none, fun _ => [], fun _ => []⟩

/-- Update of a function at one point. -/
def upd {α : Type} (f : Nat → α) (i : Nat) (x : α) : Nat → α := fun j => if j = i then x else f j

/-- `add_to_arc_list`, src/sclite/addarc1.c:5-60: append unless present. -/
def addArc (l : List Nat) (a : Nat) : List Nat := if a ∈ l then l else l ++ [a]

/-- `NETWORK_insert_arc_after_node`, src/sclite/net_adt.c:801-859. -/
def Net.insertAfter {W : Type} (n : Net W) (v : Nat) (d : Option W) : Net W :=
  let x := n.nArcs
  let w := n.nNodes
  { start := n.start
    stop := match n.stop with
      | none => some w
      | some s => some s
    nNodes := n.nNodes + 1
    nArcs := n.nArcs + 1
    src := fun a => if a = x then v else if a ∈ n.out v then w else n.src a
    dst := upd n.dst x w
    data := upd n.data x d
    out := upd (upd n.out w ((n.out v).foldl addArc [])) v (addArc [] x)
    inn := upd n.inn w (addArc [] x) }

/-- `NETWORK_insert_arc_before_node`, src/sclite/net_adt.c:861-912. -/
def Net.insertBefore {W : Type} (n : Net W) (v : Nat) (d : Option W) : Net W :=
  let x := n.nArcs
  let w := n.nNodes
  { start := n.start
    stop := n.stop
    nNodes := n.nNodes + 1
    nArcs := n.nArcs + 1
    src := upd n.src x w
    dst := fun a => if a = x then v else if a ∈ n.inn v then w else n.dst a
    data := upd n.data x d
    out := upd n.out w (addArc [] x)
    inn := upd (upd n.inn w ((n.inn v).foldl addArc [])) v (addArc [] x) }

/-- `NETWORK_insert_arc_between_node`, src/sclite/net_adt.c:914-944. -/
def Net.insertBetween {W : Type} (n : Net W) (u v : Nat) (d : Option W) : Net W :=
  let x := n.nArcs
  { start := n.start
    stop := n.stop
    nNodes := n.nNodes
    nArcs := n.nArcs + 1
    src := upd n.src x u
    dst := upd n.dst x v
    data := upd n.data x d
    out := upd n.out u (addArc (n.out u) x)
    inn := upd n.inn v (addArc (n.inn v) x) }

/-- `Network_add_arc_to_head`, src/sclite/net_adt.c:15-24. -/
def Net.addHead {W : Type} (n : Net W) (d : Option W) : Net W := n.insertAfter n.start d

/-- `Network_add_arc_to_tail`, src/sclite/net_adt.c:26-38. -/
def Net.addTail {W : Type} (n : Net W) (d : Option W) : Net W :=
  match n.stop with
  | none => n.insertAfter n.start d
  | some s => n.insertBefore s d

/-! ## Traversal -/

/-- The node flags `flag1` and the bit of `flag2` used by the traversal. -/
structure Flags where
  flag1 : Nat → Int
  flag2 : Nat → Bool

/-- State of the loop of `Network_traverse`: flags, fringe, nodes and arcs handed to the callbacks so far. -/
structure TState where
  fl : Flags
  fringe : List Nat
  nodes : List Nat
  arcs : List Nat

/-- Pushing one neighbour, src/sclite/net_adt.c:195-230.  `inorder`: mode `NT_Inorder` (else depth first); `cur`: the
value of the visited bit of nodes not visited yet. -/
def pushNode (inorder cur : Bool) (s : TState) (v : Nat) : TState :=
  let fl := if inorder then { s.fl with flag1 := upd s.fl.flag1 v (s.fl.flag1 v - 1) } else s.fl
  if inorder ∧ fl.flag1 v > 0 then { s with fl := fl }
  else if fl.flag2 v ≠ cur then { s with fl := fl }
  else
    { s with
      fl := { fl with flag2 := upd fl.flag2 v (!fl.flag2 v) }
      fringe := if inorder then s.fringe ++ [v] else v :: s.fringe }

/-- The loop of `Network_traverse` in forward direction, src/sclite/net_adt.c:185-245; `nodeOp` is the effect of the
node callback on the flags. -/
def travLoop {W : Type} (n : Net W) (inorder cur : Bool) (nodeOp : Flags → Nat → Flags) :
    Nat → TState → Option TState
  | 0, s => if s.fringe = [] then some s else none
  | fuel + 1, s =>
    match s.fringe with
    | [] => some s
    | v :: rest =>
      let s1 : TState := ⟨nodeOp s.fl v, rest, s.nodes ++ [v], s.arcs⟩
      let s2 := ((n.out v).map n.dst).foldl (pushNode inorder cur) s1
      travLoop n inorder cur nodeOp fuel { s2 with arcs := s2.arcs ++ n.out v }

/-- Start of a traversal, src/sclite/net_adt.c:150-184.  One pop per node suffices, so the fuel is the number of
nodes. -/
def travRun {W : Type} (n : Net W) (inorder : Bool) (nodeOp : Flags → Nat → Flags) (fl : Flags) : Option TState :=
  let cur := fl.flag2 n.start
  travLoop n inorder cur nodeOp n.nNodes
    ⟨{ fl with flag2 := upd fl.flag2 n.start (!cur) }, [n.start], [], []⟩

/-- `set_node_flag1_to_inarc_count`, src/sclite/net_adt.c:1080-1088. -/
def countOp {W : Type} (n : Net W) (fl : Flags) (v : Nat) : Flags :=
  { fl with flag1 := upd fl.flag1 v ((n.inn v).length : Int) }

/-- `Network_traverse` with `NT_CA_For`, forward, depth first, no node callback, src/sclite/net_adt.c:97-249. -/
def depthTraverse {W : Type} (n : Net W) (fl : Flags) : Option TState := travRun n false (fun f _ => f) fl

/-- `Network_traverse` with `NT_CA_For + NT_Inorder`, forward, no node callback, src/sclite/net_adt.c:97-249: first a
depth-first traversal that sets the counters. -/
def inorderTraverse {W : Type} (n : Net W) (fl : Flags) : Option TState :=
  match travRun n false (countOp n) fl with
  | none => none
  | some s => travRun n true (fun f _ => f) s.fl

/-! ## Alignment -/

/-- Functions on words: distance (`wwd`), `is_null_alt`, `is_opt_del`, `equal(..) == 0`, `make_empty`. -/
structure Funcs (W : Type) where
  dist : Option W → Option W → Int
  isNull : W → Bool
  optDel : W → Bool
  equal : W → W → Bool
  empty : W

/-- `wwd_WORD`, src/sclite/word.c:18-50, in thousandths, from the tests on words it uses.  For two missing words the code
exits; the alignment never asks for that. -/
def wwd {W : Type} (isNull optDel : W → Bool) (equal : W → W → Bool) : Option W → Option W → Int
  | none, none => 0
  | some x, none => if isNull x then 1 else if optDel x then 2000 else 3000
  | none, some y => if isNull y then 1 else if optDel y then 2000 else 3000
  | some x, some y => if isNull x && isNull y then 1000 else if equal x y then 0 else 4000

/-- The downward search of `find_arcset_id`, src/sclite/net_dp.c:37-40. -/
def findDown (arcset : List Nat) (arc : Nat) : Nat → Option Nat
  | 0 => if arcset[0]? = some arc then some 0 else none
  | a + 1 => if arcset[a + 1]? = some arc then some (a + 1) else findDown arcset arc a

/-- `find_arcset_id`, src/sclite/net_dp.c:33-49; `none` = -1, the callers exit. -/
def findId (arcset : List Nat) (arc frm : Nat) : Option Nat :=
  if frm = arcset.length then
    match frm with
    | 0 => none
    | f + 1 => findDown arcset arc f
  else findDown arcset arc frm

/-- The numbers of the arcs into the start of arc number `a`, as looked up in the loops over
`from_node->in_arcs`, src/sclite/net_dp.c:74-78, 112-116, 147-158. -/
def predIds {W : Type} (n : Net W) (arcset : List Nat) (a : Nat) : Option (List Nat) :=
  match arcset[a]? with
  | none => none
  | some arc => (n.inn (n.src arc)).mapM fun p => findId arcset p a

/-- Initial minimum in the search for predecessors, src/sclite/net_dp.c:62, in thousandths. -/
def bigCell : Int := 999999999900
/-- Initial minimum in the search for the end, src/sclite/net_dp.c:327, in thousandths. -/
def bigEnd : Int := 999999900

/-- `CELL`, src/sclite/netstr1.h:74-78. -/
structure Cell where
  d : Int
  backA : Nat
  backB : Nat
  deriving Repr, DecidableEq

abbrev Table := Nat → Nat → Cell

/-- Write a cell. -/
def Table.set (t : Table) (a b : Nat) (c : Cell) : Table := fun i j => if i = a ∧ j = b then c else t i j

/-- The search for the first strict minimum in `calc_minimum_*`, src/sclite/net_dp.c:57-174. -/
def minOver {α : Type} (val : α → Int) (big : Int) (ids : List α) : Int × Option α :=
  ids.foldl (fun m i => if val i < m.1 then (val i, some i) else m) (big, none)

/-- Conversion of an `int` index (`none` = -1) to `unsigned short`. -/
def toShort : Option Nat → Nat
  | none => 65535
  | some i => i % 65536

/-- First loop of `calculate_margin_cells`, src/sclite/net_dp.c:191-204. -/
def marginB {W : Type} (F : Funcs W) (nb : Net W) (lb : List Nat) : List Nat → Table → Option Table
  | [], t => some t
  | b :: bs, t =>
    match predIds nb lb b, lb[b]? with
    | some ids, some arc =>
      let m := minOver (fun i => (t 0 i).d) bigCell ids
      marginB F nb lb bs (t.set 0 b ⟨m.1 + F.dist none (nb.data arc), 0, toShort m.2⟩)
    | _, _ => none

/-- Second loop of `calculate_margin_cells`, src/sclite/net_dp.c:206-218. -/
def marginA {W : Type} (F : Funcs W) (na : Net W) (la : List Nat) : List Nat → Table → Option Table
  | [], t => some t
  | a :: as, t =>
    match predIds na la a, la[a]? with
    | some ids, some arc =>
      let m := minOver (fun i => (t i 0).d) bigCell ids
      marginA F na la as (t.set a 0 ⟨m.1 + F.dist (na.data arc) none, toShort m.2, 0⟩)
    | _, _ => none

/-- One internal cell, src/sclite/net_dp.c:226-277, from the numbers of the predecessors. -/
def cellOf {W : Type} (F : Funcs W) (t : Table) (a b : Nat) (x y : Option W) (idsA idsB : List Nat) : Cell :=
  let mi := minOver (fun i => (t a i).d) bigCell idsB
  let md := minOver (fun i => (t i b).d) bigCell idsA
  let ms := minOver (fun p : Nat × Nat => (t p.1 p.2).d) bigCell (idsA.flatMap fun i => idsB.map fun j => (i, j))
  let sub := ms.1 + F.dist x y
  let del := md.1 + F.dist x none
  let ins := mi.1 + F.dist none y
  if sub ≤ del ∧ sub ≤ ins then ⟨sub, toShort (ms.2.map Prod.fst), toShort (ms.2.map Prod.snd)⟩
  else if del < ins then ⟨del, toShort md.2, b⟩
  else ⟨ins, a, toShort mi.2⟩

/-- `calculate_internal_cells`, inner loop, src/sclite/net_dp.c:225-278. -/
def internalRow {W : Type} (F : Funcs W) (na nb : Net W) (la lb : List Nat) (a : Nat) :
    List Nat → Table → Option Table
  | [], t => some t
  | b :: bs, t =>
    match predIds na la a, predIds nb lb b, la[a]?, lb[b]? with
    | some idsA, some idsB, some x, some y =>
      internalRow F na nb la lb a bs (t.set a b (cellOf F t a b (na.data x) (nb.data y) idsA idsB))
    | _, _, _, _ => none

/-- `calculate_internal_cells`, src/sclite/net_dp.c:221-279. -/
def internal {W : Type} (F : Funcs W) (na nb : Net W) (la lb : List Nat) : List Nat → Table → Option Table
  | [], t => some t
  | a :: as, t =>
    match internalRow F na nb la lb a (List.range' 1 (lb.length - 1)) t with
    | none => none
    | some t' => internal F na nb la lb as t'

/-- The table after `setup_NET_ALIGN` (src/sclite/net_dp.c:304-307), margin and internal cells; `t0` is what the memory
contained before. -/
def fillTable {W : Type} (F : Funcs W) (na nb : Net W) (la lb : List Nat) (t0 : Table) : Option Table :=
  match marginB F nb lb (List.range' 1 (lb.length - 1)) (t0.set 0 0 ⟨0, 65535, 65535⟩) with
  | none => none
  | some t1 =>
    match marginA F na la (List.range' 1 (la.length - 1)) t1 with
    | none => none
    | some t2 => internal F na nb la lb (List.range' 1 (la.length - 1)) t2

/-- One step of the trace back, src/sclite/net_dp.c:401-403, with the arcs it is about. -/
inductive Move where
  | ins (b : Nat)
  | del (a : Nat)
  | sub (a b : Nat)
  deriving Repr, DecidableEq

/-- The trace back loop, src/sclite/net_dp.c:353-388 and 397-487: the moves from the end to the start. -/
def traceBack (t : Table) : Nat → Nat → Nat → Option (List Move)
  | 0, a, b => if a > 0 ∨ b > 0 then none else some []
  | fuel + 1, a, b =>
    if a > 0 ∨ b > 0 then
      let c := t a b
      let m := if a = c.backA then Move.ins b else if b = c.backB then .del a else .sub a b
      match traceBack t fuel c.backA c.backB with
      | none => none
      | some ms => some (m :: ms)
    else some []

/-- `PATH_SET` evaluations. -/
inductive Eval where
  | corr | sub | ins | del
  deriving Repr, DecidableEq

/-- One entry of the path. -/
structure Entry (W : Type) where
  a : Option W
  b : Option W
  eval : Eval
  deriving Repr, DecidableEq

/-- What one move adds to the path, src/sclite/net_dp.c:404-481: `none` = `NULL` data dereferenced, otherwise at most one
entry. -/
def record {W : Type} (F : Funcs W) (incl : Bool) (wa wb : Nat → Option W) : Move → Option (List (Entry W))
  | .del a =>
    match wa a with
    | none => none
    | some x =>
      some (if incl || !F.isNull x then
        if !F.optDel x then [⟨some x, none, .del⟩] else [⟨some x, some F.empty, .corr⟩] else [])
  | .sub a b =>
    match wa a, wb b with
    | some x, some y =>
      some (if incl || !(F.isNull x && F.isNull y) then
        [⟨some x, some y, if F.equal x y then .corr else .sub⟩] else [])
    | _, _ => none
  | .ins b =>
    match wb b with
    | none => none
    | some y =>
      some (if incl || !F.isNull y then
        if !F.optDel y then [⟨none, some y, .ins⟩] else [⟨some F.empty, some y, .corr⟩] else [])

/-- The length counted in the first pass, src/sclite/net_dp.c:353-388: one per move unless it is about nulls. -/
def hop {W : Type} (F : Funcs W) (incl : Bool) (wa wb : Nat → Option W) (t : Table) (a b : Nat) : Nat :=
  let c := t a b
  if b = c.backB then
    match wa a with
    | some x => if !incl && F.isNull x then 0 else 1
    | none => 0
  else if a = c.backA then
    match wb b with
    | some y => if !incl && F.isNull y then 0 else 1
    | none => 0
  else
    match wa a, wb b with
    | some x, some y => if !incl && (F.isNull x && F.isNull y) then 0 else 1
    | _, _ => 0

/-- The first pass: number of path entries allocated, src/sclite/net_dp.c:353-393. -/
def countHops {W : Type} (F : Funcs W) (incl : Bool) (wa wb : Nat → Option W) (t : Table) : Nat → Nat → Nat → Nat
  | 0, _, _ => 0
  | fuel + 1, a, b =>
    if a > 0 ∨ b > 0 then hop F incl wa wb t a b + countHops F incl wa wb t fuel (t a b).backA (t a b).backB
    else 0

/-- Result of an alignment: cost found for the end cell, the moves in order, the path, and the path length that was
allocated. -/
structure Result (W : Type) where
  cost : Int
  moves : List Move
  path : List (Entry W)
  alloc : Nat

/-- `extract_NET_ALIGN_result`, src/sclite/net_dp.c:313-492.  When no end cell is below the initial minimum the code goes
on with `a = b = -1` and returns an empty path. -/
def extract {W : Type} (F : Funcs W) (na nb : Net W) (la lb : List Nat) (incl : Bool) (t : Table) :
    Option (Result W) :=
  match na.stop, nb.stop with
  | some sa, some sb =>
    match (na.inn sa).mapM fun p => findId la p la.length, (nb.inn sb).mapM fun p => findId lb p lb.length with
    | some ea, some eb =>
      let m := minOver (fun p : Nat × Nat => (t p.1 p.2).d) bigEnd (ea.flatMap fun i => eb.map fun j => (i, j))
      match m.2 with
      | none => some ⟨m.1, [], [], 0⟩
      | some (a, b) =>
        let wa := fun i => (la[i]?).bind na.data
        let wb := fun i => (lb[i]?).bind nb.data
        match traceBack t (a + b) a b with
        | none => none
        | some ms =>
          match ms.reverse.mapM (record F incl wa wb) with
          | none => none
          | some es => some ⟨m.1, ms.reverse, es.flatten, countHops F incl wa wb t (a + b) a b⟩
    | _, _ => none
  | _, _ => none

/-- Flags of the node created by `Network_add_arc_to_head`: `flag2` is copied from the start node,
src/sclite/net_adt.c:815, `flag1` cleared, src/sclite/mnode1.c:36. -/
def Flags.grow {W : Type} (fl : Flags) (n : Net W) : Flags :=
  ⟨upd fl.flag1 n.nNodes 0, upd fl.flag2 n.nNodes (fl.flag2 n.start)⟩

/-- `Network_dpalign`, src/sclite/net_dp.c:494-526 with `setup_NET_ALIGN` 288-311 and the size check of
`alloc_NET_ALIGN` 826-829 (on the number of arcs); `none` = exit, or undefined behaviour.  Returned with the arc numbering
of both networks. -/
def dpalign {W : Type} (F : Funcs W) (na nb : Net W) (fa fb : Flags) (t0 : Table) (incl : Bool) :
    Option (List Nat × List Nat × Result W) :=
  let fa := fa.grow na
  let fb := fb.grow nb
  let na := na.addHead none
  let nb := nb.addHead none
  match inorderTraverse na fa, inorderTraverse nb fb with
  | some sa, some sb =>
    if sa.arcs.length > 65534 ∨ sb.arcs.length > 65534 then none
    else
      match fillTable F na nb sa.arcs sb.arcs t0 with
      | none => none
      | some t =>
        match extract F na nb sa.arcs sb.arcs incl t with
        | none => none
        | some r => some (sa.arcs, sb.arcs, r)
  | _, _ => none

end Verif.Net
