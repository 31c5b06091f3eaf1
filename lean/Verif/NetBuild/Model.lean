import Verif.Net.Model
import Verif.Split.Model
import Verif.Lines.Model
/-!
# Model of the construction of sclite word networks from texts with alternatives

src/sclite/net_adt.c, src/sclite/text.c.  Texts are lists of bytes without the terminating NUL.  The scanning functions
are modelled byte by byte, which is what the code does in the encodings with one byte per character; in well-formed UTF-8
the bytes of longer characters are 128 or more and go through the same branches.  The encoding GB is not modelled here.
-/
set_option autoImplicit false
namespace Verif.NetBuild
open Verif.Net Verif.Text Verif.Split Verif.Lines

/-! ## Scanning -/

/-- `MAXSTRING`, src/sclite/net_adt.c:13. -/
def maxString : Nat := 10000

/-- The change of `alt_cnt` by a byte, src/sclite/text.c:1288-1291 and 1358-1359. -/
def delta (c : Nat) : Int := if c = 123 then 1 else if c = 125 then -1 else 0

/-- The loop over an alternation, src/sclite/text.c:1284-1300: token, rest and final `alt_cnt`. -/
def takeGroup : Int → List Nat → List Nat × List Nat × Int
  | cnt, [] => ([], [], cnt)
  | cnt, c :: cs =>
    if cs ≠ [] ∧ cnt + delta c > 0 then
      let r := takeGroup (cnt + delta c) cs
      (c :: r.1, r.2.1, r.2.2)
    else ([c], cs, cnt + delta c)

/-- The loop over a word, src/sclite/text.c:1306-1318. -/
def takeWord : List Nat → List Nat × List Nat
  | [] => ([], [])
  | c :: cs =>
    match cs with
    | [] => ([c], [])
    | d :: _ =>
      if isSpace d then ([c], cs)
      else
        let r := takeWord cs
        (c :: r.1, r.2)

/-- `find_next_TEXT_token`, src/sclite/text.c:1264-1322: token and rest.  `some none` = it returns 0, which leaves nothing
to read: at the end of the text or in a group that is not closed.  `none` = the token does not fit the array (for exactly
`MAXSTRING` bytes the terminator is written past it, longer tokens are cut with a message). -/
def nextToken (t : List Nat) : Option (Option (List Nat × List Nat)) :=
  match t.dropWhile isSpace with
  | [] => some none
  | c :: cs =>
    if c = 123 then
      let r := takeGroup 0 (c :: cs)
      if r.1.length < maxString then (if r.2.2 > 0 then some none else some (some (r.1, r.2.1))) else none
    else
      let r := takeWord (c :: cs)
      if r.1.length < maxString then some (some r) else none

/-- The loop over an alternative, src/sclite/text.c:1347-1372. -/
def takeAlt : Int → List Nat → List Nat × List Nat
  | _, [] => ([], [])
  | cnt, c :: cs =>
    match cs with
    | [] => ([c], [])
    | d :: _ =>
      if (d ≠ 47 ∨ cnt + delta c > 0) ∧ (d ≠ 125 ∨ cnt + delta c > 0) then
        let r := takeAlt (cnt + delta c) cs
        (c :: r.1, r.2)
      else ([c], cs)

/-- `find_next_TEXT_alternation`, src/sclite/text.c:1325-1376; results as for `nextToken`. -/
def nextAlt (t : List Nat) : Option (Option (List Nat × List Nat)) :=
  match t.dropWhile (fun c => isSpace c || c = 47) with
  | [] => some none
  | c :: cs =>
    let r := takeAlt 0 (c :: cs)
    if r.1.length < maxString then some (some r) else none

/-- The loop `while (! end_of_TEXT(*ctext))` around one of the two functions, src/sclite/net_adt.c:483-496 and 978-1008,
collecting the tokens; the fuel is the length of the text. -/
def pieces (next : List Nat → Option (Option (List Nat × List Nat))) : Nat → List Nat → Option (List (List Nat))
  | _, [] => some []
  | 0, _ :: _ => none
  | fuel + 1, c :: cs =>
    match next (c :: cs) with
    | none => none
    | some none => some []
    | some (some (tok, rest)) => (pieces next fuel rest).map (tok :: ·)

/-- Cutting off the text from its last closing brace, src/sclite/net_adt.c:974-976. -/
def cutLast (t : List Nat) : List Nat :=
  if 125 ∈ t then ((t.reverse.dropWhile (· ≠ 125)).drop 1).reverse else t

/-! ## Networks -/

/-- `Network_merge_network`, src/sclite/net_adt.c:251-325: the arcs and inner nodes of `m` become arcs and nodes of `n`
between `u` and `v`.  Arc `b` and node `k` of `m` get the numbers `n.nArcs + b` and `n.nNodes + k`; the start and the stop
node of `m` are freed.  `none` = the network has no stop node, which the code reads through a null pointer. -/
def merge {W : Type} (n : Net W) (u v : Nat) (m : Net W) : Option (Net W) :=
  match m.stop with
  | none => none
  | some t =>
    let A := n.nArcs
    let N := n.nNodes
    let outs := ((m.out m.start).map (A + ·)).foldl addArc (n.out u)
    let inns := ((m.inn t).map (A + ·)).foldl addArc (n.inn v)
    some
      { start := n.start
        stop := n.stop
        nNodes := N + m.nNodes
        nArcs := A + m.nArcs
        src := fun a => if a < A then n.src a else if a - A ∈ m.out m.start then u else N + m.src (a - A)
        dst := fun a => if a < A then n.dst a else if a - A ∈ m.inn t then v else N + m.dst (a - A)
        data := fun a => if a < A then n.data a else m.data (a - A)
        out := fun w => if w = u then outs else if w < N then n.out w
          else if w - N = m.start ∨ w - N = t then [] else (m.out (w - N)).map (A + ·)
        inn := fun w => if w = v then inns else if w < N then n.inn w
          else if w - N = m.start ∨ w - N = t then [] else (m.inn (w - N)).map (A + ·) }

/-- `kill_node2`, src/sclite/knode2.c:5-35: the lists of the node are gone. -/
def kill {W : Type} (n : Net W) (v : Nat) : Net W := { n with out := upd n.out v [], inn := upd n.inn v [] }

/-- Giving the in-arcs of `u` to `v`, src/sclite/net_adt.c:413-417 and 448-456. -/
def moveIn {W : Type} (n : Net W) (u v : Nat) : Net W :=
  { n with inn := upd n.inn v ((n.inn u).foldl addArc (n.inn v)), dst := fun a => if a ∈ n.inn u then v else n.dst a }

/-- Giving the out-arcs of `v` to `u`, src/sclite/net_adt.c:431-435. -/
def moveOut {W : Type} (n : Net W) (v u : Nat) : Net W :=
  { n with out := upd n.out u ((n.out v).foldl addArc (n.out u)), src := fun a => if a ∈ n.out v then u else n.src a }

/-- `Network_delete_arc`, src/sclite/net_adt.c:346-466.  The node called "START" is the start node and the one called
"STOP" the stop node.  `none` = arcs would be given to a node that is gone. -/
def deleteArc {W : Type} (n : Net W) (a : Nat) : Option (Net W) :=
  let u := n.src a
  let v := n.dst a
  let n1 : Net W :=
    { n with out := upd n.out u ((n.out u).filter (· ≠ a)), inn := upd n.inn v ((n.inn v).filter (· ≠ a)) }
  if n1.inn v = [] then
    if n1.stop = some v then
      if u ≠ n1.start then some (kill (moveIn n1 u v) u)
      else some { kill n1 v with stop := none }
    else
      let n2 := kill (moveOut n1 v u) v
      if n2.out u = [] ∧ u ≠ n2.start then (if n2.inn u = [] then some (kill n2 u) else none) else some n2
  else if n1.out u = [] then
    if u = n1.start then some { kill n1 v with stop := none }
    else some (kill (moveIn n1 u v) u)
  else some n1

/-- A network under construction, src/sclite/netstr1.h:26-62, with the visited bits of its nodes (node, then number of the
bit), the lengths of the names of its nodes and the counter used for making names. -/
structure Built where
  net : Net Parts
  flag2 : Nat → Nat → Bool
  nameLen : Nat → Nat
  hi : Nat

/-- `Network_init`, src/sclite/net_adt.c:517-560: the start node is called "START". -/
def Built.init : Built := ⟨Net.init Parts, fun _ _ => false, fun _ => 5, 0⟩

/-- Number of decimal digits, as printed by `sprintf("%d")`, src/sclite/mnode1.c:32-33. -/
def digits (n : Nat) : Nat := (Nat.toDigits 10 n).length

/-- `Network_add_arc_to_tail`, src/sclite/net_adt.c:26-38, with `NETWORK_insert_arc_after_node` and
`NETWORK_insert_arc_before_node`, 801-912, and `make_node`, src/sclite/mnode1.c: the new node gets the bits of the start
node and the name "STOP" or the next number. -/
def Built.addTail (b : Built) (p : Parts) : Built :=
  let w := b.net.nNodes
  { net := b.net.addTail (some p)
    flag2 := upd b.flag2 w (b.flag2 b.net.start)
    nameLen := upd b.nameLen w (if b.net.stop = none then 4 else digits (b.hi + 1))
    hi := if b.net.stop = none then b.hi else b.hi + 1 }

/-- A node that the traversal with `change_node_name` visits, src/sclite/net_adt.c:266: one that can be reached. -/
def visited (n : Net Parts) (k : Nat) : Bool := k = n.start || n.inn k ≠ []

/-- Size of the array for a changed name, src/sclite/net_adt.c:947. -/
def nameBuf : Nat := 40

/-- `Network_merge_network`, src/sclite/net_adt.c:251-325, with the new names (the old ones with "M" and the counter put in
front, `change_node_name`, 946-954) and the bits set by `reset_net_pointer`, 1046-1067.  `none` = no stop node, or a name
too long for the array it is made in. -/
def Built.merge (b : Built) (u v : Nat) (m : Built) : Option Built :=
  let N := b.net.nNodes
  let len := fun k => 1 + digits (b.hi + 1) + m.nameLen k
  if (List.range m.net.nNodes).all (fun k => !visited m.net k || len k < nameBuf) then
    (NetBuild.merge b.net u v m.net).map fun n =>
      { net := n
        flag2 := fun w => if w < N then b.flag2 w else if m.net.out (w - N) ≠ [] then b.flag2 b.net.start else m.flag2 (w - N)
        nameLen := fun w => if w < N then b.nameLen w else len (w - N)
        hi := b.hi + 1 }
  else none

/-- Merging the network of the next alternative into that of the first, src/sclite/net_adt.c:989-1004. -/
def join (acc : Option Built) (s : Built) : Option Built :=
  match acc with
  | none => some s
  | some f =>
    match f.net.stop with
    | none => none
    | some t => f.merge f.net.start t s

/-- One alternative of a group: its network is built and merged into the first, src/sclite/net_adt.c:976-1009. -/
def altStep (create : List Nat → Option Built) (acc : Option Built) (tok : List Nat) : Option (Option Built) :=
  match create tok with
  | none => none
  | some s => (join acc s).map some

/-- `expand_alternates`, src/sclite/net_adt.c:956-1023.  `create`: `Network_create_from_TEXT`.  `none` = a crash or a limit;
with no alternative at all the code passes a null pointer to `Network_merge_network`. -/
def expandArc (create : List Nat → Option Built) (b : Built) (a : Nat) : Option Built :=
  match b.net.data a with
  | none => none
  | some p =>
    if 123 ∈ p.value then
      let body := cutLast (p.value.drop 1)
      match pieces nextAlt body.length body with
      | none => none
      | some toks =>
        match toks.foldlM (altStep create) none with
        | none => none
        | some none => none
        | some (some sub) =>
          match b.merge (b.net.src a) (b.net.dst a) sub with
          | none => none
          | some b' => (deleteArc b'.net a).map fun n => { b' with net := n }
    else some b

/-- Pushing the nodes after a node in the depth-first traversal that uses bit `d`, src/sclite/net_adt.c:195-230. -/
def push (d : Nat) (cur : Bool) : (Nat → Nat → Bool) × List Nat → Nat → (Nat → Nat → Bool) × List Nat :=
  fun s w => if s.1 w d ≠ cur then s else (upd s.1 w (upd (s.1 w) d (!s.1 w d)), w :: s.2)

/-- The loop of `Network_traverse` with `expand_alternates` as the callback for arcs, src/sclite/net_adt.c:185-245.  The list
of arcs of a node is taken before the callbacks; in the code the next element is read before each callback, which is the
same for the single arcs of the chain this is applied to. -/
def expandLoop (create : List Nat → Option Built) (d : Nat) (cur : Bool) : Nat → Built → List Nat → Option Built
  | _, b, [] => some b
  | 0, _, _ :: _ => none
  | fuel + 1, b, v :: rest =>
    let s := ((b.net.out v).map b.net.dst).foldl (push d cur) (b.flag2, rest)
    match (b.net.out v).foldlM (expandArc create) { b with flag2 := s.1 } with
    | none => none
    | some b' => expandLoop create d cur fuel b' s.2

/-- `Network_traverse(net,NULL,0,expand_alternates,0,0)`, src/sclite/net_adt.c:97-249, at nesting depth `d` of traversals,
which is the number of the bit used.  One pop per node, so the number of nodes is fuel enough. -/
def expandAll (create : List Nat → Option Built) (d : Nat) (b : Built) : Option Built :=
  let cur := b.flag2 b.net.start d
  expandLoop create d cur b.net.nNodes
    { b with flag2 := upd b.flag2 b.net.start (upd (b.flag2 b.net.start) d (!cur)) } [b.net.start]

/-- `Network_create_from_TEXT`, src/sclite/net_adt.c:469-502.  At most 31 traversals can be nested (131-137).  The fuel
bounds the nesting of groups; the length of the text is enough. -/
def create (e : Enc) : Nat → Nat → List Nat → Option Built
  | 0, _, _ => none
  | fuel + 1, d, text =>
    match pieces nextToken text.length text with
    | none => none
    | some toks =>
      match toks.mapM (parseText e) with
      | none => none
      | some ps =>
        let b := ps.foldl Built.addTail Built.init
        if d < 31 then expandAll (create e fuel (d + 1)) d b else none

/-- `Network_create_from_TEXT` as called by the alignment functions, src/sclite/align.c:240-266. -/
def build (e : Enc) (text : List Nat) : Option Built := create e (text.length + 1) 0 text

end Verif.NetBuild
