import Verif.Net.Model
/-!
# Model of ROVER's combination of networks and of its voting

src/sclite/net_dp.c:528-744, src/sclite/net_adt.c:345-466, 1127-1139, 1373-1396, src/sclite/rover.c:305-527.  Networks, traversal and
the cost table are those of `Verif.Net`.  `Network_copy` is taken to be an exact copy, the callers' networks are not
changed otherwise.  Numbers are exact rationals where the code has `double`s.
-/
set_option autoImplicit false
namespace Verif.Rover
open Verif.Net

/-- A network with the flags of its nodes. -/
structure FNet (W : Type) where
  net : Net W
  fl : Flags

/-- `add_null_network_heads`, src/sclite/net_dp.c:177-183. -/
def FNet.addHead {W : Type} (s : FNet W) : FNet W := ⟨s.net.addHead none, s.fl.grow s.net⟩

/-- The loop that adds null arcs beside a new arc, src/sclite/net_dp.c:723-728. -/
def addNulls {W : Type} (null : W) (u v : Nat) : Nat → Net W → Net W
  | 0, n => n
  | k + 1, n => addNulls null u v k (n.insertBetween u v (some null))

/-- One round of the trace back of `create_alinged_NETWORK`, src/sclite/net_dp.c:659-731: `none` = `goto ERROR`, or a copy
of `NULL` data.  The new arc is recognised by its number where the code compares data pointers; the list searched contains
only that arc.  New nodes copy `flag2` of the start node, src/sclite/net_adt.c:875. -/
def editStep {W : Type} (null : W) (k : Nat) (nb : Net W) (la lb : List Nat) (c : Cell) (a b : Nat) (s : FNet W) :
    Option (FNet W) :=
  match la[a]?, lb[b]? with
  | some x, some y =>
    if a = c.backA then
      match nb.data y with
      | none => none
      | some w =>
        let n' := s.net.insertBefore (s.net.dst x) (some w)
        match (n'.out (n'.dst x)).find? (fun z => z = s.net.nArcs) with
        | none => none
        | some z => some ⟨addNulls null (n'.src z) (n'.dst z) k n', s.fl.grow s.net⟩
    else if b = c.backB then some ⟨s.net.insertBetween (s.net.src x) (s.net.dst x) (some null), s.fl⟩
    else
      match nb.data y with
      | none => none
      | some w => some ⟨s.net.insertBetween (s.net.src x) (s.net.dst x) (some w), s.fl⟩
  | _, _ => none

/-- The trace back loop of `create_alinged_NETWORK`, src/sclite/net_dp.c:658-735. -/
def editLoop {W : Type} (null : W) (k : Nat) (nb : Net W) (la lb : List Nat) (t : Table) :
    Nat → Nat → Nat → FNet W → Option (FNet W)
  | 0, a, b, s => if a > 0 ∨ b > 0 then none else some s
  | fuel + 1, a, b, s =>
    if a > 0 ∨ b > 0 then
      match editStep null k nb la lb (t a b) a b s with
      | none => none
      | some s' => editLoop null k nb la lb t fuel (t a b).backA (t a b).backB s'
    else some s

/-- `create_alinged_NETWORK`, src/sclite/net_dp.c:602-744; `k` is `iteration`.  When no end cell is below the initial
minimum the loop does not run. -/
def createAligned {W : Type} (null : W) (k : Nat) (nb : Net W) (la lb : List Nat) (t : Table) (s : FNet W) :
    Option (FNet W) :=
  match s.net.stop, nb.stop with
  | some sa, some sb =>
    match (s.net.inn sa).mapM fun p => findId la p la.length, (nb.inn sb).mapM fun p => findId lb p lb.length with
    | some ea, some eb =>
      match (minOver (fun p : Nat × Nat => (t p.1 p.2).d) bigEnd (ea.flatMap fun i => eb.map fun j => (i, j))).2 with
      | none => some s
      | some (a, b) => editLoop null k nb la lb t (a + b) a b s
    | _, _ => none
  | _, _ => none

/-- One round of the loop of `Network_dpalign_n_networks`, src/sclite/net_dp.c:563-583, on networks that have their null
head already; the size check is that of `alloc_NET_ALIGN`, src/sclite/net_dp.c:826-829. -/
def combine {W : Type} (F : Funcs W) (null : W) (t0 : Table) (k : Nat) (s b : FNet W) : Option (FNet W) :=
  match inorderTraverse s.net s.fl, inorderTraverse b.net b.fl with
  | some sa, some sb =>
    if sa.arcs.length > 65534 ∨ sb.arcs.length > 65534 then none
    else
      match fillTable F s.net b.net sa.arcs sb.arcs t0 with
      | none => none
      | some t => createAligned null k b.net sa.arcs sb.arcs t ⟨s.net, sa.fl⟩
  | _, _ => none

/-- The loop of `Network_dpalign_n_networks` over the further networks, src/sclite/net_dp.c:563-583. -/
def combineAll {W : Type} (F : Funcs W) (null : W) (t0 : Nat → Table) : Nat → FNet W → List (FNet W) → Option (FNet W)
  | _, s, [] => some s
  | k, s, b :: bs =>
    match combine F null (t0 k) k s b with
    | none => none
    | some s' => combineAll F null t0 (k + 1) s' bs

/-- `del_from_arc_list`, src/sclite/delarc1.c:6-32: every occurrence goes. -/
def delArc (l : List Nat) (a : Nat) : List Nat := l.filter (fun b => b ≠ a)

/-- `Network_delete_arc`, src/sclite/net_adt.c:345-466.  Start and stop are recognised by their place where the code
compares the names "START" and "STOP"; a freed node keeps its number and loses its arcs. -/
def deleteArc {W : Type} (n : Net W) (x : Nat) : Net W :=
  let u := n.src x
  let v := n.dst x
  let n1 : Net W := { n with out := upd n.out u (delArc (n.out u) x), inn := upd n.inn v (delArc (n.inn v) x) }
  let joinBack (m : Net W) : Net W :=
    { m with
      inn := upd (upd m.inn v ((m.inn u).foldl addArc (m.inn v))) u []
      dst := fun a => if a ∈ m.inn u then v else m.dst a }
  if n1.inn v = [] then
    if n.stop = some v then
      if u ≠ n.start then joinBack n1
      else { n1 with stop := none, out := upd n1.out v [] }
    else
      let n2 : Net W :=
        { n1 with
          out := upd (upd n1.out u ((n1.out v).foldl addArc (n1.out u))) v []
          src := fun a => if a ∈ n1.out v then u else n1.src a }
      if n2.out u = [] then
        if u = n.start then n2 else { n2 with inn := upd n2.inn u [] }
      else n2
  else if n1.out u = [] then
    if u = n.start then { n1 with stop := none, inn := upd n1.inn v [], out := upd n1.out v [] }
    else joinBack n1
  else n1

/-- `Network_delete_null_arcs` with `find_null_arcs`, src/sclite/net_adt.c:1127-1139, 1373-1396. -/
def deleteNullArcs {W : Type} (s : FNet W) : Option (FNet W) :=
  match depthTraverse s.net s.fl with
  | none => none
  | some st => some ⟨(st.arcs.filter fun a => (s.net.data a).isNone).foldl deleteArc s.net, st.fl⟩

/-- `Network_dpalign_n_networks`, src/sclite/net_dp.c:528-597. -/
def dpalignN {W : Type} (F : Funcs W) (null : W) (t0 : Nat → Table) : List (FNet W) → Option (FNet W)
  | [] => none
  | s :: bs =>
    match combineAll F null t0 1 s.addHead (bs.map FNet.addHead) with
    | none => none
    | some r => deleteNullArcs r

/-! ## Voting -/

/-- The part of `WORD` the voting looks at, src/sclite/word.h. -/
structure Tok (V : Type) where
  val : V
  t1 : Rat
  t2 : Rat
  conf : Rat
  deriving Repr, DecidableEq

/-- `METH_*`, src/sclite/rover.c.  `METH_METH1A` and `METH_MAXCONFA` are treated by the code like `METH_METH1` and
`METH_MAXCONF`. -/
inductive Meth where
  | meth1 | maxconf | avgconf | oracle
  deriving Repr, DecidableEq

/-- One entry of `wlist` with the arrays beside it, src/sclite/rover.c:309-313. -/
structure Cand (V : Type) where
  tok : Tok V
  occ : Nat
  confSum : Rat
  maxConf : Rat
  t1 : Rat
  t2 : Rat
  deriving Repr, DecidableEq

/-- `MAX`, src/sclite/sctk.h. -/
def max' (a b : Rat) : Rat := if a > b then a else b

/-- Adding one arc's word to an entry, src/sclite/rover.c:375-377, 403-406. -/
def Cand.add {V : Type} (c : Cand V) (x : Tok V) : Cand V :=
  ⟨c.tok, c.occ + 1, c.confSum + x.conf, max' c.maxConf x.conf, c.t1 + x.t1, c.t2 + x.t2⟩

/-- The search of `wlist` and the update, src/sclite/rover.c:360-406: `none` = too many words. -/
def record {V : Type} (eq : V → V → Bool) (x : Tok V) : List (Cand V) → Nat → Option (List (Cand V))
  | [], i => if i = 49 then none else some [Cand.add ⟨x, 0, 0, 0, 0, 0⟩ x]
  | c :: cs, i =>
    if eq c.tok.val x.val then some (c.add x :: cs)
    else (record eq x cs (i + 1)).map (c :: ·)

/-- The loop over the arcs of a node, src/sclite/rover.c:352-410. -/
def collect {V : Type} (eq : V → V → Bool) : List (Tok V) → List (Cand V) → Option (List (Cand V))
  | [], cs => some cs
  | x :: xs, cs =>
    match record eq x cs 0 with
    | none => none
    | some cs' => collect eq xs cs'

/-- The score of an entry, src/sclite/rover.c:417-446; `none` = division of zero by zero (not a number).  A sum of
confidences that vanishes although some confidences do not is outside the model. -/
def score {V : Type} (m : Meth) (alpha : Rat) (narc : Nat) (total : Rat) (c : Cand V) : Option Rat :=
  match m with
  | .meth1 | .oracle => some (alpha * (c.occ / narc) + (1 - alpha) * (c.confSum / c.occ))
  | .maxconf => some (alpha * (c.occ / narc) + (1 - alpha) * c.maxConf)
  | .avgconf => if total = 0 then none else some (alpha * (c.occ / narc) + (1 - alpha) * c.confSum / total)

/-- The loop that finds the best entry, src/sclite/rover.c:412-454. -/
def best {V : Type} (sc : Cand V → Option Rat) : List (Cand V) → Rat → Option (Cand V) → Option (Cand V)
  | [], _, b => b
  | c :: cs, mx, b =>
    match sc c with
    | none => best sc cs mx b
    | some s => if s > mx then best sc cs s (some c) else best sc cs mx b

/-- A line of the output, src/sclite/rover.c:485-516: start, duration, word, confidence, or an alternation mark. -/
inductive Line (V : Type) where
  | word (t dur : Rat) (w : V) (conf : Rat)
  | altBegin
  | alt
  | altEnd
  deriving Repr, DecidableEq

/-- The line for an entry, src/sclite/rover.c:492-497, 504-509. -/
def Cand.line {V : Type} (c : Cand V) : Line V :=
  .word (c.t1 / c.occ) ((c.t2 - c.t1) / c.occ) c.tok.val (c.confSum / c.occ)

/-- The lines of the oracle output, src/sclite/rover.c:499-516; `many`: more than one word. -/
def oracleLines {V : Type} (many : Bool) : List (Cand V) → List (Line V)
  | [] => []
  | [c] => c.line :: if many then [.altEnd] else []
  | c :: cs => c.line :: (if many then [.alt] else []) ++ oracleLines many cs

/-- `print_linear` for a node other than the stop node, src/sclite/rover.c:305-527, without the debugging output and the
`putat` format: `none` = exit. -/
def vote {V : Type} (eq : V → V → Bool) (null : V) (m : Meth) (alpha : Rat) (slot : List (Tok V)) :
    Option (List (Line V)) :=
  match collect eq slot [] with
  | none => none
  | some cs =>
    let total := (slot.map Tok.conf).foldl (· + ·) 0
    match best (score m alpha slot.length total) cs (-1) none with
    | none => none
    | some c =>
      match m with
      | .oracle =>
        some ((if cs.length > 1 then [Line.altBegin] else []) ++ oracleLines (decide (cs.length > 1)) cs)
      | _ => some (if eq c.tok.val null then [] else [c.line])

/-- `print_linear` on a node of a network: the words on the outgoing arcs, all of which must lead to the same node,
src/sclite/rover.c:322, 354-357. -/
def nodeLines {V : Type} (eq : V → V → Bool) (null : V) (m : Meth) (alpha : Rat) (n : Net (Tok V)) (v : Nat) :
    Option (List (Line V)) :=
  if n.stop = some v then some []
  else
    match n.out v with
    | [] => vote eq null m alpha []
    | a :: as =>
      if as.all (fun x => n.dst x = n.dst a) then
        match (a :: as).mapM n.data with
        | none => none
        | some slot => vote eq null m alpha slot
      else none

/-- The output for one chunk, src/sclite/rover.c:173-178: the alignment of the systems' networks, then `print_linear` on
every node in the order of `Network_traverse`. -/
def chunk {V : Type} (F : Funcs (Tok V)) (null : Tok V) (t0 : Nat → Table) (eq : V → V → Bool) (m : Meth) (alpha : Rat)
    (nets : List (FNet (Tok V))) : Option (List (Line V)) :=
  match dpalignN F null t0 nets with
  | none => none
  | some r =>
    match depthTraverse r.net r.fl with
    | none => none
    | some st => (st.nodes.mapM (nodeLines eq null.val m alpha r.net)).map List.flatten

end Verif.Rover
