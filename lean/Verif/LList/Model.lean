/-!
# Model of sclite's linked lists

src/sclite/llist.c.  Memory is a list of live nodes: address, data, address of the next node.  `malloc` is a parameter
that delivers an address from the live nodes; it does not fail (see DESIGN.md).
-/
set_option autoImplicit false
namespace Verif.LList

/-- `struct lnode`, src/sclite/llist.h:16-20, with its address. -/
structure Node (D : Type) where
  addr : Nat
  data : D
  next : Option Nat
  deriving Repr, DecidableEq

/-- The live nodes. -/
abbrev Heap (D : Type) := List (Node D)

/-- Reading the node at an address; `none` = reading memory that is not live. -/
def Heap.at {D : Type} (h : Heap D) (a : Nat) : Option (Node D) := h.find? fun n => n.addr = a

/-- `LL_put_front`, src/sclite/llist.c:83-101, with `getLList`, 18-31: the new heap and list pointer. -/
def putFront {D : Type} (alloc : Heap D → Nat) (h : Heap D) (s : Option Nat) (d : D) : Heap D × Option Nat :=
  (⟨alloc h, d, s⟩ :: h, some (alloc h))

/-- The loop of `LL_put_tail` that looks for the last node, src/sclite/llist.c:121-122; `none` = undefined behaviour, or
the loop does not end (a list has at most as many nodes as there are live nodes). -/
def lastNode {D : Type} (h : Heap D) : Nat → Nat → Option Nat
  | 0, _ => none
  | fuel + 1, p =>
    match h.at p with
    | none => none
    | some n =>
      match n.next with
      | none => some p
      | some q => lastNode h fuel q

/-- Writing the `next` field of a live node. -/
def setNext {D : Type} (h : Heap D) (a : Nat) (x : Option Nat) : Heap D :=
  h.map fun n => if n.addr = a then { n with next := x } else n

/-- `LL_put_tail`, src/sclite/llist.c:106-129. -/
def putTail {D : Type} (alloc : Heap D → Nat) (h : Heap D) (s : Option Nat) (d : D) : Option (Heap D × Option Nat) :=
  match s with
  | none => some (putFront alloc h s d)
  | some p =>
    let h1 : Heap D := ⟨alloc h, d, none⟩ :: h
    match lastNode h1 h1.length p with
    | none => none
    | some q => some (setNext h1 q (some (alloc h)), some p)

/-- `LL_get_first`, src/sclite/llist.c:136-158: `none` = undefined behaviour; `some (_, _, none)` = returns 0. -/
def getFirst {D : Type} (h : Heap D) (s : Option Nat) : Option (Heap D × Option Nat × Option D) :=
  match s with
  | none => some (h, s, none)
  | some p =>
    match h.at p with
    | none => none
    | some n => some (h.filter (fun m => m.addr ≠ p), n.next, some n.data)

/-- `recur`, src/sclite/llist.c:57-62: `none` = undefined behaviour or no end. -/
def recur {D : Type} (alloc : Heap D → Nat) : Nat → Heap D → Option Nat → Option Nat → Option (Heap D × Option Nat)
  | 0, _, _, _ => none
  | fuel + 1, h, t, f =>
    match f with
    | none => some (h, t)
    | some p =>
      match h.at p with
      | none => none
      | some n =>
        match recur alloc fuel h t n.next with
        | none => none
        | some (h', t') => some (putFront alloc h' t' n.data)

/-- Variables that hold lists. -/
structure State (D : Type) where
  heap : Heap D
  var : Nat → Option Nat

/-- Assignment to a variable. -/
def set {D : Type} (s : State D) (i : Nat) (h : Heap D) (p : Option Nat) : State D :=
  ⟨h, fun j => if j = i then p else s.var j⟩

/-- `LL_copy`, src/sclite/llist.c:64-68: `LL_init(t)`, then `recur` from `*f`, read after the initialisation. -/
def copy {D : Type} (alloc : Heap D → Nat) (s : State D) (t f : Nat) : Option (State D) :=
  let s1 := set s t s.heap none
  match recur alloc (s1.heap.length + 1) s1.heap (s1.var t) (s1.var f) with
  | none => none
  | some (h, p) => some (set s1 t h p)

/-- Calls a program makes. -/
inductive Op (D : Type) where
  | init (i : Nat)
  | front (i : Nat) (d : D)
  | tail (i : Nat) (d : D)
  | first (i : Nat)
  | copy (t f : Nat)
  deriving Repr, DecidableEq

/-- One call with what it returns (for `LL_get_first` the datum, `none` for a list without elements). -/
def step {D : Type} (alloc : Heap D → Nat) (s : State D) : Op D → Option (State D × Option D)
  | .init i => some (set s i s.heap none, none)
  | .front i d => let r := putFront alloc s.heap (s.var i) d; some (set s i r.1 r.2, none)
  | .tail i d => (putTail alloc s.heap (s.var i) d).map fun r => (set s i r.1 r.2, none)
  | .first i => (getFirst s.heap (s.var i)).map fun r => (set s i r.1 r.2.1, r.2.2)
  | .copy t f => (copy alloc s t f).map fun s' => (s', none)

/-- A sequence of calls. -/
def run {D : Type} (alloc : Heap D → Nat) (s : State D) : List (Op D) → Option (State D × List (Option D))
  | [] => some (s, [])
  | op :: ops =>
    match step alloc s op with
    | none => none
    | some (s', r) => (run alloc s' ops).map fun x => (x.1, r :: x.2)

/-- The elements of the list at a pointer, as a program walking along it sees them. -/
def walk {D : Type} (h : Heap D) : Nat → Option Nat → Option (List D)
  | _, none => some []
  | 0, some _ => none
  | fuel + 1, some p =>
    match h.at p with
    | none => none
    | some n => (walk h fuel n.next).map (n.data :: ·)

end Verif.LList
