import Verif.WtokeNet.Spec
import Verif.NetBuild.Model
import Verif.Chop.Model
/-!
# Model of the construction of word networks from time-marked words (sclite `net_adt.c`)

The index `i` of the code is represented by the lines from `word[i]` to the last one, and the number of lines from `i` to
`end`.  Reading a line after the last one is undefined.  The names of nodes are left out: alternatives are merged twice at most,
so that a name never has more than 5 + 2 * (1 + digits) bytes and the arrays of 10 and 40 bytes suffice for fewer than 10^8
nodes.  The visited bits are left out: all nodes keep those of the start node of the network.  Comparisons ignoring case
(`TEXT_strcasecmp`) are those of the C locale, for which `Verif.Text` has the details.
-/
set_option autoImplicit false
namespace Verif.WtokeNet
open Verif.Net Verif.Split Verif.Text
open Verif.Chop (Out)
open Verif.NetBuild (merge deleteArc)

/-- The text of the line is the mark, in any case (`TEXT_strcasecmp`, net_adt.c:681, 739-745). -/
def is (m : List Nat) (t : Tok) : Bool := t.sp.map low = m

/-- The text of the line begins with `<ALT`, in any case (`TEXT_strCcasecmp`, net_adt.c:690-691). -/
def isAlt (t : Tok) : Bool := (t.sp.map low).take 4 = stem

/-- A new word from a line (net_adt.c:693-697, 771-774). -/
def wordOf (enc : Enc) (hasConf : Bool) (t : Tok) : Option Wd :=
  (parseText enc t.sp).map fun p => ⟨p, t.t1, t.t1 + t.dur, if hasConf then t.conf else -1⟩

/-- Adding a word (net_adt.c:698-712, 775-789). -/
def addWord (ltr : Bool) (n : Net Wd) (w : Wd) : Net Wd := if ltr then n.addTail (some w) else n.addHead (some w)

/-- `Network_add_net_to_tail` (net_adt.c:40-67). -/
def addNetTail {W : Type} (n m : Net W) : Option (Net W) :=
  let n1 := n.addTail none
  match n1.stop with
  | none => none
  | some s =>
    match n1.inn s with
    | [] => none
    | a :: _ =>
      match merge n1 (n1.src a) s m with
      | none => none
      | some n2 => deleteArc n2 a

/-- `Network_add_net_to_head` (net_adt.c:70-95). -/
def addNetHead {W : Type} (n m : Net W) : Option (Net W) :=
  let n1 := n.addHead none
  match n1.out n1.start with
  | [] => none
  | a :: _ =>
    match merge n1 (n1.src a) (n1.dst a) m with
    | none => none
    | some n2 => deleteArc n2 a

/-- Skipping `<ALT_BEGIN>` (net_adt.c:679-683). -/
def skipBegin : List Tok → Nat → List Tok × Nat
  | t :: ts, k + 1 => if is beginMark t then skipBegin ts k else (t :: ts, k + 1)
  | ts, k => (ts, k)

/-- The words of an alternative, and what follows (net_adt.c:688-715). -/
def takeAlt : List Tok → Nat → List Tok × List Tok × Nat
  | t :: ts, k + 1 =>
    if isAlt t then ([], t :: ts, k + 1)
    else (t :: (takeAlt ts k).1, (takeAlt ts k).2)
  | ts, k => ([], ts, k)

/-- The network of the words of an alternative (net_adt.c:685-715). -/
def altWords (enc : Enc) (hasConf ltr : Bool) (ws : List Tok) : Out (Net Wd) :=
  match ws.mapM (wordOf enc hasConf) with
  | none => .undef
  | some l => .ok (l.foldl (addWord ltr) (Net.init Wd))

/-- The network of an alternative without words, at the line where the next one was expected (net_adt.c:716-730). -/
def altNull (hasConf : Bool) (rest : List Tok) : Out (Net Wd) :=
  match rest with
  | [] => if hasConf then .undef else .ok ((Net.init Wd).addTail (some ⟨⟨[64], none, none⟩, 0, 0, -1⟩))
  | t :: _ => .ok ((Net.init Wd).addTail (some ⟨⟨[64], none, none⟩, 0, 0, if hasConf then t.conf else -1⟩))

/-- One alternative (net_adt.c:685-730). -/
def oneAlt (enc : Enc) (hasConf ltr : Bool) (rest : List Tok) (k : Nat) : Out (Net Wd × List Tok × Nat) :=
  let r := takeAlt rest k
  if r.1 = [] then (altNull hasConf r.2.1).bind fun n => .ok (n, r.2.1.drop 1, r.2.2 - 1)
  else (altWords enc hasConf ltr r.1).bind fun n => .ok (n, r.2)

/-- Putting the alternative next to the ones before (net_adt.c:731-738). -/
def joinAlt (acc : Option (Net Wd)) (n : Net Wd) : Out (Net Wd) :=
  match acc with
  | none => .ok n
  | some f =>
    match f.stop with
    | none => .undef
    | some t =>
      match merge f f.start t n with
      | none => .undef
      | some g => .ok g

/-- Stepping over the line between alternatives, unless the last one is empty (net_adt.c:739-743). -/
def nextAlt (rest : List Tok) (k : Nat) : Out (List Tok × Nat) :=
  match rest with
  | [] => .undef
  | t :: ts =>
    if is orMark t then
      match ts with
      | [] => .undef
      | u :: _ => if is endMark u then .ok (rest, k) else .ok (ts, k - 1)
    else if is endMark t then .ok (rest, k)
    else .ok (ts, k - 1)

/-- The condition for another alternative (net_adt.c:744-745). -/
def more (rest : List Tok) (k : Nat) : Bool :=
  match rest, k with
  | t :: _, _ + 1 => !is endMark t
  | _, _ => false

/-- The loop over the alternatives (net_adt.c:684-745).  The first argument bounds the number of rounds. -/
def altLoop (enc : Enc) (hasConf ltr : Bool) : Nat → Option (Net Wd) → List Tok → Nat → Out (Net Wd × List Tok × Nat)
  | 0, _, _, _ => .hang
  | f + 1, acc, rest, k =>
    (oneAlt enc hasConf ltr rest k).bind fun x =>
      (joinAlt acc x.1).bind fun n =>
        (nextAlt x.2.1 x.2.2).bind fun y =>
          if more y.1 y.2 then altLoop enc hasConf ltr f (some n) y.1 y.2 else .ok (n, y.1, y.2)

/-- An alternation (net_adt.c:676-766). -/
def alternation (enc : Enc) (hasConf ltr : Bool) (net : Net Wd) (rest : List Tok) (k : Nat) : Out (Net Wd × List Tok × Nat) :=
  let b := skipBegin rest k
  (altLoop enc hasConf ltr (b.1.length + 2) none b.1 b.2).bind fun x =>
    match (if ltr then addNetTail net x.1 else addNetHead net x.1) with
    | none => .undef
    | some n => .ok (n, x.2)

/-- The loop over the lines (net_adt.c:674-793).  The first argument bounds the number of rounds. -/
def lineLoop (enc : Enc) (hasConf ltr : Bool) : Nat → Net Wd → List Tok → Nat → Out (Net Wd)
  | f, net, t :: ts, k + 1 =>
    match f with
    | 0 => .hang
    | f + 1 =>
      if !t.ignore && t.alternate then
        (alternation enc hasConf ltr net (t :: ts) (k + 1)).bind fun x =>
          lineLoop enc hasConf ltr f x.1 (x.2.1.drop 1) (x.2.2 - 1)
      else if !t.ignore then
        match wordOf enc hasConf t with
        | none => .undef
        | some w => lineLoop enc hasConf ltr f (addWord ltr net w) ts k
      else lineLoop enc hasConf ltr f net ts k
  | _, net, _, _ => .ok net

/-- `Network_create_from_WTOKE` (net_adt.c:660-795): `rest` are the lines from `start` to the last one, `k` is the number of
lines from `start` to `end`. -/
def create (enc : Enc) (hasConf ltr : Bool) (rest : List Tok) (k : Nat) : Out (Net Wd) :=
  lineLoop enc hasConf ltr (rest.length + 1) (Net.init Wd) rest k

end Verif.WtokeNet
