import Verif.NetBuild.Model
/-!
# Model of the expansion of words into characters (sclite option `-c`)

src/sclite/align.c, src/sclite/net_adt.c.  Texts are lists of bytes without the terminating NUL; times are exact rational
numbers where the code computes with `double`s.  Modelled are the parts of a `WORD` that the expansion reads or sets; its
tags and its weight are not (the tags of a word that is expanded are lost, its characters get weights later).
-/
set_option autoImplicit false
namespace Verif.CharNet
open Verif.Net Verif.Text Verif.Split Verif.NetBuild

/-- The parts of `WORD`, src/sclite/word.h:5-24: `value`, `intern_value` (`none` = `NULL`), `opt_del`, `frag_corr`, `T1`,
`T2`, `T_dur`, `conf`. -/
structure CW where
  value : List Nat
  intern : Option (List Nat)
  opt : Bool
  frag : Bool
  t1 : Rat
  t2 : Rat
  dur : Rat
  conf : Rat
  deriving DecidableEq

/-- The word that `new_WORD_parseText` makes of a token, src/sclite/word.c:261-325: all times zero. -/
def fresh (p : Parts) : CW := ⟨p.value, none, false, false, 0, 0, 0, 0⟩

/-- `decode_opt_del`, src/sclite/align.c:752-765: 40 and 41 are the parentheses.  `none` = the byte before an empty value is
read. -/
def decodeOptDel (w : CW) : Option CW :=
  if w.value = [] then none
  else if w.value.getLast? = some 41 ∧ w.value.head? = some 40 then
    some { w with opt := true, intern := some ((w.value.drop 1).take (w.value.length - 2)) }
  else some w

/-- `decode_fragment`, src/sclite/align.c:767-780: 45 is the hyphen.  `none` as before. -/
def decodeFragment (w : CW) : Option CW :=
  if w.value = [] then none
  else if (w.value.getLast? = some 45 ∨ w.value.head? = some 45) ∨
      (w.opt = true ∧ w.value[w.value.length - 2]? = some 45) then some { w with frag := true }
  else some w

/-- The word for unit number `i` of `k`, with the text `u`, made of the word `w`: `set_word_duration`, `set_word_start`,
`set_word_conf`, `set_word_opt_del`, `decode_opt_del`, src/sclite/align.c:631-665, 752-765 and 702-716.  The start of each
unit is the start of the word plus the durations of the units visited before. -/
def charWord (w : CW) (k i : Nat) (u : List Nat) : CW :=
  { value := if w.opt then 40 :: u ++ [41] else u
    intern := if w.opt then some u else none
    opt := w.opt
    frag := false
    t1 := w.t1 + i * (w.dur / k)
    t2 := w.dur / k + (w.t1 + i * (w.dur / k))
    dur := w.dur / k
    conf := w.conf }

/-- The network that replaces a word, src/sclite/align.c:667-716.  `some none` = the word stays as it is; `none` = the code
exits or reads through a null pointer.  The array for the separated text only grows; it starts with 100 bytes.  The
network is made and visited in traversals nested in that of the words, so with bit 1.  The number of arcs (`arc_count`) is
taken to be the number of arcs visited. -/
def charSub (e : Enc) (f : Split.Flags) (w : CW) : Option (Option (Net CW)) :=
  if w.value.length ≤ 1 then some none
  else
    match if w.opt then w.intern else some w.value with
    | none => none
    | some text =>
      match separate e f 100 text with
      | none => none
      | some (chars, _) =>
        if chars = w.value then some none
        else
          match create e ((escape 59 chars).length + 1) 1 (escape 59 chars) with
          | none => none
          | some m =>
            match depthTraverse m.net ⟨fun _ => 0, fun v => m.flag2 v 1⟩ with
            | none => none
            | some s =>
              some (some { m.net with
                data := fun a => (m.net.data a).map fun p => charWord w s.arcs.length (s.arcs.idxOf a) p.value })

/-- A network with the visited bit 0 of its nodes. -/
structure CNet (W : Type) where
  net : Net W
  vis : Nat → Bool

/-- How a computation ends. -/
inductive Res (α : Type) where
  | ok (x : α)
  | crash
  | hang

/-- The end of `expand_words_to_chars`, src/sclite/align.c:717-718: the new network is merged in beside the arc
(`Network_merge_network`, src/sclite/net_adt.c:251-325, with `reset_net_pointer`, 1046-1067) and the arc deleted.  The names
of nodes are left out: the new ones are "M", a number and a number, which fits the array of 40 bytes. -/
def replaceArc {W : Type} (sub : W → Option (Option (Net W))) (b : CNet W) (a : Nat) : Option (CNet W) :=
  match b.net.data a with
  | none => none
  | some w =>
    match sub w with
    | none => none
    | some none => some b
    | some (some m) =>
      match merge b.net (b.net.src a) (b.net.dst a) m with
      | none => none
      | some n1 =>
        (deleteArc n1 a).map fun n2 =>
          ⟨n2, fun v => if v < b.net.nNodes then b.vis v
            else if m.out (v - b.net.nNodes) ≠ [] then b.vis b.net.start else false⟩

/-- The element after `p` in a list of arcs: `p->next`, src/sclite/net_adt.c:238. -/
def nextAfter (p : Nat) (l : List Nat) : Option Nat := ((l.dropWhile (· ≠ p)).drop 1).head?

/-- The loop over the arcs of a node, src/sclite/net_adt.c:236-242: the next element is read before the callback, so arcs
that the callback appends to the list are visited too unless the current one was the last.  `hang` = the fuel did not
suffice. -/
def arcLoop {W : Type} (sub : W → Option (Option (Net W))) (v : Nat) : Nat → CNet W → Option Nat → Res (CNet W)
  | _, b, none => .ok b
  | 0, _, some _ => .hang
  | fuel + 1, b, some p =>
    match replaceArc sub b p with
    | none => .crash
    | some b' => arcLoop sub v fuel b' (nextAfter p (b.net.out v))

/-- Pushing a node in the depth-first traversal, src/sclite/net_adt.c:195-230. -/
def push (cur : Bool) (s : (Nat → Bool) × List Nat) (w : Nat) : (Nat → Bool) × List Nat :=
  if s.1 w ≠ cur then s else (upd s.1 w (!s.1 w), w :: s.2)

/-- The loop over the nodes, src/sclite/net_adt.c:185-245: the neighbours are pushed before the callbacks for the arcs. -/
def nodeLoop {W : Type} (sub : W → Option (Option (Net W))) (cur : Bool) (fuel : Nat) : Nat → CNet W → List Nat → Res (CNet W)
  | _, b, [] => .ok b
  | 0, _, _ :: _ => .hang
  | k + 1, b, v :: rest =>
    let s := ((b.net.out v).map b.net.dst).foldl (push cur) (b.vis, rest)
    match arcLoop sub v fuel ⟨b.net, s.1⟩ (b.net.out v).head? with
    | .ok b' => nodeLoop sub cur fuel k b' s.2
    | .crash => .crash
    | .hang => .hang

/-- `Network_traverse(net,NULL,0,expand_words_to_chars,&char_align,0)`, src/sclite/net_adt.c:97-249 and
src/sclite/align.c:473-479, as the outermost traversal.  A run that ends does so for all large fuels; `hang` for all fuels
is a run that does not end. -/
def expandNet {W : Type} (sub : W → Option (Option (Net W))) (fuel : Nat) (b : CNet W) : Res (CNet W) :=
  let cur := b.vis b.net.start
  nodeLoop sub cur fuel fuel ⟨b.net, upd b.vis b.net.start (!cur)⟩ [b.net.start]

/-- Expansion of a network of words into characters. -/
def expandChars (e : Enc) (f : Split.Flags) (fuel : Nat) (b : CNet CW) : Res (CNet CW) := expandNet (charSub e f) fuel b

/-- A callback that changes the words of a network, applied to every arc: the traversals in src/sclite/align.c:461-471.
`none` = the callback reads outside of a value.  The visited bits, which every traversal flips at all nodes that can be
reached, are left out. -/
def mapWords {V W : Type} (g : V → Option W) (n : Net V) : Option (Net W) :=
  if (List.range n.nNodes).all (fun v => (n.out v).all fun a => match n.data a with
      | some x => (g x).isSome
      | none => true) then
    some { start := n.start, stop := n.stop, nNodes := n.nNodes, nArcs := n.nArcs, src := n.src, dst := n.dst,
           data := fun a => (n.data a).bind g, out := n.out, inn := n.inn }
  else none

/-- The decoding of a word before the expansion, src/sclite/align.c:461-471: of optionally deletable words with option `-D`
(`opt`), of fragments with option `-F` (`frag`). -/
def decode (opt frag : Bool) (w : CW) : Option CW :=
  match if opt then decodeOptDel w else some w with
  | none => none
  | some w1 => if frag then decodeFragment w1 else some w1

/-- A text made into a network of characters: src/sclite/align.c:440-480 for one of the two texts. -/
def charNet (e : Enc) (f : Split.Flags) (opt frag : Bool) (fuel : Nat) (text : List Nat) : Res (CNet CW) :=
  match build e text with
  | none => .crash
  | some b =>
    match mapWords (fun p => decode opt frag (fresh p)) b.net with
    | none => .crash
    | some n => expandChars e f fuel ⟨n, fun v => b.flag2 v 0⟩

end Verif.CharNet
