import Verif.CharNet.Model
/-!
# Model of the inference of word segmentations (sclite option `-S`)

src/sclite/align.c, src/sclite/net_adt.c, src/sclite/word.c, src/sclite/text.c.  One of the two texts is taken apart into
characters (`CharNet`); then every run of consecutive units that is a word of a lexicon gets an arc of its own, and the
alignment chooses between them.  Words and texts as in `CharNet`.
-/
set_option autoImplicit false
namespace Verif.Infer
open Verif.Net Verif.Text Verif.Lines Verif.CharNet

/-! ## The lexicon -/

/-- `TEXT_xnewline`, src/sclite/text.h:24. -/
def xnewline (l : List Nat) : List Nat := if l.getLast? = some 10 then l.dropLast else l

/-- The word stored for a line with `col` = 0, src/sclite/text.c:1675-1692: the first field.  `none` = exit, or a character
cut off by the end of the line. -/
def firstField (e : Enc) (l : List Nat) : Option (List Nat) :=
  match spn e [32, 9, 10] (xnewline l) with
  | none => none
  | some p => (cspn e [32, 9, 10] p.length p).map (·.1)

/-- `load_TEXT_LIST`, src/sclite/text.c:1653-1703, with `col` = 0, and `add_TEXT_LIST`, 1625-1636, for the bytes of a file
that can be opened.  Words that are out of order are reported on the standard output but stored; the array grows as needed. -/
def loadList (e : Enc) (file : List Nat) : Option (List (List Nat)) :=
  match readAll (file.length + 1) 100 100 file with
  | none => none
  | some ls => ls.mapM (firstField e)

/-- The greatest number of characters of a word, src/sclite/align.c:233-235 and 328-330. -/
def maxLen (e : Enc) (lex : List (List Nat)) : Option Nat :=
  lex.foldlM (fun m w => (chrlen e w.length w).map fun s => if s > m then s else m) 1

/-- The text of a word that is compared, e.g. src/sclite/text.c:1732-1733; `none` = a null pointer. -/
def text? (w : CW) : Option (List Nat) := if w.opt then w.intern else some w.value

/-- `WORD_in_TEXT_LIST`, src/sclite/text.c:1729-1736. -/
def inLex (e : Enc) (lex : List (List Nat)) (w : CW) : Option Bool :=
  match text? w with
  | none => none
  | some t => (inTextList e lex t).map Option.isSome

/-! ## Joining words -/

/-- The size of the array that `rsprintf` prints into, src/sclite/rsprintf.c:9. -/
def bufSize : Nat := 10000

/-- The fields that do not depend on the texts, src/sclite/word.c:187-194. -/
def joined (w1 w2 : CW) (value : List Nat) (intern : Option (List Nat)) (opt : Bool) : CW where
  value := value
  intern := intern
  opt := opt
  frag := w1.frag && w2.frag
  t1 := w1.t1
  t2 := w2.t2
  dur := w2.t2 - w1.t1
  conf := (w1.conf + w2.conf) / 2

/-- `append_WORD_no_NULL`, src/sclite/word.c:184-217: 40, 41 and 64 are `(`, `)` and `@`.  `none` = a null pointer is read, or
the array of `rsprintf` overflows. -/
def appendNoNull (w1 w2 : CW) : Option CW :=
  if w1.opt && w2.opt then
    match w1.intern, w2.intern with
    | some a, some b =>
      if (a ++ b).length + 2 < bufSize then some (joined w1 w2 ([40] ++ (a ++ b) ++ [41]) (some (a ++ b)) true) else none
    | _, _ => none
  else if w1.value = [64] then (text? w2).map fun t => joined w1 w2 t none false
  else if w2.value = [64] then (text? w1).map fun t => joined w1 w2 t none false
  else
    match text? w1, text? w2 with
    | some a, some b => some (joined w1 w2 (a ++ b) none false)
    | _, _ => none

/-! ## Connecting a network -/

/-- Pushing a node in a breadth-first traversal, src/sclite/net_adt.c:199-231. -/
def pushTail (cur : Bool) (s : (Nat → Bool) × List Nat) (w : Nat) : (Nat → Bool) × List Nat :=
  if s.1 w ≠ cur then s else (upd s.1 w (!s.1 w), s.2 ++ [w])

/-- The loop over the nodes in a breadth-first traversal that collects the arcs, src/sclite/net_adt.c:186-245 with
`add_to_arcset`, src/sclite/net_dp.c:51-55: the visited bits afterwards and the arcs.  The array for the arcs has room for
`arc_count` + 1 of them, which is taken to be enough. -/
def breadthLoop {W : Type} (n : Net W) (cur : Bool) : Nat → (Nat → Bool) → List Nat → Option ((Nat → Bool) × List Nat)
  | _, vis, [] => some (vis, [])
  | 0, _, _ :: _ => none
  | fuel + 1, vis, v :: rest =>
    let s := ((n.out v).map n.dst).foldl (pushTail cur) (vis, rest)
    (breadthLoop n cur fuel s.1 s.2).map fun r => (r.1, n.out v ++ r.2)

/-- `Network_traverse` with `NT_CA_For + NT_Breadth`, src/sclite/net_adt.c:97-249.  One step per node suffices. -/
def breadthArcs {W : Type} (n : Net W) (vis : Nat → Bool) : Option ((Nat → Bool) × List Nat) :=
  breadthLoop n (vis n.start) n.nNodes (upd vis n.start (!vis n.start)) [n.start]

/-- `recursive_connect`, src/sclite/net_adt.c:609-626: `base` and `c` are the first and the current arc, `value` the words of
the arcs in between joined, the number is `connect_factor`.  The list of arcs is read once, when the loop starts: in an
acyclic network it does not change while it runs (`loop_lists_fixed`). -/
def recConnect {W : Type} (app : W → W → Option W) (test : W → Option Bool) (base : Nat) :
    Nat → Nat → W → Net W → Option (Net W)
  | 0, _, _, n => some n
  | k + 1, c, value, n =>
    (n.out (n.dst c)).foldlM (fun m a =>
      match m.data a with
      | none => none
      | some d =>
        match app value d with
        | none => none
        | some x =>
          match test x with
          | none => none
          | some pass =>
            recConnect app test base k a x
              (if pass then m.insertBetween (m.src base) (m.dst a) (some x) else m)) n

/-- The loop of `Network_fully_connect_cond`, src/sclite/net_adt.c:650-654. -/
def connectArcs {W : Type} (app : W → W → Option W) (test : W → Option Bool) (k : Nat) (arcs : List Nat) (n : Net W) :
    Option (Net W) :=
  arcs.foldlM (fun m a =>
    match m.data a with
    | none => none
    | some d => recConnect app test a (k - 1) a d m) n

/-- `Network_fully_connect_cond`, src/sclite/net_adt.c:628-658, with `connect_factor` = `k`, at least 1. -/
def fullyConnect {W : Type} (app : W → W → Option W) (test : W → Option Bool) (k : Nat) (b : CNet W) : Option (CNet W) :=
  match breadthArcs b.net b.vis with
  | none => none
  | some (vis, arcs) => (connectArcs app test k arcs b.net).map fun n => ⟨n, vis⟩

/-- The network in which segmentations are looked for, from its units: src/sclite/align.c:287-288 and 385-386. -/
def segment (e : Enc) (lex : List (List Nat)) (b : CNet CW) : Option (CNet CW) :=
  match maxLen e lex with
  | none => none
  | some k => fullyConnect appendNoNull (inLex e lex) k b

/-- A text made into such a network: src/sclite/align.c:335-386 for the hypothesis with `algo1`, 240-288 for the reference
with `algo2`, from the bytes of the lexicon.  Conversion to lower case is left out. -/
def segmentText (e : Enc) (f : Split.Flags) (opt frag : Bool) (fuel : Nat) (lexicon text : List Nat) : Res (CNet CW) :=
  match loadList e lexicon with
  | none => .crash
  | some lex =>
    match charNet e f opt frag fuel text with
    | .crash => .crash
    | .hang => .hang
    | .ok b =>
      match segment e lex b with
      | none => .crash
      | some b' => .ok b'

end Verif.Infer
