import Verif.Infer.Model
import Verif.CharNet.Spec
/-!
# Inferred word segmentations: vocabulary for the properties
-/
set_option autoImplicit false
namespace Verif.Infer
open Verif.Net Verif.Text Verif.Lines Verif.CharNet

/-- The null word `@`, which stands for nothing. -/
def IsNull (w : CW) : Prop := w.value = [64]

instance (w : CW) : Decidable (IsNull w) := inferInstanceAs (Decidable (_ = _))

/-- What a sequence of words spells: the texts of the words one after the other, null words left out; null words only spell
the null word. -/
def spelling (xs : List CW) : List Nat :=
  if ∀ x ∈ xs, IsNull x then [64] else (xs.filter fun x => ¬ IsNull x).flatMap textOf

/-- `w` is the words `xs` made into one: it has their spelling, extends from the start of the first to the end of the last,
is optionally deletable (and then written in parentheses) if all of them are, a fragment if all of them are, and its
confidence is between the lowest and the highest. -/
structure IsJoin (xs : List CW) (w : CW) : Prop where
  opt : w.opt = true ↔ ∀ x ∈ xs, x.opt = true
  frag : w.frag = true ↔ ∀ x ∈ xs, x.frag = true
  value : w.value = if w.opt = true then [40] ++ spelling xs ++ [41] else spelling xs
  intern : w.intern = if w.opt = true then some (spelling xs) else none
  first : xs.head?.map CW.t1 = some w.t1
  last : xs.getLast?.map CW.t2 = some w.t2
  dur : w.dur = w.t2 - w.t1
  conf : ∀ lo hi : Rat, (∀ x ∈ xs, lo ≤ x.conf ∧ x.conf ≤ hi) → lo ≤ w.conf ∧ w.conf ≤ hi

/-- `ys` is obtained from `xs` by replacing runs of consecutive elements by one element each, as `R` allows. -/
inductive Cuts {W : Type} (R : List W → W → Prop) : List W → List W → Prop where
  | nil : Cuts R [] []
  | cons (run : List W) (y : W) (xs ys : List W) : R run y → Cuts R xs ys → Cuts R (run ++ xs) (y :: ys)

/-- What can stand for a run of units: a single unit for itself, and for more than one their join, provided that it is a
word of the lexicon. -/
def Piece (lex : List (List Nat)) (run : List CW) (y : CW) : Prop :=
  run = [y] ∨ (2 ≤ run.length ∧ spelling run ∈ lex ∧ IsJoin run y)

/-- The same for runs of at most `k` units. -/
def ShortPiece (k : Nat) (lex : List (List Nat)) (run : List CW) (y : CW) : Prop :=
  run = [y] ∨ (2 ≤ run.length ∧ run.length ≤ k ∧ spelling run ∈ lex ∧ IsJoin run y)

/-- The same word except for its confidence. -/
def SameWord (x y : CW) : Prop := { x with conf := 0 } = { y with conf := 0 }

/-- The same words in the same order, except for confidences. -/
inductive SameWords : List CW → List CW → Prop where
  | nil : SameWords [] []
  | cons (x y : CW) (xs ys : List CW) : SameWord x y → SameWords xs ys → SameWords (x :: xs) (y :: ys)

/-- Words that can be joined: the text is complete and consists of whole characters; an optionally deletable word has been
decoded, and its text is not `@`. -/
structure Joinable (e : Enc) (w : CW) : Prop where
  decoded : w.opt = true → ∃ t, w.intern = some t ∧ w.value = [40] ++ t ++ [41]
  text : Valid e (textOf w) ∧ textOf w ≠ []
  null : textOf w = [64] → IsNull w

/-- A network of such words that can be traversed; if there are optionally deletable words, the texts on a path through it
have less than 9998 bytes together. -/
structure Units (e : Enc) (b : CNet CW) : Prop where
  wf : ∃ rank, b.net.WF rank
  words : ∀ v a, a ∈ b.net.out v → ∃ w, b.net.data a = some w ∧ Joinable e w
  bits : ∀ v, b.net.Reach v → b.vis v = b.vis b.net.start
  short : ∀ (v : Nat) (p : List Nat) (u : Nat) (ws : List CW), b.net.Walk v p u → p.map b.net.data = ws.map some → (∀ w ∈ ws, w.opt = true) →
    (ws.flatMap textOf).length < 9998

/-- A lexicon: whole characters, sorted. -/
structure Lexicon (e : Enc) (lex : List (List Nat)) : Prop where
  valid : ∀ w ∈ lex, Valid e w
  sorted : SortedBy e lex

/-- `w` is the first field of the line `l`: what comes before the next blank, tab or newline after leading ones; nothing if
there is nothing else. -/
def FirstWord (e : Enc) (l w : List Nat) : Prop :=
  ∃ gap cs rest : List (List Nat), l = (gap ++ cs ++ rest).flatten ∧ (∀ c ∈ gap ++ cs ++ rest, IsChar e c) ∧
    (∀ c ∈ gap, IsSep [32, 9, 10] c) ∧ (∀ c ∈ cs, ¬ IsSep [32, 9, 10] c) ∧ (∀ c, rest.head? = some c → IsSep [32, 9, 10] c) ∧
    (cs = [] → rest = []) ∧ w = cs.flatten

/-- `k` is the number of characters of the longest word, but at least 1. -/
structure Longest (e : Enc) (lex : List (List Nat)) (k : Nat) : Prop where
  one : 1 ≤ k
  bound : ∀ cs : List (List Nat), (∀ c ∈ cs, IsChar e c) → cs.flatten ∈ lex → cs.length ≤ k
  met : k = 1 ∨ ∃ cs : List (List Nat), (∀ c ∈ cs, IsChar e c) ∧ cs.flatten ∈ lex ∧ cs.length = k

/-- No null word is on a path through the network. -/
def NoNulls (b : CNet CW) : Prop := ∀ ws, b.net.Produces ws → ∀ w ∈ ws, ¬ IsNull w

/-- A sequence of words into which some reading of the network can be segmented. -/
def Segmentation (lex : List (List Nat)) (b : CNet CW) (ws : List CW) : Prop :=
  ∃ us, b.net.Produces us ∧ Cuts (Piece lex) us ws

/-- The functions that the alignment uses do not look at confidences. -/
structure Blind (F : Funcs CW) : Prop where
  null : ∀ x y, SameWord x y → F.isNull x = F.isNull y
  opt : ∀ x y, SameWord x y → F.optDel x = F.optDel y
  equal : ∀ x y z, SameWord x y → F.equal z x = F.equal z y ∧ F.equal x z = F.equal y z

end Verif.Infer
