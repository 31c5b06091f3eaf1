import Verif.Expand.Model
/-!
# Words with alternatives: the states the readers of files leave
-/
set_option autoImplicit false
namespace Verif.Expand
open Verif.LineStyle (Word)

/-- Every link is stored at both of its ends, as often at the one as at the other. -/
def Sym (s : Store) : Prop := ∀ x y, (s.next x).count y = (s.prec y).count x

/-- A store as the readers leave it: links stored at both ends, between existing tokens, none from a token to itself. -/
structure WF (s : Store) : Prop where
  sym : Sym s
  inside : ∀ x y, y ∈ s.next x → x < s.fresh ∧ y < s.fresh
  noloop : ∀ x, x ∉ s.next x

/-- The text of a token. -/
def textOf (v : Env) (s : Store) (t : Nat) : List Char := v.text (s.tok t).src

/-- A token may be replaced without leaving the times of its segment. -/
structure Timed (s : Store) (sg : Seg) (t : Nat) : Prop where
  pos : 0 ≤ (s.tok t).start
  order : (s.tok t).start ≤ (s.tok t).stop
  first : t ∈ sg.first → sg.start ≤ (s.tok t).start
  last : t ∈ sg.last → (s.tok t).stop ≤ sg.stop

/-- Each token of the list but the last is followed by the next one alone. -/
def Linked (next : Nat → List Nat) : List Nat → Prop
  | [] => True
  | [_] => True
  | x :: y :: l => next x = [y] ∧ Linked next (y :: l)

/-- A segment as the readers of files make it: its tokens are the chain `l`, its first token is the first of the chain and its last token
the last. (The last token may be followed by the first token of another segment.) -/
structure Row (s : Store) (sg : Seg) (l : List Nat) : Prop where
  first : sg.first = l.take 1
  last : sg.last = l.getLast?.toList
  chain : Linked s.next l
  below : ∀ x ∈ l, x < s.fresh

/-- A segment whose tokens are the chain `l`, and whose tokens with alternatives have times, inside those of the segment at its ends. -/
structure Fit (v : Env) (s : Store) (sg : Seg) (l : List Nat) : Prop where
  row : Row s sg l
  timed : ∀ r ∈ l, Marked (textOf v s r) → Timed s sg r

/-- What a token stands for when the tokens of `pend` are still to be looked at and stand for `M`. -/
def Val (v : Env) (s : Store) (M : Nat → List Word → Prop) (pend : List Nat) (x : Nat) (u : List Word) : Prop :=
  (x ∈ pend ∧ Marked (textOf v s x) ∧ M x u) ∨ (¬ (x ∈ pend ∧ Marked (textOf v s x)) ∧ u = [(s.tok x).src])

/-- The word sequences `sem` gives for a token, each word marked like the token: a token that may be missed gives words that may be missed. -/
def Spoken (v : Env) (s : Store) (sem : Nat → List Word → Prop) (x : Nat) (u : List Word) : Prop :=
  ∃ w, sem x w ∧ u = w.map (deco (v.optional (s.tok x).src))

/-- The word sequences on the paths from the beginning of one segment to the end of another (or the same). -/
def Paths (s : Store) (a b : Seg) (u : List Word) : Prop :=
  Lang (fun x y => y ∈ s.next x) (· ∈ a.first) (· ∈ b.last) (fun x u => u = [(s.tok x).src]) u

/-- The tokens of a speech in a row: each is followed by the next one alone, the last by none. -/
def Line (next : Nat → List Nat) (l : List Nat) : Prop := Linked next l ∧ ∀ x, l.getLast? = some x → next x = []

/-- The segments of all speeches, each with its tokens: chains without a token in common. -/
structure Speeches (v : Env) (s : Store) (ps : List (Seg × List Nat)) : Prop where
  wf : WF s
  fit : ∀ q ∈ ps, Fit v s q.1 q.2
  distinct : ((ps.map Prod.snd).flatten).Nodup

end Verif.Expand
