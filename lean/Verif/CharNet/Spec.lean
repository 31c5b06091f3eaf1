import Verif.CharNet.Model
import Verif.Split.Spec
import Verif.NetBuild.Spec
/-!
# Character alignment: vocabulary for the properties
-/
set_option autoImplicit false
namespace Verif.CharNet
open Verif.Net Verif.Text Verif.Split Verif.NetBuild Verif.Lines

/-- A text cut into characters: each has as many bytes as its first byte announces. -/
def charsGo (e : Enc) : Nat → List Nat → List (List Nat)
  | 0, _ => []
  | _ + 1, [] => []
  | k + 1, b :: t => (b :: t).take ((nbytes e b).getD 1) :: charsGo e k ((b :: t).drop ((nbytes e b).getD 1))

/-- The characters of a text. -/
def chars (e : Enc) (t : List Nat) : List (List Nat) := charsGo e t.length t

/-- The text of a word that is scored: for an optionally deletable word, what is inside the parentheses. -/
def textOf (w : CW) : List Nat := if w.opt = true then w.intern.getD [] else w.value

/-- The units (characters) of a word that are scored, see `Split.units`. -/
def unitsOf (e : Enc) (f : Split.Flags) (w : CW) : List (List Nat) :=
  (units e f (glyphs f.guarani (chars e (textOf w)))).map List.flatten

/-- The word for unit `u`, number `i` of the `k` units of `w`: it has an equal share of the time of the word, the units
following one another, and the word's confidence; it is optionally deletable, and written in parentheses, if the word
is. -/
def unitWord (w : CW) (k i : Nat) (u : List Nat) : CW where
  value := if w.opt = true then [40] ++ u ++ [41] else u
  intern := if w.opt = true then some u else none
  opt := w.opt
  frag := false
  t1 := w.t1 + i * (w.dur / k)
  t2 := w.t1 + (i + 1) * (w.dur / k)
  dur := w.dur / k
  conf := w.conf

/-- The words for the units of a word; a word that is its own only unit stays as it is. -/
def spelled (e : Enc) (f : Split.Flags) (w : CW) : List CW :=
  if w.opt = false ∧ unitsOf e f w = [w.value] then [w]
  else (unitsOf e f w).mapIdx fun i u => unitWord w (unitsOf e f w).length i u

/-- A word that can be spelled: its text consists of complete characters without white space, backslashes and opening
braces, and is not too long; there is something left when hyphens are dropped; no unit of more than one byte ends with an
asterisk; an optionally deletable word has been decoded. -/
structure Spellable (e : Enc) (f : Split.Flags) (w : CW) : Prop where
  decoded : w.opt = true → ∃ t, w.intern = some t ∧ w.value = [40] ++ t ++ [41]
  text : ∃ cs : List (List Nat), textOf w = cs.flatten ∧ ∀ c ∈ cs, IsChar e c ∧ (59 ∈ c → c = [59]) ∧
    ∀ x ∈ c, isSpace x = false ∧ x ≠ 92 ∧ x ≠ 123
  something : unitsOf e f w ≠ []
  star : ∀ u ∈ unitsOf e f w, ¬ (1 < u.length ∧ u.getLast? = some 42)
  short : 4 * (textOf w).length < maxString

/-- The number of arcs in a list that carry optionally deletable words. -/
def optionals (n : Net CW) (l : List Nat) : Nat := l.countP fun a => match n.data a with
  | some w => w.opt
  | none => false

/-- A network of words with the visited bits of its nodes equal: well-formed, every arc with a word that can be spelled. -/
structure Ready (e : Enc) (f : Split.Flags) (b : CNet CW) : Prop where
  wf : ∃ rank, b.net.WF rank
  words : ∀ v a, a ∈ b.net.out v → ∃ w, b.net.data a = some w ∧ Spellable e f w
  bits : ∀ v, b.net.Reach v → b.vis v = b.vis b.net.start

end Verif.CharNet
