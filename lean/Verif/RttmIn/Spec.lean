import Verif.RttmIn.Model
import Verif.StmIn.Spec
/-!
# What RTTM files say

Only the data types of the model (`Lex`, `LSeg`, `Turn`, `SSeg`, `Word`) are used here.
-/
set_option autoImplicit false
namespace Verif.RttmIn
open Verif.CtmIn (Fields Word)
open Verif.StmIn (InCase Grouped)

/-- The bytes of a text. -/
def txt (s : String) : List Nat := s.toList.map Char.toNat

/-- Kinds of words that need not be recognised: filled pauses, fragments, unintelligible and foreign words. -/
def optionalKinds : List String := ["fp", "frag", "un-lex", "for-lex"]

/-- Kinds of words that are scored. -/
def wordKinds : List String := ["lex", "alpha", "acronym", "interjection", "propernoun"] ++ optionalKinds

/-- A text is one of the names, in any case. -/
def OneOf (names : List String) (t : List Nat) : Prop := ∃ g ∈ names, InCase t (txt g)

/-- The line has the fields, the first `n` of which fit into 254 bytes. -/
def Line (n : Nat) (line : List Nat) (fs : List (List Nat)) : Prop := Fields line fs ∧ 0 ∉ line ∧ ∀ f ∈ fs.take n, f.length < 255

/-- The confidence of a line: `<NA>` means that there is none. -/
def Conf (cf : List Nat) (c : Option (List Nat)) : Prop := (cf = txt "<NA>" ∧ c = none) ∨ (cf ≠ txt "<NA>" ∧ c = some cf)

/-! ## One word per segment -/

/-- `LEXEME file channel start duration word kind speaker confidence [...]`; other lines, and words of other kinds, say nothing. -/
inductive LexSays (ms : List Nat → Int) : List Nat → Option (Lex × Option (List Nat)) → Prop
  | other (line : List Nat) : ¬ txt "LEXEME" <+: line → LexSays ms line none
  | kind (line y f c s d w t : List Nat) (more : List (List Nat)) : txt "LEXEME" <+: line → Line 10 line (y :: f :: c :: s :: d :: w :: t :: more) →
      ¬ OneOf wordKinds t → LexSays ms line none
  | word (line y f c s d w t k cf : List Nat) (more : List (List Nat)) (o : Bool) (conf : Option (List Nat)) : txt "LEXEME" <+: line →
      Line 10 line (y :: f :: c :: s :: d :: w :: t :: k :: cf :: more) → OneOf wordKinds t → (o = true ↔ OneOf optionalKinds t) → Conf cf conf →
      34 ∉ w → LexSays ms line (some (⟨f, c, k, ms s, ms s + ms d, w, o⟩, conf))

/-- What the lines of a file say, with the numbers of the lines. -/
inductive LexFile (ms : List Nat → Int) : Nat → List (List Nat) → List (Nat × Lex × Option (List Nat)) → Prop
  | nil (n : Nat) : LexFile ms n [] []
  | skip (n : Nat) (l : List Nat) (ls : List (List Nat)) (rs : List (Nat × Lex × Option (List Nat))) : LexSays ms l none →
      LexFile ms (n + 1) ls rs → LexFile ms n (l :: ls) rs
  | word (n : Nat) (l : List Nat) (x : Lex) (c : Option (List Nat)) (ls : List (List Nat)) (rs : List (Nat × Lex × Option (List Nat))) :
      LexSays ms l (some (x, c)) → LexFile ms (n + 1) ls rs → LexFile ms n (l :: ls) ((n, x, c) :: rs)

/-! ## Segments of several words -/

/-- What a line says: that a speaker speaks for some time, or what word they say then, and where. -/
inductive Event where
  | turn (t : Turn)
  | word (file chan spkr : List Nat) (w : Word)
  deriving DecidableEq

/-- The speaker. -/
def Event.spkr : Event → List Nat
  | .turn t => t.spkr
  | .word _ _ k _ => k

/-- The word. -/
def Event.word? : Event → Option Word
  | .turn _ => none
  | .word _ _ _ w => some w

/-- `SPEAKER file channel start duration - - speaker [...]` and `LEXEME file channel start duration word kind speaker confidence [...]`;
words that need not be recognised get parentheses.  Other lines, and words of other kinds, say nothing. -/
inductive SpkSays (ms : List Nat → Int) : List Nat → Option Event → Prop
  | other (line : List Nat) : ¬ txt "LEXEME" <+: line → ¬ txt "SPEAKER" <+: line → SpkSays ms line none
  | turn (line y f c s d a b k : List Nat) (more : List (List Nat)) : txt "SPEAKER" <+: line →
      Line 9 line (y :: f :: c :: s :: d :: a :: b :: k :: more) → SpkSays ms line (some (.turn ⟨f, c, k, ms s, ms s + ms d⟩))
  | kind (line y f c s d w t : List Nat) (more : List (List Nat)) : txt "LEXEME" <+: line → Line 9 line (y :: f :: c :: s :: d :: w :: t :: more) →
      ¬ OneOf wordKinds t → SpkSays ms line none
  | word (line y f c s d w t k cf : List Nat) (more : List (List Nat)) (conf : Option (List Nat)) (text : List Nat) : txt "LEXEME" <+: line →
      Line 9 line (y :: f :: c :: s :: d :: w :: t :: k :: cf :: more) → OneOf wordKinds t → Conf cf conf →
      ((OneOf optionalKinds t ∧ text = txt "(" ++ w ++ txt ")") ∨ (¬ OneOf optionalKinds t ∧ text = w)) →
      SpkSays ms line (some (.word f c k ⟨ms s, ms s + ms d, text, conf⟩))

/-- What the lines of a file say, with the numbers of the lines. -/
inductive SpkFile (ms : List Nat → Int) : Nat → List (List Nat) → List (Nat × Event) → Prop
  | nil (n : Nat) : SpkFile ms n [] []
  | skip (n : Nat) (l : List Nat) (ls : List (List Nat)) (evs : List (Nat × Event)) : SpkSays ms l none → SpkFile ms (n + 1) ls evs →
      SpkFile ms n (l :: ls) evs
  | event (n : Nat) (l : List Nat) (e : Event) (ls : List (List Nat)) (evs : List (Nat × Event)) : SpkSays ms l (some e) →
      SpkFile ms (n + 1) ls evs → SpkFile ms n (l :: ls) ((n, e) :: evs)

/-- A name and the number of a line are short enough to be told in a message. -/
def Tellable (x : Nat × Event) : Prop := x.2.spkr.length + (Nat.toDigits 10 x.1).length < 217

/-- Turns, each followed by its words. -/
inductive Runs : List (Nat × Event) → List (Nat × Turn × List Word) → Prop
  | nil : Runs [] []
  | cons (n : Nat) (t : Turn) (ws rest : List (Nat × Event)) (vs : List Word) (out : List (Nat × Turn × List Word)) :
      ws.map (fun x => x.2.word?) = vs.map some → Runs rest out → Runs ((n, .turn t) :: (ws ++ rest)) ((n, t, vs) :: out)

/-- What one speaker says: each turn has the words up to the next one; words before the first turn are dropped. -/
def Says (k : List Nat) (evs : List (Nat × Event)) (segs : List (Nat × Turn × List Word)) : Prop :=
  ∃ pre rest, evs.filter (fun x => x.2.spkr = k) = pre ++ rest ∧ (∀ x ∈ pre, x.2.word? ≠ none) ∧ Runs rest segs

/-- The first word does not begin before the turn and the last one does not end after it (-1 is no time). -/
def Fits (x : Nat × Turn × List Word) : Prop :=
  (∀ w, x.2.2.head? = some w → w.start = -1 ∨ x.2.1.start ≤ w.start) ∧ (∀ w, x.2.2.getLast? = some w → w.stop = -1 ∨ w.stop ≤ x.2.1.stop)

end Verif.RttmIn
