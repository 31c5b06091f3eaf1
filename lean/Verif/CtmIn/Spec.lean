import Verif.CtmIn.Model
/-!
# What a CTM file says

A CTM file is a sequence of words and groups of alternatives.  Only the data types of the model (`Word`, `Net`, `Tok`, `Seg`)
are used here.
-/
set_option autoImplicit false
namespace Verif.CtmIn

/-- White space: blank, tab, newline, vertical tab, form feed, carriage return. -/
def Blank (b : Nat) : Prop := b = 32 ∨ (9 ≤ b ∧ b ≤ 13)

/-- The white-space separated fields of a line. -/
inductive Fields : List Nat → List (List Nat) → Prop
  | nil (s : List Nat) : (∀ b ∈ s, Blank b) → Fields s []
  | cons (s f rest : List Nat) (fs : List (List Nat)) : (∀ b ∈ s, Blank b) → f ≠ [] → (∀ b ∈ f, ¬ Blank b) →
      (∀ b, rest.head? = some b → Blank b) → Fields rest fs → Fields (s ++ (f ++ rest)) (f :: fs)

/-- A line of a CTM file that is not a comment: no NUL, no semicolon at the start, fields that fit into 254 bytes. -/
def DataLine (line : List Nat) (fs : List (List Nat)) : Prop :=
  Fields line fs ∧ 0 ∉ line ∧ line.head? ≠ some 59 ∧ ∀ f ∈ fs, f.length < 255

/-- A word with file and channel. -/
structure Entry where
  file : List Nat
  chan : List Nat
  word : Word
  deriving Repr, DecidableEq

/-- A line with a word: file, channel, start, duration, text and perhaps a confidence and more. -/
def WordLine (ms : List Nat → Int) (line : List Nat) (e : Entry) : Prop :=
  ∃ (f c s d t : List Nat) (more : List (List Nat)), DataLine line (f :: c :: s :: d :: t :: more) ∧ t ∉ [tagBegin, tagEnd, tagAlt] ∧
    e = ⟨f, c, ms s, ms s + ms d, t, more.head?⟩

/-- A line with a tag. -/
def TagLine (tag line : List Nat) : Prop :=
  ∃ (f c s d : List Nat) (more : List (List Nat)), DataLine line (f :: c :: s :: d :: tag :: more)

/-- Lines of words. -/
inductive WordLines (ms : List Nat → Int) : List (List Nat) → List Entry → Prop
  | nil : WordLines ms [] []
  | cons (l : List Nat) (e : Entry) (ls : List (List Nat)) (es : List Entry) : WordLine ms l e → WordLines ms ls es →
      WordLines ms (l :: ls) (e :: es)

/-- A word, or a group of alternatives. -/
inductive Item where
  | word (e : Entry)
  | group (alts : List (List Entry))
  deriving Repr, DecidableEq

/-- The lines of a group after its first tag: alternatives that are not empty, with ALT between and ALT_END after them. -/
inductive AltLines (ms : List Nat → Int) : List (List Nat) → List (List Entry) → Prop
  | last (ls : List (List Nat)) (es : List Entry) (e : List Nat) : WordLines ms ls es → es ≠ [] → TagLine tagEnd e →
      AltLines ms (ls ++ [e]) [es]
  | more (ls : List (List Nat)) (es : List Entry) (a : List Nat) (rest : List (List Nat)) (alts : List (List Entry)) :
      WordLines ms ls es → es ≠ [] → TagLine tagAlt a → AltLines ms rest alts → AltLines ms (ls ++ a :: rest) (es :: alts)

/-- The lines of a file without comments. -/
inductive FileLines (ms : List Nat → Int) : List (List Nat) → List Item → Prop
  | nil : FileLines ms [] []
  | word (l : List Nat) (e : Entry) (ls : List (List Nat)) (items : List Item) : WordLine ms l e → FileLines ms ls items →
      FileLines ms (l :: ls) (.word e :: items)
  | group (b : List Nat) (gl : List (List Nat)) (alts : List (List Entry)) (ls : List (List Nat)) (items : List Item) :
      TagLine tagBegin b → AltLines ms gl alts → FileLines ms ls items → FileLines ms (b :: (gl ++ ls)) (.group alts :: items)

/-- The lines that are not comments. -/
def body (lines : List (List Nat)) : List (List Nat) := lines.filter (fun l => l.head? ≠ some 59)

/-- A way to read the file: one alternative of every group. -/
inductive Reading : List Item → List Word → Prop
  | nil : Reading [] []
  | word (e : Entry) (items : List Item) (ws : List Word) : Reading items ws → Reading (.word e :: items) (e.word :: ws)
  | group (alts : List (List Entry)) (alt : List Entry) (items : List Item) (ws : List Word) : alt ∈ alts → Reading items ws →
      Reading (.group alts :: items) (alt.map Entry.word ++ ws)

/-- A way through the tokens from `t` to a token without next tokens, with its words. -/
inductive From (n : Net) : Nat → List Word → Prop
  | stop (t : Nat) (k : Tok) : n.toks[t]? = some k → n.next t = [] → From n t [k.word]
  | step (t u : Nat) (k : Tok) (ws : List Word) : n.toks[t]? = some k → u ∈ n.next t → From n u ws → From n t (k.word :: ws)

/-- The words of a way from a token that no token comes before to a token that no token comes after. -/
def Spells (n : Net) (ws : List Word) : Prop := ∃ t, n.prec t = [] ∧ From n t ws

/-- No alternative starts before the first one. -/
def Timely : Item → Prop
  | .word _ => True
  | .group alts => ∀ e0 es0 rest, alts = (e0 :: es0) :: rest → ∀ alt ∈ alts, ∀ e, alt.head? = some e → e.word.start = -1 ∨ e0.word.start ≤ e.word.start

/-- The words of some tokens. -/
def wordsAt (toks : List Tok) (ids : List Nat) : List (Option Word) := ids.map (fun i => (toks[i]?).map Tok.word)

/-- The segment of an item: for a word the segment of this one token; for a group file, channel and start of its first word, the
latest end of its words, and the first and the last words of its alternatives. -/
def SegFor (toks : List Tok) : Item → Seg → Prop
  | .word e, s => s.file = e.file ∧ s.chan = e.chan ∧ s.start = e.word.start ∧ s.stop = e.word.stop ∧ s.firsts = s.lasts ∧
      wordsAt toks s.firsts = [some e.word]
  | .group alts, s => (∃ e0 es0 rest, alts = (e0 :: es0) :: rest ∧ s.file = e0.file ∧ s.chan = e0.chan ∧ s.start = e0.word.start) ∧
      (∀ alt ∈ alts, ∀ e ∈ alt, e.word.stop ≤ s.stop) ∧ (∃ alt ∈ alts, ∃ e ∈ alt, e.word.stop = s.stop) ∧
      wordsAt toks s.firsts = alts.map (fun a => a.head?.map Entry.word) ∧
      wordsAt toks s.lasts = alts.map (fun a => a.getLast?.map Entry.word)

/-- The segments of some items. -/
inductive SegsFor (toks : List Tok) : List Item → List Seg → Prop
  | nil : SegsFor toks [] []
  | snoc (items : List Item) (segs : List Seg) (i : Item) (s : Seg) : SegsFor toks items segs → SegFor toks i s →
      SegsFor toks (items ++ [i]) (segs ++ [s])

end Verif.CtmIn
