import Verif.StmIn.Model
import Verif.CtmIn.Spec
/-!
# What STM and TRN files say
-/
set_option autoImplicit false
namespace Verif.StmIn
open Verif.CtmIn (Blank Fields)

/-- The line begins with the given fields, and `rest` follows them. -/
inductive Lead : List (List Nat) → List Nat → List Nat → Prop
  | nil (l : List Nat) : Lead [] l l
  | cons (s f r : List Nat) (fs : List (List Nat)) (rest : List Nat) : (∀ b ∈ s, Blank b) → f ≠ [] → (∀ b ∈ f, ¬ Blank b) →
      (∀ b, r.head? = some b → Blank b) → Lead fs r rest → Lead (f :: fs) (s ++ (f ++ r)) rest

/-- A text occurs at a position of another one. -/
def At (p : Nat) (w l : List Nat) : Prop := ∃ y, l.drop p = w ++ y

/-- A text contains another one. -/
def Has (w l : List Nat) : Prop := ∃ x y, l = x ++ (w ++ y)

/-- The two times can be found in the line: the text of the end time does not occur in the fields before it, or the text of the start
time does not occur before and the text of the end time not in the start time, except perhaps at its beginning. -/
def Apart (f c k s e : List Nat) : Prop :=
  (¬ Has e f ∧ ¬ Has e c ∧ ¬ Has e k ∧ ¬ Has e s) ∨ (¬ Has s f ∧ ¬ Has s c ∧ ¬ Has s k ∧ ¬ Has e s.tail)

/-- A text is another one, some small letters of which may be capital letters. -/
inductive InCase : List Nat → List Nat → Prop
  | nil : InCase [] []
  | same (b : Nat) (m g : List Nat) : InCase m g → InCase (b :: m) (b :: g)
  | capital (b : Nat) (m g : List Nat) : 97 ≤ b → b ≤ 122 → InCase m g → InCase ((b - 32) :: m) (b :: g)

/-- A transcript that marks its segment as not to be scored, in any case. -/
def Marked (t : List Nat) : Prop := ∃ m, InCase m ignoreMark ∧ Has m t

/-- The transcript of a segment; none if it is not to be scored. -/
def TextOf (t : List Nat) (x : Option (List Nat)) : Prop := (Marked t ∧ x = none) ∨ (¬ Marked t ∧ x = some t)

/-- A line `file channel speaker start end [<label>] transcript`.  (The first word of the transcript is read into a buffer, too.) -/
inductive Says (ms : List Nat → Int) : List Nat → Raw → Prop
  | plain (line f c k s e rest : List Nat) (ws : List (List Nat)) (x : Option (List Nat)) : Lead [f, c, k, s, e] line rest → Fields rest ws →
      (∀ t ∈ [f, c, k, s, e] ++ ws.take 1, t.length < 255) → 0 ∉ line → 60 ∉ line → line.head? ≠ some 59 → Apart f c k s e → TextOf rest x →
      Says ms line ⟨f, c, k, ms s, ms e, [], x⟩
  | labelled (line f c k s e gap lab text : List Nat) (ws : List (List Nat)) (x : Option (List Nat)) :
      Lead [f, c, k, s, e] line (gap ++ (60 :: (lab ++ (62 :: text)))) → (∀ b ∈ gap, Blank b) → 62 ∉ lab →
      (∀ t ∈ [f, c, k, s, e], 60 ∉ t ∧ 62 ∉ t) → Fields (60 :: (lab ++ (62 :: text))) ws →
      (∀ t ∈ [f, c, k, s, e] ++ ws.take 1, t.length < 255) → 0 ∉ line → line.head? ≠ some 59 → TextOf text x →
      Says ms line ⟨f, c, k, ms s, ms e, 60 :: (lab ++ [62]), x⟩

/-- The segment with the name under which its speaker is filed: the name of the gaps between the segments is the same in any case. -/
def Named (r r' : Raw) : Prop := (InCase r.spkr gapName ∧ r' = { r with spkr := gapName }) ∨ (¬ InCase r.spkr gapName ∧ r' = r)

/-- Whether a name is taken for that name does not hang on what the memory behind a copy of it holds: that memory ends the name, or the
name is no beginning of it, in any case. -/
def Settled (junk k : List Nat) : Prop := junk.head? = some 0 ∨ ∀ g, g <+: gapName → ¬ InCase k g

/-- What the lines of a file say, with the numbers of the lines; lines with a semicolon in front say nothing. -/
inductive FileSays (ms : List Nat → Int) (junk : Nat → List Nat) : Nat → List (List Nat) → List (Nat × Raw) → Prop
  | nil (n : Nat) : FileSays ms junk n [] []
  | comment (n : Nat) (l : List Nat) (ls : List (List Nat)) (rs : List (Nat × Raw)) : l.head? = some 59 → FileSays ms junk (n + 1) ls rs →
      FileSays ms junk n (l :: ls) rs
  | line (n : Nat) (l : List Nat) (r r' : Raw) (ls : List (List Nat)) (rs : List (Nat × Raw)) : Says ms l r → Settled (junk n) r.spkr → Named r r' →
      FileSays ms junk (n + 1) ls rs → FileSays ms junk n (l :: ls) ((n, r') :: rs)

/-- Things sorted into groups by a name: the names of the groups are in alphabetical order and are those of the things; a group has the
things with its name, in the order in which they came. -/
def Grouped {α β : Type} (name : β → List Nat) (view : α → β) (things : List β) (groups : List (List Nat × List α)) : Prop :=
  (groups.map Prod.fst).Pairwise (· < ·) ∧ (∀ k, k ∈ groups.map Prod.fst ↔ ∃ x ∈ things, name x = k) ∧
    ∀ k xs, (k, xs) ∈ groups → xs.map view = things.filter (fun x => name x = k)

/-- The segments grouped by speaker. -/
def Filed (rs : List (Nat × Raw)) (speeches : List (List Nat × List Seg)) : Prop :=
  Grouped (fun x => x.2.spkr) (fun s => (s.line, s.raw)) rs speeches

/-- The number of segments that are scored. -/
def scored (segs : List Seg) : Nat := segs.countP (fun s => s.raw.text.isSome)

/-! ## Categories and labels -/

/-- What separates the words of a comment. -/
def Sep (b : Nat) : Prop := b = 32 ∨ b = 9 ∨ b = 13 ∨ b = 10

/-- The words of a comment. -/
inductive Parts : List Nat → List (List Nat) → Prop
  | nil (s : List Nat) : (∀ b ∈ s, Sep b) → Parts s []
  | cons (s f rest : List Nat) (fs : List (List Nat)) : (∀ b ∈ s, Sep b) → f ≠ [] → (∀ b ∈ f, ¬ Sep b) → (∀ b, rest.head? = some b → Sep b) →
      Parts rest fs → Parts (s ++ (f ++ rest)) (f :: fs)

/-- A text in quotes. -/
def quoted (x : List Nat) : List Nat := 34 :: (x ++ [34])

/-- `;; CATEGORY "id" "title" "description"`, or the same with `LABEL`. -/
def EntryLine (line : List Nat) (c : Cat) : Prop :=
  ∃ h, Parts line [h, c.type, quoted c.id, quoted c.title, quoted c.desc] ∧ line.head? = some 59 ∧ 0 ∉ line ∧
    (c.type = kwCategory ∨ c.type = kwLabel) ∧ c.id ≠ [] ∧ ∀ x ∈ [c.id, c.title, c.desc], 34 ∉ x

/-- The entries of the lines of a file; comments without quotes and lines of segments have none. -/
inductive CatLines : List (List Nat) → List Cat → Prop
  | nil : CatLines [] []
  | entry (l : List Nat) (c : Cat) (ls : List (List Nat)) (cs : List Cat) : EntryLine l c → CatLines ls cs → CatLines (l :: ls) (c :: cs)
  | remark (l : List Nat) (ls : List (List Nat)) (cs : List Cat) : 34 ∉ l → CatLines ls cs → CatLines (l :: ls) cs
  | segment (l : List Nat) (ls : List (List Nat)) (cs : List Cat) : l.head? ≠ some 59 → CatLines ls cs → CatLines (l :: ls) cs

/-! ## TRN -/

/-- The speaker of an utterance: its identifier up to the last `_` or `-`. -/
def SpkrOf (uid spkr : List Nat) : Prop :=
  (∃ b rest, (b = 95 ∨ b = 45) ∧ uid = spkr ++ (b :: rest) ∧ 95 ∉ rest ∧ 45 ∉ rest) ∨ (95 ∉ uid ∧ 45 ∉ uid ∧ spkr = uid)

/-- `text (identifier)`; something without parentheses may follow, and the text may have parentheses. -/
def UttLine (line uid spkr text : List Nat) : Prop :=
  ∃ tail, line = text ++ (40 :: (uid ++ (41 :: tail))) ∧ 40 ∉ uid ∧ 40 ∉ tail ∧ 41 ∉ tail ∧ SpkrOf uid spkr ∧ line.head? ≠ some 59

/-- The utterances of a file, with the numbers of the lines and their own numbers. -/
inductive TrnSays : Nat → Nat → List (List Nat) → List Utt → Prop
  | nil (n e : Nat) : TrnSays n e [] []
  | comment (n e : Nat) (l : List Nat) (ls : List (List Nat)) (us : List Utt) : l.head? = some 59 → TrnSays (n + 1) e ls us → TrnSays n e (l :: ls) us
  | line (n e : Nat) (l uid spkr text : List Nat) (ls : List (List Nat)) (us : List Utt) : UttLine l uid spkr text → TrnSays (n + 1) (e + 1) ls us →
      TrnSays n e (l :: ls) (⟨40 :: (uid ++ [41]), spkr, text, n, e⟩ :: us)

end Verif.StmIn
