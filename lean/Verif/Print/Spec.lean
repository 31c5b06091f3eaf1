/-!
# Printing alignments: vocabulary for the properties

Text is a list of characters.
-/
set_option autoImplicit false
namespace Verif.Print

abbrev Text := List Char

/-- An entry of an alignment: an inserted word, a deleted word, or a pair of words that agree or not. -/
inductive Entry where
  | ins (h : Text)
  | del (r : Text)
  | pair (agree : Bool) (r h : Text)
deriving DecidableEq

/-- What is shown of an entry: words that do not agree are capitalised (by `up`), a missing word is shown as asterisks, as many
as the other word has characters. -/
def shownRef (up : Text → Text) : Entry → Text
  | .ins h => List.replicate h.length '*'
  | .del r => up r
  | .pair agree r _ => if agree then r else up r

def shownHyp (up : Text → Text) : Entry → Text
  | .ins h => up h
  | .del r => List.replicate r.length '*'
  | .pair agree _ h => if agree then h else up h

/-- The letter below an entry. -/
def letter : Entry → Text
  | .ins _ => ['I']
  | .del _ => ['D']
  | .pair agree _ _ => if agree then [] else ['S']

/-- The field of a line that begins at a column. -/
def field (col width : Nat) (line : Text) : Text := (line.drop col).take width

/-- Text filled up with blanks. -/
def Filled (t : Text) (f : Text) : Prop := ∃ n, f = t ++ List.replicate n ' '

/-- The lines of a block. -/
structure Block where
  ref : Text
  hyp : Text
  eval : Text
deriving DecidableEq

/-- The words of an entry, and the word that stands opposite to none. -/
def Entry.words : Entry → List Text
  | .ins h => [h]
  | .del r => [r]
  | .pair _ r h => [r, h]

def Entry.single : Entry → Option Text
  | .ins h => some h
  | .del r => some r
  | .pair _ _ _ => none

/-- A mismatch involves a word. -/
def Entry.Wf : Entry → Prop
  | .pair false r h => r ≠ [] ∨ h ≠ []
  | _ => True

/-- A block shows entries: the three lines have the same length; after the labels there is for every entry a column of the same
position and width in all three lines that holds its reference side, its hypothesis side and its letter; the columns
follow each other with one blank between. -/
def Shows (up : Text → Text) (cont : Bool) (es : List Entry) (b : Block) : Prop :=
  (if cont then ">> REF:  ".toList else "REF:  ".toList) <+: b.ref ∧
  (if cont then ">> HYP:  ".toList else "HYP:  ".toList) <+: b.hyp ∧
  (if cont then ">> Eval: ".toList else "Eval: ".toList) <+: b.eval ∧
  ∃ cols : List (Nat × Nat), cols.length = es.length ∧
    (∀ c w, cols[0]? = some (c, w) → c = if cont then 9 else 6) ∧
    (∀ (k c w c' w' : Nat), cols[k]? = some (c, w) → cols[k + 1]? = some (c', w') → c' = c + w + 1) ∧
    (∀ c w, cols.getLast? = some (c, w) → b.ref.length = c + w + 1 ∧ b.hyp.length = c + w + 1 ∧ b.eval.length = c + w + 1) ∧
    ∀ (k : Nat) (e : Entry) (c w : Nat), es[k]? = some e → cols[k]? = some (c, w) →
      Filled (shownRef up e) (field c w b.ref) ∧ Filled (shownHyp up e) (field c w b.hyp) ∧
      Filled (letter e) (field c w b.eval) ∧
      field (c + w) 1 b.ref = [' '] ∧ field (c + w) 1 b.hyp = [' '] ∧ field (c + w) 1 b.eval = [' ']

end Verif.Print
