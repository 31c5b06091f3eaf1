/-!
# Transcripts with alternatives (asclite): vocabulary for the properties
-/
set_option autoImplicit false
namespace Verif.LineStyle

/-- A word of a transcript. -/
abbrev Word := List Char

/-- The four signs of the notation. -/
abbrev lb : Word := ['{']
/-- End of a group. -/
abbrev rb : Word := ['}']
/-- Between alternatives. -/
abbrev slash : Word := ['/']
/-- The empty word. -/
abbrev at' : Word := ['@']

mutual
/-- An item of a transcript: a word, the empty word `@`, or a group of alternatives. -/
inductive Item where
  | word (w : Word)
  | eps
  | alt (a : Alts)
/-- A sequence of items. -/
inductive Seq where
  | nil
  | cons (i : Item) (s : Seq)
/-- One or more alternatives. -/
inductive Alts where
  | one (s : Seq)
  | or (s : Seq) (a : Alts)
end

mutual
/-- How an item is written. -/
def Item.text : Item → List Word
  | .word w => [w]
  | .eps => [at']
  | .alt a => lb :: (a.text ++ [rb])
/-- How a sequence is written. -/
def Seq.text : Seq → List Word
  | .nil => []
  | .cons i s => i.text ++ s.text
/-- How alternatives are written. -/
def Alts.text : Alts → List Word
  | .one s => s.text
  | .or s a => s.text ++ slash :: a.text
end

mutual
/-- The word sequences an item stands for. -/
def Item.den : Item → List Word → Prop
  | .word w, u => u = [w]
  | .eps, u => u = []
  | .alt a, u => a.den u
/-- The word sequences a sequence of items stands for. -/
def Seq.den : Seq → List Word → Prop
  | .nil, u => u = []
  | .cons i s, u => ∃ v w, u = v ++ w ∧ i.den v ∧ s.den w
/-- The word sequences alternatives stand for. -/
def Alts.den : Alts → List Word → Prop
  | .one s, u => s.den u
  | .or s a, u => s.den u ∨ a.den u
end

/-- Number of items. -/
def Seq.length : Seq → Nat
  | .nil => 0
  | .cons _ s => s.length + 1

/-- A word that is not one of the signs. -/
def Ordinary (w : Word) : Prop := w ≠ [] ∧ w ≠ lb ∧ w ≠ rb ∧ w ≠ slash ∧ w ≠ at'

mutual
/-- Words are ordinary and no group is written `{ / }`. -/
def Item.Plain : Item → Prop
  | .word w => Ordinary w
  | .eps => True
  | .alt a => a.text ≠ [slash] ∧ a.Plain
/-- The same for sequences. -/
def Seq.Plain : Seq → Prop
  | .nil => True
  | .cons i s => i.Plain ∧ s.Plain
/-- The same for alternatives. -/
def Alts.Plain : Alts → Prop
  | .one s => s.Plain
  | .or s a => s.Plain ∧ a.Plain
end

mutual
/-- Inside a group, an alternative of two or more items does not stand for the empty sequence. -/
def Item.Good : Item → Prop
  | .word _ => True
  | .eps => True
  | .alt a => a.AllGood
/-- The items of the sequence are good. -/
def Seq.Good : Seq → Prop
  | .nil => True
  | .cons i s => i.Good ∧ s.Good
/-- Alternatives inside a group. -/
def Alts.AllGood : Alts → Prop
  | .one s => (2 ≤ s.length → ¬ s.den []) ∧ s.Good
  | .or s a => ((2 ≤ s.length → ¬ s.den []) ∧ s.Good) ∧ a.AllGood
end

/-- Alternatives at the top of a transcript: only the groups in them are restricted. -/
def Alts.Good : Alts → Prop
  | .one s => s.Good
  | .or s a => s.Good ∧ a.Good

mutual
/-- What the program makes of an item: as `den`, except that an alternative of two or more items never stands for the empty sequence. -/
def Item.got : Item → List Word → Prop
  | .word w, u => u = [w]
  | .eps, u => u = []
  | .alt a, u => a.got u
/-- The concatenation of what is made of the items. -/
def Seq.prod : Seq → List Word → Prop
  | .nil, u => u = []
  | .cons i s, u => ∃ v w, u = v ++ w ∧ i.got v ∧ s.prod w
/-- What the program makes of alternatives. -/
def Alts.got : Alts → List Word → Prop
  | .one s, u => s.prod u ∧ (2 ≤ s.length → u ≠ [])
  | .or s a, u => (s.prod u ∧ (2 ≤ s.length → u ≠ [])) ∨ a.got u
end

/-- A token object: its identity, its word, and its place among the items of its sequence. -/
structure Node where
  id : Nat
  word : Word
  idx : Nat
  cnt : Nat
  deriving DecidableEq, Repr

/-- Consecutive tokens of the path are linked. -/
def Chain (E : List (Node × Node)) : List Node → Prop
  | [] => True
  | [_] => True
  | x :: y :: l => (x, y) ∈ E ∧ Chain E (y :: l)

/-- The tokens made for a text: those that can come first, those that can come last, whether the text can be skipped, and the links. -/
structure Piece where
  starts : List Node
  ends : List Node
  trav : Bool
  edges : List (Node × Node)
  deriving DecidableEq, Repr

/-- A complete path (from a first token to a last token along links) spells the word sequence. -/
def Spells (p : Piece) (u : List Word) : Prop :=
  ∃ (path : List Node) (x y : Node), path.head? = some x ∧ x ∈ p.starts ∧ path.getLast? = some y ∧ y ∈ p.ends ∧ Chain p.edges path ∧
    path.map Node.word = u

/-- How many groups are open after the words. -/
def depth (ws : List Word) : Int := (ws.count lb : Int) - (ws.count rb : Int)

/-- The words close a group that is not open, and later open one to make up for it. -/
def Reversed (ws : List Word) : Prop := ∃ i j : Nat, i < j ∧ j ≤ ws.length ∧ depth (ws.take i) < 0 ∧ depth (ws.take j) = 0

/-- White space between words. -/
def isSpace (c : Char) : Bool := c = ' ' || c = '\t' || c = '\r' || c = '\n'
/-- The signs of the notation, as characters. -/
def isSign (c : Char) : Bool := c = '{' || c = '}' || c = '/' || c = '@'

/-- The words of a line: each sign is a word by itself, other words are separated by white space or signs. -/
def lex : List Char → List Char → List Word
  | cur, [] => if cur = [] then [] else [cur]
  | cur, c :: cs =>
    if isSpace c then (if cur = [] then [] else [cur]) ++ lex [] cs
    else if isSign c then (if cur = [] then [] else [cur]) ++ [c] :: lex [] cs
    else lex (cur ++ [c]) cs

end Verif.LineStyle
