import Verif.TextVal.Model
/-!
# What a user expects of the validators
-/
set_option autoImplicit false
namespace Verif.TextVal

/-- All characters of a text are of a kind, and there is one. -/
def Some (p : Char → Bool) (s : List Char) : Prop := s ≠ [] ∧ ∀ c ∈ s, p c = true

/-- White space: space, tabulator, line feed, carriage return, form feed and vertical tabulator. -/
def white (c : Char) : Bool := [' ', '\t', '\n', '\r', '\x0c', '\x0b'].contains c

/-- A line is made of these fields with white space between them, perhaps after the last, but not before the first. -/
inductive Layout : List (List Char) → List Char → Prop where
  | last (w t : List Char) : Some (fun c => !white c) w → (∀ c ∈ t, white c = true) → Layout [w] (w ++ t)
  | cons (w g : List Char) (fs : List (List Char)) (l : List Char) : Some (fun c => !white c) w → Some white g → Layout fs l →
      Layout (w :: fs) (w ++ g ++ l)

/-- Letters, digits, hyphens and underscores. -/
def Ident (s : List Char) : Prop := Some (fun c => c.isAlpha || c.isDigit || c == '_' || c == '-') s

/-- A decimal number: digits, perhaps a point and digits after it. -/
def Number (s : List Char) : Prop :=
  Some Char.isDigit s ∨ ∃ a b, s = a ++ '.' :: b ∧ Some Char.isDigit a ∧ Some Char.isDigit b

/-- The text occurs in another, as it is. -/
def Contains (x : String) (s : List Char) : Prop := ∃ a b, s = a ++ x.toList ++ b

/-- The text, given in small letters, occurs in another in any case. -/
def ContainsAnyCase (x : String) (s : List Char) : Prop := ∃ a m b, s = a ++ m ++ b ∧ m.map Char.toLower = x.toList

/-- A marker of alternatives. -/
def AltTag (t : List Char) : Prop := Contains "<ALT>" t ∨ Contains "<ALT_BEGIN>" t ∨ Contains "<ALT_END>" t

/-- What the validator takes for an English token. -/
def EnglishToken (t : List Char) : Prop :=
  Some (fun c => c.isAlpha || c == '-' || c == '\'') t ∨ (∃ c s, t = c :: '.' :: s ∧ c.isAlpha = true) ∨ '@' ∈ t ∨
    ContainsAnyCase "%bcack" t ∨ ContainsAnyCase "%bcnack" t ∨ ContainsAnyCase "%hesitation" t

/-- A record of a CTM file: file, channel, begin, duration, token, and perhaps confidence, type and speaker. -/
def Record (language : String) (fs : List (List Char)) : Prop :=
  ∃ source channel beg dur token more, fs = source :: channel :: beg :: dur :: token :: more ∧ more.length ≤ 3 ∧
    Ident source ∧ (Some Char.isDigit channel ∨ channel = ['A'] ∨ channel = ['B']) ∧
    (AltTag token → beg = ['*'] ∧ dur = ['*']) ∧
    (¬ AltTag token → Number beg ∧ Number dur ∧ (language = "english" → (∀ y ∈ more[1]?, y = "lex".toList) → EnglishToken token)) ∧
    (∀ x ∈ more[0]?, Number x) ∧
    (∀ y ∈ more[1]?, ∃ t ∈ ["lex", "frag", "fp", "un-lex", "for-lex", "non-lex", "misc", "noscore"], y = t.toList) ∧
    (∀ z ∈ more[2]?, Ident z)

/-- A label of an STM record. -/
def Label (w : List Char) : Prop := ∃ m, w = '<' :: m ++ ['>']

/-- A comment. -/
def Comment (line : List Char) : Prop := ∃ s, line = ';' :: ';' :: s

end Verif.TextVal
