/-!
# What a rule set does to a text

Independent of the model: rules `source => target / left __ right`, when a rule applies at a place of a text, and the text
the rules make of a text.
-/
set_option autoImplicit false
namespace Verif.Rfilter

/-- A rule `source => target / left __ right`. -/
structure SRule where
  source : List Nat
  target : List Nat
  left : List Nat
  right : List Nat
  deriving Repr, DecidableEq

/-- Two bytes are the same letter, one of them possibly in upper case (ASCII). -/
def SameLetter (a b : Nat) : Prop := a = b ∨ (65 ≤ a ∧ a ≤ 90 ∧ b = a + 32) ∨ (65 ≤ b ∧ b ≤ 90 ∧ a = b + 32)

/-- Two texts are alike: equal, or equal up to the case of letters if case does not matter. -/
inductive Alike (cs : Bool) : List Nat → List Nat → Prop
  | nil : Alike cs [] []
  | cons (a b : Nat) (s t : List Nat) : (if cs = true then a = b else SameLetter a b) → Alike cs s t → Alike cs (a :: s) (b :: t)

/-- A rule applies between the text `before` and the text `after`: `after` begins with its source, followed by its right
context, and `before` ends with its left context.  A rule without a source applies nowhere. -/
def Applies (cs : Bool) (r : SRule) (before after : List Nat) : Prop :=
  r.source ≠ [] ∧ ∃ front l s rt rest, before = front ++ l ∧ after = s ++ (rt ++ rest) ∧ Alike cs l r.left ∧ Alike cs s r.source ∧
    Alike cs rt r.right

/-- Rule `i` (counted from 0) is the first of the rules that applies. -/
def FirstApplies (cs : Bool) (rules : List SRule) (before after : List Nat) (i : Nat) (r : SRule) : Prop :=
  rules[i]? = some r ∧ Applies cs r before after ∧ ∀ j r', j < i → rules[j]? = some r' → ¬ Applies cs r' before after

/-- The text made of `after`, which follows `before`, and the numbers (from 1) of the rules used on the way: from left to
right, the first rule that applies replaces its source by its target; where no rule applies a byte is kept (or dropped, if
`keep` is not set).  Contexts are those of the original text. -/
inductive Rewrites (cs keep : Bool) (rules : List SRule) : List Nat → List Nat → List Nat → List Nat → Prop
  | done (before : List Nat) : Rewrites cs keep rules before [] [] []
  | replace (before s rest out used : List Nat) (i : Nat) (r : SRule) :
      FirstApplies cs rules before (s ++ rest) i r → s.length = r.source.length →
      Rewrites cs keep rules (before ++ s) rest out used →
      Rewrites cs keep rules before (s ++ rest) (r.target ++ out) ((i + 1) :: used)
  | pass (before : List Nat) (c : Nat) (rest out used : List Nat) :
      (∀ r ∈ rules, ¬ Applies cs r before (c :: rest)) → Rewrites cs keep rules (before ++ [c]) rest out used →
      Rewrites cs keep rules before (c :: rest) ((if keep = true then [c] else []) ++ out) used

/-- The places of a text that are looked at: the start, the place after a replaced source, the place after a byte where no
rule applies. -/
inductive Visits (cs : Bool) (rules : List SRule) (text : List Nat) : List Nat → List Nat → Prop
  | start : Visits cs rules text [] text
  | replace (before s rest : List Nat) (i : Nat) (r : SRule) : Visits cs rules text before (s ++ rest) →
      FirstApplies cs rules before (s ++ rest) i r → s.length = r.source.length → Visits cs rules text (before ++ s) rest
  | pass (before : List Nat) (c : Nat) (rest : List Nat) : Visits cs rules text before (c :: rest) →
      (∀ r ∈ rules, ¬ Applies cs r before (c :: rest)) → Visits cs rules text (before ++ [c]) rest

/-- A rule's source stands at a visited place closer to the start of the text than its left context is long, and no earlier
rule applies there. -/
def Hazard (cs : Bool) (rules : List SRule) (text : List Nat) : Prop :=
  ∃ (before after : List Nat) (i : Nat) (r : SRule), Visits cs rules text before after ∧ after ≠ [] ∧ rules[i]? = some r ∧ r.source ≠ [] ∧
    (∃ s rest, after = s ++ rest ∧ Alike cs s r.source) ∧ before.length < r.left.length ∧
    ∀ j r', j < i → rules[j]? = some r' → ¬ Applies cs r' before after

/-- Some part of the text is the given word. -/
def Contains (word text : List Nat) : Prop := ∃ a b, text = a ++ (word ++ b)

/-- White space: blank, tab, newline, vertical tab, form feed, carriage return. -/
def Blank (b : Nat) : Prop := b = 32 ∨ (9 ≤ b ∧ b ≤ 13)

/-- A way of writing a part of a rule: `[x]`, `"x"`, the bare text (which neither begins nor ends with white space and is not
in brackets or quotes), or nothing for the empty text. -/
inductive Part : List Nat → List Nat → Prop
  | none : Part [] []
  | brackets (x : List Nat) : Part (91 :: (x ++ [93])) x
  | quotes (x : List Nat) : Part (34 :: (x ++ [34])) x
  | bare (x : List Nat) : x ≠ [] → (∀ b, x.head? = some b → ¬ Blank b) → (∀ b, x.getLast? = some b → ¬ Blank b) →
      ¬ (x.head? = some 91 ∧ x.getLast? = some 93) → ¬ (x.head? = some 34 ∧ x.getLast? = some 34) → Part x x

/-- The lines that are to be read as a rule, without white space at the end.  White space (the lists `s1`, `s2`, ...) is free
except that it has to follow the arrow, the slash and the slot if something comes after them. -/
inductive RuleText : List Nat → SRule → Prop
  /-- `source => target`: either no slash at all, or the last slash stands in brackets, in that a `]` and later a `[` come
  after it. -/
  | plain (r : SRule) (s1 wa s2 s3 wb : List Nat) :
      (∀ b ∈ s1 ++ s2 ++ s3, Blank b) → Part wa r.source → Part wb r.target → (wb = [] ↔ s3 = []) →
      ¬ Contains [61, 62] wa → r.left = [] → r.right = [] →
      (47 ∉ wa ++ wb ∨ ∃ p x y, s1 ++ (wa ++ (s2 ++ ([61, 62] ++ (s3 ++ wb)))) = p ++ 47 :: (x ++ 93 :: y) ∧ 47 ∉ x ∧ 47 ∉ y ∧ 91 ∉ x ∧ 91 ∈ y) →
      RuleText (s1 ++ (wa ++ (s2 ++ ([61, 62] ++ (s3 ++ wb))))) r
  /-- `source => target / left __ right`: no slash in the contexts, no underscore in the left context, and if a `[` comes
  after the slash, it comes before the first `]`, and there is one. -/
  | context (r : SRule) (s1 wa s2 s3 wb s4 s5 wc s6 s7 wd : List Nat) (k : Nat) :
      (∀ b ∈ s1 ++ s2 ++ s3 ++ s4 ++ s5 ++ s6 ++ s7, Blank b) → Part wa r.source → Part wb r.target → Part wc r.left →
      Part wd r.right → (wb ≠ [] → s3 ≠ []) → (wc ≠ [] → s5 ≠ []) → (wd = [] ↔ s7 = []) → ¬ Contains [61, 62] wa →
      47 ∉ wc ++ wd → 95 ∉ wc →
      (91 ∉ wc ++ wd ∨ ∃ x y, wc ++ wd = x ++ 93 :: y ∧ 93 ∉ x ∧ 91 ∈ x) →
      RuleText (s1 ++ (wa ++ (s2 ++ ([61, 62] ++ (s3 ++ (wb ++ (s4 ++ ([47] ++ (s5 ++ (wc ++ (s6 ++ (List.replicate (k + 1) 95 ++
        (s7 ++ wd))))))))))))) r

/-! ## Rule files -/

/-- What a line of a rule file says. -/
inductive Effect where
  | nothing
  | rule (r : SRule)
  | caseMatters (b : Bool)
  | keepRest (b : Bool)
  | atMost (n : Nat)
  deriving Repr, DecidableEq

/-- Letters in upper case. -/
def upperText (l : List Nat) : List Nat := l.map (fun b => if 97 ≤ b ∧ b ≤ 122 then b - 32 else b)

/-- `FORMAT` -/
def kwFormat : List Nat := [70, 79, 82, 77, 65, 84]
/-- `MAX_NRULES` -/
def kwMax : List Nat := [77, 65, 88, 95, 78, 82, 85, 76, 69, 83]
/-- `COPY_NO_HIT` -/
def kwCopy : List Nat := [67, 79, 80, 89, 95, 78, 79, 95, 72, 73, 84]
/-- `CASE_SENSITIVE` -/
def kwCase : List Nat := [67, 65, 83, 69, 95, 83, 69, 78, 83, 73, 84, 73, 86, 69]

/-- The words for "yes": T, YES, TRUE in upper or lower case. -/
def Yes (v : List Nat) : Prop := Alike false v [84] ∨ Alike false v [89, 69, 83] ∨ Alike false v [84, 82, 85, 69]

/-- The number written with the digits. -/
def number (v : List Nat) : Nat := v.foldl (fun n d => n * 10 + (d - 48)) 0

/-- A line `* keyword "value"`: a star, a text with the keyword, the value in quotes, anything.  None of the other keywords is
anywhere in the line. -/
def Setting (kw : List Nat) (others : List (List Nat)) (line v : List Nat) : Prop :=
  ∃ a q q' c, line = 42 :: (a ++ q :: (v ++ q' :: c)) ∧ (q = 34 ∨ q = 39) ∧ (q' = 34 ∨ q' = 39) ∧ 34 ∉ a ∧ 39 ∉ a ∧ 34 ∉ v ∧ 39 ∉ v ∧
    Contains kw (upperText a) ∧ ∀ k ∈ others, ¬ Contains k (upperText line)

/-- What the lines of a rule file (without the newline) say; `flag` starts comments. -/
inductive FileLine (flag : List Nat) : List Nat → Effect → Prop
  | blank (l : List Nat) : (∀ b ∈ l, Blank b) → FileLine flag l .nothing
  | comment (rest : List Nat) : flag ≠ [] → FileLine flag (flag ++ rest) .nothing
  | rule (core trail : List Nat) (r : SRule) : RuleText core r → (∀ b ∈ trail, Blank b) → core.head? ≠ some 42 →
      (flag = [] ∨ ¬ Contains flag (core ++ trail)) → FileLine flag (core ++ trail) (.rule r)
  | remark (core trail c : List Nat) (r : SRule) : RuleText core r → (∀ b ∈ trail, Blank b) → core.head? ≠ some 42 → flag ≠ [] →
      (∀ x y, core ++ (trail ++ (flag ++ c)) = x ++ (flag ++ y) → (core ++ trail).length ≤ x.length) →
      FileLine flag (core ++ (trail ++ (flag ++ c))) (.rule r)
  | caseMatters (line v : List Nat) (b : Bool) : Setting kwCase [kwFormat, kwMax, kwCopy] line v → (b = true ↔ Yes v) →
      (flag = [] ∨ ¬ Contains flag line) → FileLine flag line (.caseMatters b)
  | keepRest (line v : List Nat) (b : Bool) : Setting kwCopy [kwFormat, kwMax, kwCase] line v → (b = true ↔ Yes v) →
      (flag = [] ∨ ¬ Contains flag line) → FileLine flag line (.keepRest b)
  | atMost (line v : List Nat) : Setting kwMax [kwFormat, kwCopy, kwCase] line v → (∀ d ∈ v, 48 ≤ d ∧ d ≤ 57) →
      (flag = [] ∨ ¬ Contains flag line) → FileLine flag line (.atMost (number v))
  | other (a c : List Nat) (q : Nat) : (q = 34 ∨ q = 39) → 34 ∉ a → 39 ∉ a →
      (∀ k ∈ [kwFormat, kwMax, kwCopy, kwCase], ¬ Contains k (upperText (42 :: (a ++ q :: c)))) →
      (flag = [] ∨ ¬ Contains flag (42 :: (a ++ q :: c))) → FileLine flag (42 :: (a ++ q :: c)) .nothing

/-- The rules among the lines. -/
def rulesOf : List Effect → List SRule
  | [] => []
  | .rule r :: es => r :: rulesOf es
  | _ :: es => rulesOf es

/-- Whether case matters after the lines: the last setting counts. -/
def caseOf (c : Bool) : List Effect → Bool
  | [] => c
  | .caseMatters b :: es => caseOf b es
  | _ :: es => caseOf c es

/-- Whether unmatched bytes are kept after the lines: the last setting counts. -/
def keepOf (c : Bool) : List Effect → Bool
  | [] => c
  | .keepRest b :: es => keepOf b es
  | _ :: es => keepOf c es

/-- The greatest number of rules set by the lines. -/
def maxOf (n : Nat) : List Effect → Nat
  | [] => n
  | .atMost m :: es => maxOf m es
  | _ :: es => maxOf n es

/-- The lines of a file with what they say. -/
inductive FileLines (flag : List Nat) : List (List Nat) → List Effect → Prop
  | nil : FileLines flag [] []
  | cons (l : List Nat) (e : Effect) (ls : List (List Nat)) (es : List Effect) : FileLine flag l e → FileLines flag ls es →
      FileLines flag (l :: ls) (e :: es)

/-- The greatest number of rules is set before the first rule. -/
def MaxFirst (es : List Effect) : Prop := es.Pairwise (fun a b => ∀ (r : SRule) (n : Nat), a = .rule r → b ≠ .atMost n)

/-- Every text of a list (a line of the input with its newline) is rewritten. -/
inductive RewritesAll (cs keep : Bool) (rules : List SRule) : List (List Nat) → List (List Nat) → List Nat → Prop
  | nil : RewritesAll cs keep rules [] [] []
  | cons (t : List Nat) (ts : List (List Nat)) (o : List Nat) (os : List (List Nat)) (used more : List Nat) :
      Rewrites cs keep rules [] t o used → RewritesAll cs keep rules ts os more →
      RewritesAll cs keep rules (t :: ts) (o :: os) (used ++ more)

/-- A file of lines, every one ended by a newline. -/
def fileOf (ls : List (List Nat)) : List Nat := (ls.map (· ++ [10])).flatten

/-- Text without NUL and newline of at most `n` bytes. -/
def ShortLine (n : Nat) (l : List Nat) : Prop := 0 ∉ l ∧ 10 ∉ l ∧ l.length ≤ n

/-- The comment flag is the first word of the first line. -/
def FlagOf (l0 flag : List Nat) : Prop :=
  ∃ rest, l0 = flag ++ rest ∧ (∀ b ∈ flag, 33 ≤ b ∧ b ≤ 126) ∧ ∀ b, rest.head? = some b → ¬ (33 ≤ b ∧ b ≤ 126)

end Verif.Rfilter
