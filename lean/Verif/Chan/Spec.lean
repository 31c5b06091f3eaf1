/-!
# Assigning time-marked words to utterances: vocabulary for the properties
-/
set_option autoImplicit false
namespace Verif.Chan

/-- What a time-marked word's text is: an ordinary word, `<ALT_END>`, or any other text beginning with `<ALT`. -/
inductive Sp where
  | word (t : String)
  | alt
  | altEnd
deriving DecidableEq

/-- A line of a time-marked file: file and channel, begin time, duration, text. -/
structure Word (K : Type) where
  key : K
  t1 : Rat
  dur : Rat
  sp : Sp
deriving DecidableEq

/-- Midpoint of a word. -/
def mid {K : Type} (w : Word K) : Rat := w.t1 + w.dur / 2

/-- A reference utterance: file and channel, its times, whether it is excluded from scoring. -/
structure Utt (K : Type) where
  key : K
  t1 : Rat
  t2 : Rat
  excluded : Bool
deriving DecidableEq

/-- What is assigned as a unit: a word outside alternations, or an alternation as a whole, from its first to its last mark. -/
inductive Item (K : Type) where
  | single (w : Word K)
  | block (first : Word K) (inner : List (Word K)) (last : Word K)

/-- The words of an item. -/
def Item.words {K : Type} : Item K → List (Word K)
  | .single w => [w]
  | .block f i l => f :: (i ++ [l])

/-- Singles are ordinary words, a block begins with an alternation mark and ends with its only `<ALT_END>`. -/
def Item.Valid {K : Type} : Item K → Prop
  | .single w => ∃ t, w.sp = Sp.word t
  | .block f i l => f.sp = Sp.alt ∧ (∀ w ∈ i, w.sp ≠ Sp.altEnd) ∧ l.sp = Sp.altEnd

/-- `m` is the time by which an item is assigned: the midpoint of a word; for an alternation the latest midpoint among its
words, or 0 if that is larger. -/
def Item.HasMid {K : Type} : Item K → Rat → Prop
  | .single w, m => m = mid w
  | .block _ i _, m => 0 ≤ m ∧ (∀ w ∈ i, (∃ t, w.sp = Sp.word t) → mid w ≤ m) ∧
      (m = 0 ∨ ∃ w ∈ i, (∃ t, w.sp = Sp.word t) ∧ m = mid w)

/-- The words of a list of items. -/
def wordsOf {K : Type} (its : List (Item K)) : List (Word K) := its.flatMap Item.words

/-- The list with equal neighbours merged: the order in which files and channels come. -/
def runKeys {K : Type} [DecidableEq K] : List K → List K
  | [] => []
  | a :: l => match runKeys l with
    | [] => [a]
    | b :: r => if a = b then b :: r else a :: b :: r

end Verif.Chan
