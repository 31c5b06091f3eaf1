import Verif.Weigh.Model
import Verif.Net.Spec
import Verif.CtmIn.Spec
import Verif.Lines.Spec
/-!
# What alignments by times and by weights are about
-/
set_option autoImplicit false
namespace Verif.Weigh
open Verif.Text
open Verif.Net (Step Funcs Entry)

variable {W : Type}

/-- By how much the times of two words overlap; if negative, the gap between them. -/
def overlap (t1 t2 : W → Int) (x y : W) : Int := min (t2 x) (t2 y) - max (t1 x) (t1 y)

/-- What an alignment by times is to maximise: twice the overlap of the paired words, less one for every pair of different words. -/
def merit (F : Funcs W) (t1 t2 : W → Int) : List (Step W) → Int
  | [] => 0
  | .sub x y :: s => 2 * overlap t1 t2 x y - (if F.equal x y = true then 0 else 1) + merit F t1 t2 s
  | .del _ :: s => merit F t1 t2 s
  | .ins _ :: s => merit F t1 t2 s

/-- The weight of the errors of a path: of deleted and of inserted words, and of both words of a substitution. -/
def errWeight (weight : W → Int) (path : List (Entry W)) : Int :=
  (path.map fun p => match p.eval with
    | .corr => 0
    | .del => (p.a.map weight).getD 0
    | .ins => (p.b.map weight).getD 0
    | .sub => (p.a.map weight).getD 0 + (p.b.map weight).getD 0).sum

/-- The number of null words that an alignment does not pair with a word. -/
def nullsAlone (F : Funcs W) (s : List (Step W)) : Nat :=
  s.countP fun st => match st with
    | .sub _ _ => false
    | .del x => F.isNull x
    | .ins y => F.isNull y

/-- The list gives the word this weight: that of an entry of the list, or the weight for words not in the list. -/
def Gives (t : Wwl) (w : List Nat) (v : Int) : Prop :=
  (w, v) ∈ t.words ∨ ((∀ p ∈ t.words, p.1 ≠ w) ∧ v = t.dflt)

/-- A list that can be searched: its words are texts, in the order of the comparison. -/
def Sorted (e : Enc) (t : Wwl) : Prop := (∀ p ∈ t.words, Valid e p.1) ∧ SortedBy e (t.words.map Prod.fst)

/-- A line of a weight file that is neither blank nor a comment, with its fields. -/
def Data (l : List Nat) (fs : List (List Nat)) : Prop := CtmIn.Fields l fs ∧ fs ≠ [] ∧ ¬ (∃ r, l = 59 :: 59 :: r)

/-- A comment or blank line. -/
def Info (l : List Nat) : Prop := (∀ b ∈ l, CtmIn.Blank b) ∨ ∃ r, l = 59 :: 59 :: r

/-- `pat` occurs in `l`, upper and lower case of ASCII letters not distinguished. -/
def Mentions (pat l : List Nat) : Prop :=
  ∃ a m b, l = a ++ (m ++ b) ∧ m.map (cCase true) = pat.map (cCase true)

/-- A comment that sets the weight of words not listed: the text between its first two quotes. -/
def SetsDefault (l q : List Nat) : Prop :=
  Info l ∧ ¬ Mentions kwHeadings l ∧ Mentions kwDefault l ∧ ∃ a b, l = a ++ 39 :: (q ++ 39 :: b) ∧ 39 ∉ a ∧ 39 ∉ q

/-- A comment that describes the columns: how many descriptions, each between two quotes, follow that of the word. -/
def Describes (l : List Nat) (k : Nat) : Prop :=
  Info l ∧ ∃ a b c, l = a ++ (kwHeadings ++ (b ++ (kwSpelling ++ c))) ∧ 39 ∉ a ∧ 39 ∉ b ∧ c.count 39 = 2 * k

/-- What the lines of a weight file say: the listed words with their weights, the weight of all other words, and the number of columns
described. -/
inductive Says (e : Enc) (atof : List Nat → Int) : List (List Nat) → List (List Nat × Int) → Int → Nat → Prop
  | nil : Says e atof [] [] 0 0
  | word {ls : List (List Nat)} {ws : List (List Nat × Int)} {d : Int} {n : Nat} {l w x : List Nat} {fs : List (List Nat)} :
      Says e atof ls ws d n → Valid e l → Data l (w :: x :: fs) → Says e atof (ls ++ [l]) (ws ++ [(w, atof x)]) d n
  | dflt {ls : List (List Nat)} {ws : List (List Nat × Int)} {d : Int} {n : Nat} {l q : List Nat} :
      Says e atof ls ws d n → Valid e l → SetsDefault l q → Says e atof (ls ++ [l]) ws (atof q) n
  | heads {ls : List (List Nat)} {ws : List (List Nat × Int)} {d : Int} {n k : Nat} {l : List Nat} :
      Says e atof ls ws d n → Valid e l → Describes l k → n + k ≤ 10 → Says e atof (ls ++ [l]) ws d (n + k)
  | other {ls : List (List Nat)} {ws : List (List Nat × Int)} {d : Int} {n : Nat} {l : List Nat} :
      Says e atof ls ws d n → Valid e l → Info l → ¬ Mentions kwHeadings l → (∀ q, ¬ SetsDefault l q) → Says e atof (ls ++ [l]) ws d n

end Verif.Weigh
