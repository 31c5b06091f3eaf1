import Verif.Print.Spec
/-!
# Model of the printing of alignments (sclite `path.c`) and of the order of printing (`scores.c`)

Simplifications: of the eleven lines of a block, only the reference, hypothesis and evaluation lines are modelled (the others have
the same cells with numbers, `path.c:1-2,3,5-9`), and not the header.  Case conversion is a parameter.
-/
set_option autoImplicit false
namespace Verif.Print

/-- `lena` and `lenb` (path.c:125-128, 184-195): a missing word counts as one character. -/
def lenA : Entry → Nat
  | .ins _ => 1
  | .del r => r.length
  | .pair _ r _ => r.length

def lenB : Entry → Nat
  | .ins h => h.length
  | .del _ => 1
  | .pair _ _ h => h.length

/-- `MAX3(aux_max, lena, lenb)` (path.c:129, 196; sctk.h:65). -/
def width (aux : Nat) (e : Entry) : Nat := max aux (max (lenA e) (lenB e))

/-- The loop that finds the words of a line (path.c:124-131): how many entries it looks at. -/
def scan (aux mx : Nat) : Nat → List Entry → Nat
  | _, [] => 0
  | plen, e :: es => if plen < mx then scan aux mx (plen + 1 + width aux e) es + 1 else 0

/-- `fprintf` with `%-<n>s ` (path.c:201, 210): filled up on the right, and a blank. -/
def cell (w : Nat) (t : Text) : Text := t ++ List.replicate (w - t.length) ' ' ++ [' ']

/-- The asterisks (path.c:60-61, 202-203, 245-246): the end of a string of 40 asterisks; a longer run would start before it. -/
def asterisks (n : Nat) : Option Text := if n ≤ 40 then some (List.replicate n '*') else none

/-- The reference cell (path.c:200-212); `up` is the identity if the alignment is case sensitive. -/
def refCell (up : Text → Text) (e : Entry) : Option Text :=
  match e with
  | .ins h => asterisks h.length
  | .del r => some (up r)
  | .pair true r _ => some r
  | .pair false r _ => some (up r)

/-- The hypothesis cell (path.c:243-255). -/
def hypCell (up : Text → Text) (e : Entry) : Option Text :=
  match e with
  | .ins h => some (up h)
  | .del r => asterisks r.length
  | .pair true _ h => some h
  | .pair false _ h => some (up h)

/-- The evaluation cell (path.c:294-300). -/
def evalCell (e : Entry) : Text :=
  match e with
  | .ins _ => ['I']
  | .del _ => ['D']
  | .pair true _ _ => []
  | .pair false _ _ => ['S']

/-- A line: the label, with `>> ` on continuation lines, and the cells (path.c:139-303). -/
def label (cont : Bool) (l : String) : Text := (if cont then ">> ".toList else []) ++ l.toList

/-- The cells of a line; `none` if one of them reads before the string of asterisks. -/
def cells (f : Entry → Option Text) (aux : Nat) : List Entry → Option Text
  | [] => some []
  | e :: es =>
    match f e, cells f aux es with
    | some t, some ts => some (cell (width aux e) t ++ ts)
    | _, _ => none

/-- A block (path.c:138-303). -/
def block (up : Text → Text) (aux : Nat) (cont : Bool) (es : List Entry) : Option Block :=
  match cells (refCell up) aux es, cells (hypCell up) aux es, cells (fun e => some (evalCell e)) aux es with
  | some r, some h, some v => some ⟨label cont "REF:  " ++ r, label cont "HYP:  " ++ h, label cont "Eval: " ++ v⟩
  | _, _, _ => none

/-- Outcomes: the printing does not end (within the bound), reads outside a string, or ends. -/
inductive Out where
  | endless
  | undefined
  | ok (blocks : List Block)
deriving DecidableEq

/-- The loop over the blocks (path.c:121-305); the first argument bounds the number of blocks.  If not even the label fits at the
first entry, `used` becomes -1 and then counts down while empty blocks are printed. -/
def loop (up : Text → Text) (aux mx : Nat) (es : List Entry) : Nat → Nat → Out
  | 0, _ => .endless
  | f + 1, used =>
    if used < es.length then
      let i := used + scan aux mx (if used > 0 then 9 else 6) (es.drop used)
      if i = 0 then .endless
      else
        let stop := i - (if i < es.length then 1 else 0)
        match block up aux (decide (used > 0)) ((es.drop used).take (stop - used)) with
        | none => .undefined
        | some b =>
          match loop up aux mx es f stop with
          | .ok bs => .ok (b :: bs)
          | o => o
    else .ok []

/-- `PATH_n_print` (path.c:57-308). -/
def printFrom (up : Text → Text) (aux mx : Nat) (es : List Entry) (f start to : Nat) : Out :=
  loop up aux mx (es.take to) f (if start < min to es.length then start else 0)

/-- `PATH_print` (path.c:53-55). -/
def print (up : Text → Text) (aux mx : Nat) (es : List Entry) (f : Nat) : Out := printFrom up aux mx es f 0 es.length

/-- The search for the next speaker (scores.c:90-97): the first one whose next sentence has the lowest sequence number below the
bound. -/
def pick {S : Type} (seq : S → Int) : Int → Nat → Option Nat → List (List S) → Option Nat
  | _, _, best, [] => best
  | m, i, best, g :: gs =>
    match g with
    | [] => pick seq m (i + 1) best gs
    | x :: _ => if seq x < m then pick seq (seq x) (i + 1) (some i) gs else pick seq m (i + 1) best gs

/-- The loop over the sentences (scores.c:88-107): the speakers and sentences printed; the first argument bounds their number. -/
def dump {S : Type} (seq : S → Int) : Nat → List (List S) → List (Nat × S)
  | 0, _ => []
  | f + 1, gs =>
    match pick seq 999999 0 none gs with
    | none => []
    | some i =>
      match gs[i]? with
      | some (x :: xs) => (i, x) :: dump seq f (gs.set i xs)
      | _ => []

/-- `dump_SCORES_alignments` with the sentences in order of alignment (scores.c:81-108). -/
def dumpAll {S : Type} (seq : S → Int) (gs : List (List S)) : List (Nat × S) := dump seq (gs.flatten.length + 1) gs

end Verif.Print
