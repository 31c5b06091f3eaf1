import Verif.Sgml.Model
import Verif.Detail.Model
/-!
# Labels of utterances and the report by labels

The definitions of labels in comment lines (src/sclite/scores.c) and the labelled utterance report (src/sclite/lur.c).
-/
set_option autoImplicit false
namespace Verif.Lur
open Verif.Sgml (Entry)

/-! ## Definitions of labels and categories -/

/-- `PATHLABEL_ITEM` and `CATEGORY_ITEM`, src/sclite/sctk.h:115-125. -/
structure Item where
  id : List Nat
  title : List Nat
  desc : List Nat
  deriving DecidableEq, Repr

/-- The items in use of `ARB_SSET`, src/sclite/sctk.h:127-134, with the sizes of the arrays. -/
structure Aset where
  plab : List Item
  maxPlab : Nat
  cat : List Item
  maxCat : Nat
  deriving DecidableEq, Repr

/-- The empty set, src/sclite/scores.c:823-829. -/
def noItems : Aset := ⟨[], 10, [], 10⟩

/-- A text in quotes, e.g. src/sclite/scores.c:903-906: what is between the next two quotes, and the rest; `none` = not found. -/
def quoted (l : List Nat) : Option (List Nat × List Nat) :=
  match l.dropWhile (· ≠ 34) with
  | [] => none
  | _ :: r =>
    match r.dropWhile (· ≠ 34) with
    | [] => none
    | _ :: rest => some (r.takeWhile (· ≠ 34), rest)

/-- The three texts of a definition, src/sclite/scores.c:902-918. -/
def parseItem (l : List Nat) : Option Item :=
  match quoted l with
  | none => none
  | some (a, r) =>
    match quoted r with
    | none => none
    | some (b, r) =>
      match quoted r with
      | none => none
      | some (c, _) => some ⟨a, b, c⟩

/-- Storing an item that is not there yet, src/sclite/scores.c:897-900 and 920-938; `none` = a write outside of the array. -/
def store (items : List Item) (max : Nat) (it : Option Item) : Option (List Item × Nat) :=
  let max := if items.length = max then max * 2 else max
  match it with
  | none => some (items, max)
  | some it => if items.length < max then some (if it ∈ items then items else items ++ [it], max) else none

/-- ";; LABEL " -/
def labelKey : List Nat := [59, 59, 32, 76, 65, 66, 69, 76, 32]
/-- ";; CATEGORY " -/
def categoryKey : List Nat := [59, 59, 32, 67, 65, 84, 69, 71, 79, 82, 89, 32]

/-- `parse_input_comment_line`, src/sclite/scores.c:887-993: whether the line is a comment, and the items; `none` = undefined.  The texts
are compared byte by byte. -/
def commentLine (s : Aset) (buf : List Nat) : Option (Bool × Aset) :=
  if ¬ (buf.head? = some 59 ∧ buf[1]? = some 59) then some (false, s)
  else if labelKey.isPrefixOf buf then (store s.plab s.maxPlab (parseItem buf)).map fun r => (true, { s with plab := r.1, maxPlab := r.2 })
  else if categoryKey.isPrefixOf buf then (store s.cat s.maxCat (parseItem buf)).map fun r => (true, { s with cat := r.1, maxCat := r.2 })
  else some (true, s)

/-- `load_comment_labels_from_file`, src/sclite/scores.c:995-1010, on the lines of a file. -/
def loadLabels : Aset → List (List Nat) → Option Aset
  | s, [] => some s
  | s, l :: ls =>
    match commentLine s l with
    | none => none
    | some r => loadLabels r.2 ls

/-! ## Scores by label -/

/-- A result, the program's exit with a message, or undefined behaviour. -/
inductive Res (α : Type) where
  | ok (x : α)
  | fail
  | undef
  deriving DecidableEq, Repr

/-- Going on after a result. -/
def Res.bind {α β : Type} (r : Res α) (f : α → Res β) : Res β :=
  match r with
  | .ok x => f x
  | .fail => .fail
  | .undef => .undef

/-- `LABEL`, src/sclite/lur.c:13-16, for one system: the category of each label, and for each label and speaker the numbers of reference
words and of errors. -/
structure Lab where
  loc : List (Option Nat)
  lsc : List (List (Nat × Nat))
  deriving DecidableEq, Repr

/-- `alloc_LABEL_SCORES`, src/sclite/lur.c:28-42. -/
def noScores (nlab ngrp : Nat) : Lab := ⟨List.replicate nlab none, List.replicate nlab (List.replicate ngrp (0, 0))⟩

/-- The counts of an alignment, src/sclite/lur.c:85-94: reference words and errors. -/
def tally {W : Type} : List (Entry W) → Nat × Nat
  | [] => (0, 0)
  | .pair .corr _ _ :: es => ((tally es).1 + 1, (tally es).2)
  | .pair .sub _ _ :: es => ((tally es).1 + 1, (tally es).2 + 1)
  | .ins _ :: es => ((tally es).1, (tally es).2 + 1)
  | .del _ :: es => ((tally es).1 + 1, (tally es).2 + 1)
  | .pair _ _ _ :: es => tally es

/-- Adding the numbers of an utterance, src/sclite/lur.c:93-94; `none` = outside of the arrays. -/
def addTo (lsc : List (List (Nat × Nat))) (id spk : Nat) (t : Nat × Nat) : Option (List (List (Nat × Nat))) :=
  match lsc[id]? with
  | none => none
  | some row =>
    match row[spk]? with
    | none => none
    | some c => some (lsc.set id (row.set spk (c.1 + t.1, c.2 + t.2)))

/-- One label of an utterance, src/sclite/lur.c:73-94; `find` is `find_PATHLABEL_id` (src/sclite/scores.c:874-881), the first label whose
text is the same but for case. -/
def oneLabel (find : List Nat → Option Nat) (spk : Nat) (t : Nat × Nat) (lab : Lab) (f : List Nat) (sets : Nat) : Res Lab :=
  if 30 ≤ f.length then .undef
  else
    match find f with
    | none => .fail
    | some id =>
      match lab.loc[id]? with
      | none => .undef
      | some l =>
        if l ≠ none ∧ l ≠ some sets then .fail
        else
          match addTo lab.lsc id spk t with
          | none => .undef
          | some lsc => .ok ⟨lab.loc.set id (some sets), lsc⟩

/-- The loop over the labels of an utterance, src/sclite/lur.c:66-100.  After a label one more byte is skipped, also if that is the end
of the text. -/
def labelLoop (find : List Nat → Option Nat) (spk : Nat) (t : Nat × Nat) : Nat → Lab → Nat → List Nat → Res Lab
  | 0, _, _, _ => .undef
  | fuel + 1, lab, sets, s =>
    match s with
    | [] => .ok lab
    | b :: r =>
      if b = 62 then .ok lab
      else if b = 60 ∨ b = 44 then labelLoop find spk t fuel lab (sets + 1) r
      else
        let f := (b :: r).takeWhile fun c => c ≠ 60 ∧ c ≠ 44 ∧ c ≠ 62
        (oneLabel find spk t lab f sets).bind fun lab' =>
          if f.length = (b :: r).length then .undef else labelLoop find spk t fuel lab' (sets + 1) ((b :: r).drop (f.length + 1))

/-- The labels of an utterance, src/sclite/lur.c:59-101. -/
def uttLabels {W : Type} (find : List Nat → Option Nat) (spk : Nat) (lab : Lab) (u : Option (List Nat) × List (Entry W)) : Res Lab :=
  match u.1 with
  | none => .ok lab
  | some [] => .fail
  | some (b :: s) => if b ≠ 60 then .fail else labelLoop find spk (tally u.2) (s.length + 1) lab 0 s

/-- The utterances of a speaker, src/sclite/lur.c:57-102. -/
def spkrLabels {W : Type} (find : List Nat → Option Nat) (spk : Nat) : Lab → List (Option (List Nat) × List (Entry W)) → Res Lab
  | lab, [] => .ok lab
  | lab, u :: us => (uttLabels find spk lab u).bind fun lab' => spkrLabels find spk lab' us

/-- `compute_label_scores`, src/sclite/lur.c:51-128, on the speakers' utterances with their labels. -/
def computeFrom {W : Type} (find : List Nat → Option Nat) : Nat → Lab → List (List (Option (List Nat) × List (Entry W))) → Res Lab
  | _, lab, [] => .ok lab
  | spk, lab, g :: gs => (spkrLabels find spk lab g).bind fun lab' => computeFrom find (spk + 1) lab' gs

/-! ## The report -/

/-- A cell of the report, src/sclite/lur.c:204-219: words and percentage (in tenths), or the number of errors without reference words, or
nothing. -/
inductive Cell where
  | rate (words pct : Nat)
  | errors (n : Nat)
  | blank
  deriving DecidableEq, Repr

/-- src/sclite/lur.c:204-219. -/
def cell (t : Nat × Nat) : Cell := if t.1 ≠ 0 then .rate t.1 (Detail.tenths t.2 t.1) else if t.2 ≠ 0 then .errors t.2 else .blank

/-- The report: for each label its column of cells, the sums, and the speakers' numbers that enter mean, deviation and median. -/
structure Column where
  cells : List Cell
  words : Nat
  pct : Nat
  averaged : List (Nat × Nat)
  deriving DecidableEq, Repr

/-- The column of a label, src/sclite/lur.c:199-246. -/
def column (row : List (Nat × Nat)) : Column :=
  let sumr := (row.map (·.1)).sum
  let sume := (row.map (·.2)).sum
  ⟨row.map cell, sumr, Detail.tenths sume sumr, row.filter fun t => decide (0 < t.1)⟩

/-- `print_lur`, src/sclite/lur.c:445-467: the formats take three bytes for each label in buffers of 50 bytes (lines 134 and 144-164). -/
def printLur {W : Type} (find : List Nat → Option Nat) (nlab : Nat) (grps : List (List (Option (List Nat) × List (Entry W)))) :
    Res (List Column) :=
  (computeFrom find 0 (noScores nlab grps.length) grps).bind fun lab =>
    if 50 ≤ 1 + 3 * nlab then .undef else .ok (lab.lsc.map column)

/-- The column of a label and system in the report on several systems, src/sclite/lur.c:365-383: here the speakers without reference words
but with errors enter the averages, too, with the percentage 0. -/
def columnN (row : List (Nat × Nat)) : Nat × Nat × List (Nat × Nat) :=
  let pres := row.filter fun t => decide (t.1 + t.2 ≠ 0)
  ((pres.map (·.1)).sum, Detail.tenths (pres.map (·.2)).sum (pres.map (·.1)).sum, pres)

/-- The scores of several systems, src/sclite/lur.c:487-490: the arrays have the size of the first system's labels and speakers, the
categories are kept from system to system. -/
def computeN {W : Type} (nlab ngrp : Nat) : List (Option Nat) → List ((List Nat → Option Nat) × List (List (Option (List Nat) × List (Entry W)))) →
    Res (List Lab)
  | _, [] => .ok []
  | loc, s :: ss =>
    (computeFrom s.1 0 { noScores nlab ngrp with loc := loc } s.2).bind fun lab => (computeN nlab ngrp lab.loc ss).bind fun r => .ok (lab :: r)

/-- `print_N_lur`, src/sclite/lur.c:473-497, without the layout. -/
def printNLur {W : Type} (nlab : Nat) (ss : List ((List Nat → Option Nat) × List (List (Option (List Nat) × List (Entry W))))) :
    Res (List (List (Nat × Nat × List (Nat × Nat)))) :=
  (computeN nlab ((ss.map fun s => s.2.length).headD 0) (List.replicate nlab none) ss).bind fun labs =>
    if 50 ≤ 1 + 3 * nlab then .undef else .ok (labs.map fun lab => lab.lsc.map columnN)

end Verif.Lur
