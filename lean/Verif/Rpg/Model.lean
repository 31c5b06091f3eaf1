/-!
# Model of sclite's report generator

src/sclite/rpg.c: format strings, the rows of a report, the sizes of the columns, and the printed lines.  Texts are lists of
characters without the final NUL; the report is a list of lines without the newlines.

Simplifications.  Rows, separations and definitions are unbounded lists (the arrays grow, rpg.c:119-207); of the capacities only
`max_col` is kept, since other functions look at it.  The debugging output and `Desc_dump_ascii_report` are left out.  `F_ROUND` is a
parameter: `R u n k` stands for `(int)(F_ROUND((double)u / (double)n * (double)k, 0))`, computed in floating point in the code
(src/sclite/sctk.h:43).  Formats with locked columns are one of the ways to stop: for a locked column the pointer to its text is never
set (rpg.c:577-579), and the code reads through a null or an old pointer.
-/
set_option autoImplicit false
namespace Verif.Rpg

/-- The ways in which a call does not come back with a result.  `skewed` = a separator without a column before it, after which the
letters and the number of columns no longer agree (rpg.c:276-295); not modelled further. -/
inductive Stop where
  | hang | skewed | locked | overflow | noArg | exit
  deriving DecidableEq, Repr

/-- A column of a format: its letter and the space between it and the next column (`col_just`, `col_inter_space`, rpg.c:23-32). -/
structure Col where
  just : Char
  sep : Char
  deriving DecidableEq, Repr

/-- `COLUMN_DEFS`, rpg.c:23-32. -/
structure Def where
  fmt : List Char
  cols : List Col
  chars : Nat
  deriving DecidableEq, Repr

/-- The static `REPORT_DEF_STRUCT`, rpg.c:34-53.  `rows` is `row_just`; `cells c r` is `cell_values[c][r]`. -/
structure State where
  defs : List Def
  rows : List Nat
  before : Nat → List Char
  after : Nat → List Char
  cells : Nat → Nat → List Char
  maxCol : Nat

/-- `initialize_REPORT_DEF_STRUCT`, rpg.c:68-117. -/
def init : State := ⟨[], [], fun _ => [], fun _ => [], fun _ _ => [], 50⟩

/-- `Desc_erase`, rpg.c:230-246.  The texts of the cells stay. -/
def erase (s : State) : State := ⟨[], [], fun _ => [], fun _ => [], s.cells, s.maxCol⟩

/-! ## Formats -/

/-- The letters of a format, rpg.c:280-281. -/
def isLetter (c : Char) : Bool := ['c', 'C', 'l', 'L', 'r', 'R', 'n', 'a'].contains c

/-- The loop over the format, rpg.c:276-296: the columns, `num_col_chars` and what is left of the format.  A character that is
neither a letter nor a separator is not skipped. -/
def parseLoop : Nat → List Char → List Col → Nat → Except Stop (List Col × Nat × List Char)
  | 0, _, _, _ => .error .hang
  | _ + 1, [], cols, k => .ok (cols, k, [])
  | f + 1, c :: q, cols, k =>
    if c = ':' then .ok (cols, k, c :: q)
    else if isLetter c then
      if q.head? = some '|' then parseLoop f q.tail (cols ++ [⟨c, '|'⟩]) k
      else if q.head? = some '=' then parseLoop f q.tail (cols ++ [⟨c, '='⟩]) (k + 1)
      else parseLoop f q (cols ++ [⟨c, ' '⟩]) k
    else if c = '|' ∨ c = '=' then .error .skewed
    else parseLoop f (c :: q) cols k

/-- `expand_columns` before column `0 .. n - 1` is used, rpg.c:277-278, 303-304, with the factor 1.5 (rpg.c:122, 137). -/
def growTo (m : Nat) : Nat → Nat
  | 0 => m
  | n + 1 => if n ≥ growTo m n then growTo m n * 3 / 2 else growTo m n

/-- `Desc_set_justification`, rpg.c:256-312: the state and the number of the definition. -/
def setJust (s : State) (fmt : List Char) : Except Stop (State × Nat) :=
  match s.defs.findIdx? (fun d => d.fmt = fmt) with
  | some j => .ok (s, j)
  | none =>
    let m := if s.defs.length = s.maxCol then s.maxCol * 3 / 2 else s.maxCol
    if fmt.length ≥ 100 then .error .overflow
    else match parseLoop (fmt.length + 1) fmt [] 0 with
      | .error e => .error e
      | .ok (cols, k, rest) =>
        let locks := rest.drop 1
        if locks.contains 'l' then .error .locked
        else
          .ok ({ s with defs := s.defs ++ [⟨fmt, cols, k⟩], maxCol := growTo (growTo m cols.length) locks.length }, s.defs.length)

/-- `Desc_add_row_separation`, rpg.c:808-856; `row_attach == BEFORE_ROW`. -/
def addSep (s : State) (chr : Char) (isBefore : Bool) : State :=
  let r := s.rows.length
  if isBefore then { s with before := fun x => if x = r then s.before r ++ [chr] else s.before x }
  else { s with after := fun x => if x = r then s.after r ++ [chr] else s.after x }

/-- The loop over the columns in `Desc_add_row_values`, rpg.c:976-982, from column `c` on. -/
def putVals (r : Nat) : Nat → List Col → List (List Char) → (Nat → Nat → List Char) → Except Stop (Nat → Nat → List Char)
  | _, [], _, cells => .ok cells
  | c, k :: ks, vals, cells =>
    if k.just = 'a' then putVals r (c + 1) ks vals cells
    else match vals with
      | [] => .error .noArg
      | v :: vs =>
        if v.length ≥ 2000 then .error .overflow
        else putVals r (c + 1) ks vs (fun x y => if x = c ∧ y = r then v else cells x y)

/-- The columns of a definition. -/
def colsOf (s : State) (j : Nat) : List Col := (s.defs[j]?.map (·.cols)).getD []

/-- `Desc_add_row_values`, rpg.c:945-986. -/
def addRow (s : State) (fmt : List Char) (vals : List (List Char)) : Except Stop State :=
  match setJust s fmt with
  | .error e => .error e
  | .ok (s', j) =>
    match putVals s'.rows.length 0 (colsOf s' j) vals s'.cells with
    | .error e => .error e
    | .ok cells => .ok { s' with cells := cells, rows := s'.rows ++ [j] }

/-! ## Rows given value by value -/

/-- The statics of the iterated functions, rpg.c:872-874: the format and the values given so far. -/
structure Iter where
  fmt : List Char
  vals : List (List Char)

/-- `setup_iterations`, rpg.c:876-894: 60 values, and no more than 60 columns allocated. -/
def setupFails (s : State) : Bool := s.maxCol > 60

/-- `Desc_set_iterated_format`, rpg.c:896-902. -/
def iterFormat (s : State) (it : Iter) (fmt : List Char) : Except Stop Iter :=
  if setupFails s then .error .exit
  else if fmt.length ≥ 2000 then .error .overflow
  else .ok { it with fmt := fmt }

/-- `Desc_set_iterated_value`, rpg.c:904-914. -/
def iterValue (s : State) (it : Iter) (v : List Char) : Except Stop Iter :=
  if setupFails s then .error .exit
  else if it.vals.length > 59 then .error .exit
  else if v.length ≥ 2000 then .error .overflow
  else .ok { it with vals := it.vals ++ [v] }

/-- `Desc_flush_iterated_row`, rpg.c:916-941: the values up to `max_col` that were not given are empty; those beyond hold what was
there before, here no value at all. -/
def iterFlush (s : State) (it : Iter) : Except Stop (State × Iter) :=
  if setupFails s then .error .exit
  else match addRow s it.fmt (it.vals ++ List.replicate (s.maxCol - it.vals.length) []) with
    | .error e => .error e
    | .ok s' => .ok (s', { it with vals := [] })

/-! ## The sizes of the columns -/

/-- `*p == '/' && *(p+1) == '/'`. -/
def atBreak : List Char → Bool
  | c :: d :: _ => c == '/' && d == '/'
  | _ => false

/-- The loop that measures a text, rpg.c:427-441, 470-484: `cur` characters of the present piece are counted, `best` is the most so
far, `skip` characters are to be passed over.  In a column with an upper case letter a piece also ends at a blank. -/
def measure (up : Bool) : Nat → Nat → Nat → List Char → Nat
  | _, cur, best, [] => max best cur
  | skip + 1, cur, best, _ :: q => measure up skip cur best q
  | 0, cur, best, c :: q =>
    if up ∧ c = ' ' then measure up 0 0 (max best cur) q
    else if atBreak (c :: q) then measure up (if (q.drop 1).head? = some ' ' then 2 else 1) 0 (max best cur) q
    else measure up 0 (cur + 1) best q

/-- The measure of the text of a cell in a column with letter `j`. -/
def size (j : Char) (text : List Char) : Nat := measure j.isUpper 0 0 0 text

/-- How many of the columns that follow are `a`, as counted by `num_span_col`, rpg.c:858-870. -/
def span (rest : List Col) : Nat := (rest.takeWhile (fun k => k.just == 'a')).length

/-- `max_col_sizes`: by number of columns and column. -/
abbrev Table := Nat → Nat → Int

/-- One entry made larger. -/
def bump (T : Table) (n c : Nat) (v : Int) : Table := fun x y => if x = n ∧ y = c then T n c + v else T x y

/-- One entry raised to at least `v`. -/
def raise (T : Table) (n c : Nat) (v : Int) : Table := fun x y => if x = n ∧ y = c then max (T n c) v else T x y

/-- The first pass over a row, rpg.c:421-444, from column `c` on; `n` = number of columns: cells that do not span.  The last `a` of a
span is looked at too, with whatever its cell holds. -/
def pass1Row (text : Nat → List Char) (n : Nat) : Nat → List Col → Table → Table
  | _, [], T => T
  | c, k :: rest, T =>
    pass1Row text n (c + 1) rest (if span rest = 0 then raise T n c (size k.just (text c)) else T)

/-- The rounding of the code, as a parameter. -/
abbrev Round := Int → Nat → Nat → Int

/-- The distribution of `d` more characters over the columns `c2 ..`, `m + 1` of them, rpg.c:504-514; `nu` = the number of unlocked
columns. -/
def distribute (R : Round) (n nu : Nat) : Nat → Nat → Int → Table → Table
  | 0, c2, d, T => bump T n c2 d
  | m + 1, c2, d, T => distribute R n nu m (c2 + 1) (d - R d nu 1) (bump T n c2 (R d nu 1))

/-- The size of the columns `c .. c + sp`, rpg.c:486-492. -/
def spanSize (T : Table) (pad n : Nat) : Nat → Nat → Int
  | c, 0 => T n c
  | c, sp + 1 => T n c + 1 + 2 * (pad : Int) + spanSize T pad n (c + 1) sp

/-- The second pass over a row, rpg.c:463-519: cells that span; `skip` = columns already dealt with. -/
def pass2Row (R : Round) (pad : Nat) (text : Nat → List Char) (n : Nat) : Nat → Nat → List Col → Table → Table
  | _, _, [], T => T
  | skip + 1, c, _ :: rest, T => pass2Row R pad text n skip (c + 1) rest T
  | 0, c, k :: rest, T =>
    let sp := span rest
    if sp = 0 then pass2Row R pad text n 0 (c + 1) rest T
    else
      let siz : Int := size k.just (text c)
      let sps := spanSize T pad n c sp
      pass2Row R pad text n sp (c + 1) rest (if siz > sps then distribute R n (sp + 1) sp c (siz - sps) T else T)

/-- A pass over all rows, `r` = number of the first. -/
def passRows (f : Nat → List Col → Table → Table) (s : State) : Nat → List Nat → Table → Table
  | _, [], T => T
  | r, j :: js, T => passRows f s (r + 1) js (f r (colsOf s j) T)

/-- Both passes, rpg.c:416-520. -/
def sizes (R : Round) (pad : Nat) (s : State) : Table :=
  passRows (fun r cols => pass2Row R pad (fun c => s.cells c r) cols.length 0 0 cols) s 0 s.rows
    (passRows (fun r cols => pass1Row (fun c => s.cells c r) cols.length 0 cols) s 0 s.rows (fun _ _ => 0))

/-- The sum of the sizes of columns `c ..`, each with its padding. -/
def sumSizes (M : Nat → Int) (pad : Nat) : Nat → List Col → Int
  | _, [] => 0
  | c, _ :: rest => M c + 2 * (pad : Int) + sumSizes M pad (c + 1) rest

/-- `min_just_width`, rpg.c:542-549. -/
def minWidth (T : Table) (pad : Nat) (d : Def) : Int :=
  2 + sumSizes (T d.cols.length) pad 0 d.cols + ((d.chars : Int) + d.cols.length - 1)

/-- The width of the report, rpg.c:536, 550-551. -/
def width (T : Table) (pad : Nat) (defs : List Def) : Int := defs.foldl (fun w d => if w < minWidth T pad d then minWidth T pad d else w) 0

/-- The columns that a cell spans over, rpg.c:595-607: `(desc_column_size, desc_column_text_size, current_add)`.  The branch for
`c == current_num_col-1` is never taken, since `c < c2 < current_num_col`. -/
def spanLoop (R : Round) (pad : Nat) (u : Int) (n : Nat) (M : Nat → Int) (c sp : Nat) : Nat → Nat → Int × Int × Int → Int × Int × Int
  | 0, _, x => x
  | m + 1, c2, (cw, tw, add) =>
    let adj := R u n (c + sp + 1) - add
    spanLoop R pad u n M c sp m (c2 + 1) (cw + M c2 + 2 * (pad : Int) + 1 + adj, tw + M c2 + 2 * (pad : Int) + 1, add + adj)

/-- `desc_column_size` and `desc_column_text_size` of a row, rpg.c:574-614, from column `c` on; `u` = `current_underage`. -/
def geom (R : Round) (pad : Nat) (u : Int) (n : Nat) (M : Nat → Int) : Nat → Int → List Col → List (Int × Int)
  | _, _, [] => []
  | c, add, k :: rest =>
    if k.just = 'a' then (0, 0) :: geom R pad u n M (c + 1) add rest
    else
      let sp := span rest
      let adj := if c ≠ n - 1 then R u n (c + sp + 1) - add else u - add
      let add1 := if c ≠ n - 1 then add + adj else add
      let x := spanLoop R pad u n M c sp sp (c + 1) (2 * (pad : Int) + M c + adj, M c, add1)
      (x.1, x.2.1) :: geom R pad u n M (c + 1) x.2.2 rest

/-! ## Printing -/

/-- The copying loop of `get_next_string_value`, rpg.c:322-323: what is copied and where it stops. -/
def copy : Nat → List Char → List Char × List Char
  | 0, p => ([], p)
  | _ + 1, [] => ([], [])
  | w + 1, c :: q => if atBreak (c :: q) then ([], c :: q) else (c :: (copy w q).1, (copy w q).2)

/-- Backing up to a space, rpg.c:327-334; the copied characters are given in reverse. -/
def backup : List Char → List Char → List Char × List Char
  | rb, ' ' :: p => (rb.reverse, p)
  | [], p => ([], p)
  | d :: rb, p => backup rb (d :: p)

/-- `get_next_string_value`, rpg.c:314-338: the text and the new place.  The buffer is dealt with in `getNextChecked`.  The condition
`(*(p+1) != ' ') || (*(p+1) != '/')` is always true. -/
def getNext (w : Nat) (s : List Char) : List Char × List Char :=
  let x := copy w s
  if atBreak x.2 then (x.1, x.2.drop 2)
  else if x.2 = [] then x
  else backup x.1.reverse x.2

/-- The buffer of 300 characters of `get_next_string_value`, rpg.c:316. -/
def getNextChecked (w : Nat) (s : List Char) : Except Stop (List Char × List Char) :=
  if (copy w s).1.length > 300 ∨ (getNext w s).1.length ≥ 300 then .error .overflow else .ok (getNext w s)

/-- `n` blanks. -/
def blanks (n : Nat) : List Char := List.replicate n ' '

/-- `printf` with `%<n>s`. -/
def padLeft (n : Nat) (t : List Char) : List Char := blanks (n - t.length) ++ t

/-- `printf` with `%-<n>s`. -/
def padRight (n : Nat) (t : List Char) : List Char := t ++ blanks (n - t.length)

/-- `center`, src/sclite/pad.c:86-109 (see also `Pad.center`), for a text no longer than `len`. -/
def centre (t : List Char) (len : Nat) : List Char :=
  blanks ((len - t.length) / 2) ++ t ++ blanks (len - (t.length + (len - t.length) / 2))

/-- The text that is printed by the `default` of the switch, rpg.c:690-691, for the letter `n`. -/
def undefinedMsg : List Char := "undefined inter column space\n".toList

/-- A cell on one line, rpg.c:659-692: what is printed and the rest of the text.  `cw`, `tw` = column size and text size.  A number of
blanks below 0 or above 300 takes the pointer into the string of blanks outside of it; a negative text size is not modelled. -/
def printCell (j : Char) (cw tw : Int) (text : List Char) : Except Stop (List Char × List Char) :=
  if j = 'n' then .ok (undefinedMsg, text)
  else
    let ft := (cw - tw).tdiv 2
    let bk := (cw - tw) - ft
    if ft < 0 ∨ ft > 300 ∨ bk < 0 ∨ bk > 300 ∨ tw < 0 then .error .overflow
    else match getNextChecked tw.toNat text with
      | .error e => .error e
      | .ok (piece, rest) =>
        let field :=
          if j = 'c' ∨ j = 'C' then padLeft tw.toNat (centre piece tw.toNat)
          else if j = 'r' ∨ j = 'R' then padLeft tw.toNat piece
          else padRight tw.toNat piece
        if (j = 'c' ∨ j = 'C') ∧ tw ≥ 2000 then .error .exit
        else .ok (blanks ft.toNat ++ field ++ blanks bk.toNat, rest)

/-- `is_last_just_col`, rpg.c:743-754, of the column before `rest`. -/
def isLast (rest : List Col) : Bool := (rest.drop (span rest)).isEmpty

/-- `col_inter_space[sp + c]`, where `k` is column `c` and `sp` the number of columns spanned. -/
def spanSep (k : Col) (rest : List Col) : Char := (((k :: rest)[span rest]?).map (·.sep)).getD ' '

/-- The space between two columns on a line of text, rpg.c:693-703. -/
def textSep (ch : Char) : List Char := if ch ≠ ' ' then (if ch = '=' then ['|', '|'] else [ch]) else [' ']

/-- One line of a row between the two `|`, rpg.c:656-705: the text and what is left of each cell. -/
def printCols : List Col → List (Int × Int) → List (List Char) → Except Stop (List Char × List (List Char))
  | [], _, _ => .ok ([], [])
  | _ :: _, [], _ => .ok ([], [])
  | _ :: _, _ :: _, [] => .ok ([], [])
  | k :: ks, g :: gs, t :: ts =>
    if k.just = 'a' then
      match printCols ks gs ts with
      | .error e => .error e
      | .ok (out, rests) => .ok (out, [] :: rests)
    else match printCell k.just g.1 g.2 t with
      | .error e => .error e
      | .ok (out, rest) =>
        match printCols ks gs ts with
        | .error e => .error e
        | .ok (outs, rests) => .ok (out ++ (if isLast ks then [] else textSep (spanSep k ks)) ++ outs, rest :: rests)

/-- The lines of a row, rpg.c:652-707.  Whether the row is done is asked of the columns that are not `a` and whose letter is known. -/
def rowLines (cols : List Col) (gs : List (Int × Int)) : Nat → List (List Char) → Except Stop (List (List Char))
  | 0, _ => .error .hang
  | f + 1, ts =>
    match printCols cols gs ts with
    | .error e => .error e
    | .ok (out, rests) =>
      let line := ['|'] ++ out ++ ['|']
      if (cols.zip rests).all (fun x => x.1.just == 'n' || x.2.isEmpty) then .ok [line]
      else match rowLines cols gs f rests with
        | .error e => .error e
        | .ok ls => .ok (line :: ls)

/-- The character(s) between two columns on a separation before a row, rpg.c:625-647; `lc` = the separator of the row before, `'\0'`
on the first row.  (Beyond the last column of that row the code reads what an earlier definition left there; here `'\0'`.) -/
def beforeSep (p ch lc : Char) : List Char :=
  if ch ≠ ' ' then
    if p = ' ' then (if ch = '=' then ['|', '|'] else [ch])
    else if (ch = '|' ∨ ch = '=') ∧ p = '-' ∧ (lc = '|' ∨ lc = '=') then (if ch = '=' then ['+', '+'] else ['+'])
    else (if ch = '=' then [p, p] else [p])
  else [p]

/-- The character between two columns on a separation after a row, rpg.c:715-728; `own` = `col_inter_space[c]`. -/
def afterSep (p ch own lc : Char) : List Char :=
  if ch ≠ ' ' then
    if p = ' ' then [ch]
    else if own = '|' ∧ p = '-' ∧ lc = '|' then ['+']
    else [p]
  else [p]

/-- The separator of column `i` of the row before. -/
def prevSep (prev : List Col) (i : Nat) : Char := ((prev[i]?).map (·.sep)).getD '\x00'

/-- A separation between the two `|`, rpg.c:617-650 and 708-732, from column `c` on. -/
def sepCols (isBefore : Bool) (p : Char) (prev : List Col) : Nat → List Col → List (Int × Int) → List Char
  | _, [], _ => []
  | _, _ :: _, [] => []
  | c, k :: ks, g :: gs =>
    if k.just = 'a' then sepCols isBefore p prev (c + 1) ks gs
    else
      List.replicate g.1.toNat p ++
      (if isLast ks then []
       else if isBefore then beforeSep p (spanSep k ks) (prevSep prev (span ks + c))
       else afterSep p (spanSep k ks) k.sep (prevSep prev (span ks + c))) ++
      sepCols isBefore p prev (c + 1) ks gs

/-- A whole separation. -/
def sepLine (isBefore : Bool) (p : Char) (prev cols : List Col) (gs : List (Int × Int)) : List Char :=
  ['|'] ++ sepCols isBefore p prev 0 cols gs ++ ['|']

/-- The longest of some texts. -/
def maxLen (ts : List (List Char)) : Nat := ts.foldl (fun m t => max m t.length) 0

/-- The texts of the cells of a row; for an `a` column the pointer is set to the empty text (rpg.c:609-611). -/
def rowTexts (text : Nat → List Char) : Nat → List Col → List (List Char)
  | _, [] => []
  | c, k :: ks => (if k.just = 'a' then [] else text c) :: rowTexts text (c + 1) ks

/-- The lines of row `r`, rpg.c:558-732.  Enough passes for the longest text are allowed: a pass without progress is repeated for
ever. -/
def dumpRow (R : Round) (pad : Nat) (s : State) (T : Table) (W : Int) (r : Nat) (prev : List Col) (d : Def) :
    Except Stop (List (List Char)) :=
  let n := d.cols.length
  let u := W - minWidth T pad d
  let gs := geom R pad u n (T n) 0 0 d.cols
  let ts := rowTexts (fun c => s.cells c r) 0 d.cols
  match rowLines d.cols gs (maxLen ts + 1) ts with
  | .error e => .error e
  | .ok ls =>
    .ok ((s.before r).map (fun p => sepLine true p prev d.cols gs) ++ ls ++
      (s.after r).map (fun p => sepLine false p prev d.cols gs))

/-- All rows from `r` on, rpg.c:558-733. -/
def dumpRows (R : Round) (pad : Nat) (s : State) (T : Table) (W : Int) : Nat → List Col → List Nat → Except Stop (List (List Char))
  | _, _, [] => .ok []
  | r, prev, j :: js =>
    match dumpRow R pad s T W r prev ((s.defs[j]?).getD ⟨[], [], 0⟩) with
    | .error e => .error e
    | .ok ls =>
      match dumpRows R pad s T W (r + 1) (colsOf s j) js with
      | .error e => .error e
      | .ok rest => .ok (ls ++ rest)

/-- `print_start_line`, `print_final_line`, rpg.c:790-806. -/
def edge (a b : Char) (W : Int) : List Char := [a] ++ List.replicate (W - 2).toNat '-' ++ [b]

/-- The blanks before each line, rpg.c:555; `centred` = the width given to `Desc_set_page_center` (rpg.c:248-254). -/
def indent (centred : Option Nat) (W : Int) : List Char :=
  match centred with
  | none => []
  | some p => if W < p then blanks (((p : Int) - W).tdiv 2).toNat else []

/-- The sizes are kept in arrays of `max_col` entries that are addressed by the *number* of columns (rpg.c:439, 542): a format with
just as many columns as are allocated is outside of them. -/
def tooMany (s : State) : Bool := s.defs.any (fun d => decide (d.cols.length ≥ s.maxCol))

/-- `Desc_dump_report`, rpg.c:348-741. -/
def dump (R : Round) (pad : Nat) (centred : Option Nat) (s : State) : Except Stop (List (List Char)) :=
  let T := sizes R pad s
  let W := width T pad s.defs
  if tooMany s then .error .overflow
  else match dumpRows R pad s T W 0 [] s.rows with
  | .error e => .error e
  | .ok ls => .ok (([edge ',' '.' W] ++ ls ++ [edge '`' '\'' W]).map (fun l => indent centred W ++ l))

/-- `Desc_rm_lf`, rpg.c:1020-1047. -/
def rmLf : List Char → List Char
  | [] => []
  | [c] => [c]
  | c :: d :: q => if c = '/' ∧ d = '/' then ' ' :: rmLf q else c :: rmLf (d :: q)

/-- `F_ROUND` in exact arithmetic, src/sclite/sctk.h:43; the model of the other files takes it as a parameter. -/
def exactRound : Round := fun u n k =>
  if u * k > 0 then (2 * (u * k) + n).tdiv (2 * n) else (2 * (u * k) - n).tdiv (2 * n)

end Verif.Rpg
