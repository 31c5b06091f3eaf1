import Verif.Lines.Model
/-!
# Model of rfilter1

Texts are lists of bytes without the terminating NUL, files are lists of bytes.  Reads and writes outside a buffer, and
uses of uninitialised pointers, are the distinct outcome `oob`.
-/
set_option autoImplicit false
namespace Verif.Rfilter
open Verif.Lines (cstr fgets isSpace)

/-- `RULE2`, src/rfilter1/include/rulestr2.h:6-12.  `lcontextl` and `rcontextl` are always the lengths of the texts they go
with; `sinl` is kept apart since a lone quote makes it -1; `soutl` is never used. -/
structure Rule where
  lctx : List Nat
  sin : List Nat
  sinl : Int
  rctx : List Nat
  sout : List Nat
  deriving Repr, DecidableEq

/-- `RULESET2`, src/rfilter1/include/rulestr2.h:14-28, without `name`, `directory` and `desc`.  `rules` are the entries
1..nrules of the table, `order` the entries 1..nrules of `rule_index`; `first` and `last` stand for the arrays indexed by a
byte. -/
structure RuleSet where
  format : List Nat
  copyNoHit : Bool
  caseSensitive : Bool
  rules : List Rule
  order : List Nat
  first : Nat → Int
  last : Nat → Int

/-- What a function of the program comes to: a result, an error code, an access outside a buffer, or no end. -/
inductive Out (α : Type) where
  | ok (a : α)
  | err (code : Nat)
  | oob
  | hang
  deriving Repr, DecidableEq

/-- `toupper` of the C library in the C locale. -/
def upper (b : Nat) : Nat := if 97 ≤ b ∧ b ≤ 122 then b - 32 else b

/-- `tolower` of the C library in the C locale. -/
def lower (b : Nat) : Nat := if 65 ≤ b ∧ b ≤ 90 then b + 32 else b

/-- `strncmp(s, t, n) == 0` of the C library (`f` the identity) and `strncasecmp(s, t, n) == 0` (`f` is `lower`). -/
def cmpn (f : Nat → Nat) : List Nat → List Nat → Nat → Bool
  | _, _, 0 => true
  | [], [], _ + 1 => true
  | a :: s, b :: t, n + 1 => f a == f b && cmpn f s t n
  | _, _, _ + 1 => false

/-- The comparison the rule set asks for, src/rfilter1/include/aprules2.c:46-61. -/
def cmp (cs : Bool) : List Nat → List Nat → Nat → Bool := cmpn (if cs then id else lower)

/-- An `int` handed over as a `size_t`. -/
def sizeT (n : Int) : Nat := if n < 0 then 2 ^ 64 - n.natAbs else n.toNat

/-! ## Applying rules -/

/-- The condition of src/rfilter1/include/aprules2.c:46-61 at offset `pos` of `pa`: source, left context, right context, in
this order.  The left context is looked up at `pi - lcontextl`, which lies before the buffer when `pos` is too small. -/
def ruleFires (cs : Bool) (pa : List Nat) (pos : Nat) (r : Rule) : Out Bool :=
  if cmp cs (pa.drop pos) r.sin (sizeT r.sinl) = false then .ok false
  else if pos < r.lctx.length then .oob
  else if cmp cs (pa.drop (pos - r.lctx.length)) r.lctx r.lctx.length = false then .ok false
  else .ok (cmp cs (pa.drop (pos + r.sinl.toNat)) r.rctx r.rctx.length)

/-- The loop over the rules of a key character, src/rfilter1/include/aprules2.c:42-75: `n` rules are left, the next has
index `j`.  The result is the number and the rule that fires. -/
def tryRules (rs : RuleSet) (pa : List Nat) (pos : Nat) : Nat → Nat → Out (Option (Nat × Rule))
  | 0, _ => .ok none
  | n + 1, j =>
    match rs.order[j - 1]? with
    | none => .oob
    | some i =>
      match rs.rules[i - 1]? with
      | none => .oob
      | some r =>
        match ruleFires rs.caseSensitive pa pos r with
        | .ok true => .ok (some (i, r))
        | .ok false => tryRules rs pa pos n (j + 1)
        | .err e => .err e
        | .oob => .oob
        | .hang => .hang

/-- The key character of a byte, src/rfilter1/include/aprules2.c:39-40 and grules2.c:332-333. -/
def keyOf (cs : Bool) (b : Nat) : Nat := if cs then b else upper b

/-- The main loop of `apply_rules2`, src/rfilter1/include/aprules2.c:36-83.  `pb` is the output so far, in a buffer of `cap`
bytes; `fired` lists the rules that fired (`val1` of a rule counts its entries). -/
def applyLoop (cap : Nat) (rs : RuleSet) (pa : List Nat) : Nat → Nat → List Nat → List Nat → Out (List Nat × List Nat)
  | 0, _, _, _ => .hang
  | fuel + 1, pos, pb, fired =>
    match pa[pos]? with
    | none => .ok (pb, fired)
    | some c =>
      match tryRules rs pa pos (rs.last (keyOf rs.caseSensitive c) + 1 - rs.first (keyOf rs.caseSensitive c)).toNat
          (rs.first (keyOf rs.caseSensitive c)).toNat with
      | .ok (some (i, r)) =>
        if (pb ++ r.sout).length < cap then applyLoop cap rs pa fuel (pos + r.sinl).toNat (pb ++ r.sout) (fired ++ [i])
        else .oob
      | .ok none =>
        if rs.copyNoHit then
          if (pb ++ [c]).length < cap then applyLoop cap rs pa fuel (pos + 1) (pb ++ [c]) fired else .oob
        else applyLoop cap rs pa fuel (pos + 1) pb fired
      | .err e => .err e
      | .oob => .oob
      | .hang => .hang

/-- The text `NIST1`. -/
def nist1 : List Nat := [78, 73, 83, 84, 49]

/-- `apply_rules2`, src/rfilter1/include/aprules2.c:17-88, writing into a buffer of `cap` bytes; `rset` is never NULL. -/
def applyRules (cap : Nat) (rs : RuleSet) (pa : List Nat) : Out (List Nat × List Nat) :=
  if rs.format ≠ nist1 then .err 11 else applyLoop cap rs pa (pa.length + 1) 0 [] []

/-! ## The index -/

/-- The variables of the index building, src/rfilter1/include/grules2.c:317-330; `order.length` is `jind`.  The initial
identity in `rule_index` is overwritten entry by entry and not kept. -/
structure Idx where
  order : List Nat
  first : Nat → Int
  last : Nat → Int
  count : Nat → Nat
  indexed : Nat → Bool

/-- Storing a value in an array. -/
def upd {α : Type} (f : Nat → α) (k : Nat) (v : α) : Nat → α := fun x => if x = k then v else f x

/-- src/rfilter1/include/grules2.c:317-330. -/
def idx0 : Idx := ⟨[], fun _ => 0, fun _ => -1, fun _ => 0, fun _ => false⟩

/-- The loop over the later rules with the same key character, src/rfilter1/include/grules2.c:344-353. -/
def idxInner (k : Nat) : List (Nat × Nat) → Idx → Idx
  | [], st => st
  | (i2, k2) :: rest, st =>
    idxInner k rest
      (if st.indexed i2 then st
       else if k2 = k then
        { order := st.order ++ [i2], first := st.first, last := upd st.last k (st.order.length + 1 : Int),
          count := upd st.count k (st.count k + 1), indexed := upd st.indexed i2 true }
       else st)

/-- The loop over the rules, src/rfilter1/include/grules2.c:331-353, over the numbers and key characters of the rules. -/
def idxOuter : List (Nat × Nat) → Idx → Idx
  | [], st => st
  | (i, k) :: rest, st =>
    idxOuter rest
      (if st.count k = 0 then
        idxInner k rest
          { order := st.order ++ [i], first := upd st.first k (st.order.length + 1 : Int),
            last := upd st.last k (st.order.length + 1 : Int), count := upd st.count k (st.count k + 1),
            indexed := upd st.indexed i true }
       else st)

/-- The key character of a rule, src/rfilter1/include/grules2.c:332-333; the NUL for an empty source. -/
def ruleKey (cs : Bool) (r : Rule) : Nat := keyOf cs (r.sin.headD 0)

/-- The rules with their numbers. -/
def numbered (cs : Bool) : Nat → List Rule → List (Nat × Nat)
  | _, [] => []
  | i, r :: rs => (i, ruleKey cs r) :: numbered cs (i + 1) rs

/-- The index of a list of rules, src/rfilter1/include/grules2.c:315-355. -/
def buildIndex (cs : Bool) (rules : List Rule) : Idx := idxOuter (numbered cs 1 rules) idx0

/-! ## Reading a rule -/

/-- `strstr` of the C library: the offset of the first occurrence. -/
def strstr (pat : List Nat) : List Nat → Option Nat
  | [] => if pat = [] then some 0 else none
  | a :: s => if pat.isPrefixOf (a :: s) then some 0 else (strstr pat s).map (· + 1)

/-- `strchr` of the C library for a byte other than NUL: the offset of the first occurrence. -/
def strchr (c : Nat) : List Nat → Option Nat
  | [] => none
  | a :: s => if a = c then some 0 else (strchr c s).map (· + 1)

/-- `strrchr` of the C library for a byte other than NUL: the offset of the last occurrence. -/
def strrchr (c : Nat) : List Nat → Option Nat
  | [] => none
  | a :: s =>
    match strrchr c s with
    | some i => some (i + 1)
    | none => if a = c then some 0 else none

/-- `irmark < ilmark`, src/rfilter1/include/grules2.c:98, with NULL below every address. -/
def ptrLt : Option Nat → Option Nat → Bool
  | _, none => false
  | none, some _ => true
  | some a, some b => a < b

/-- The byte at an offset; the NUL after the text. -/
def byteAt (l : List Nat) (i : Nat) : Nat := (l[i]?).getD 0

/-- `pltrimf`, src/rfilter1/include/pltrimf.c:21-22, and the loops `while (isspace(*start)) start += 1`: from offset `s` to the
first byte that is no white space. -/
def skipSp (l : List Nat) (s : Nat) : Nat := s + ((l.drop s).takeWhile isSpace).length

/-- `while (end > lo && isspace(*end)) end -= 1`, src/rfilter1/include/grules2.c:120, 137-139 and 159-161. -/
def backSp (l : List Nat) (lo : Nat) : Nat → Nat
  | 0 => 0
  | e + 1 => if lo < e + 1 ∧ isSpace (byteAt l (e + 1)) then backSp l lo e else e + 1

/-- `while (!isspace(*start) && start < end) start += 1`, src/rfilter1/include/grules2.c:140, 162 and 182; the first argument
is `end - start`. -/
def skipNon (l : List Nat) : Nat → Nat → Nat
  | 0, s => s
  | n + 1, s => if isSpace (byteAt l s) then s else skipNon l n (s + 1)

/-- `prtrim`, src/rfilter1/include/prtrim.c:12-17, for a text that is not blank: the offset of the last byte that is no white
space. -/
def prtrim (l : List Nat) : Nat := l.length - 1 - (l.reverse.takeWhile isSpace).length

/-- Leaving out boundary characters, src/rfilter1/include/grules2.c:122-126, 144-148, 166-170 and 186-190. -/
def unquote (l : List Nat) (s e : Nat) : Int × Int :=
  if (byteAt l s = 91 ∧ byteAt l e = 93) ∨ (byteAt l s = 34 ∧ byteAt l e = 34) then ((s : Int) + 1, (e : Int) - 1)
  else ((s : Int), (e : Int))

/-- `substr_to_str`, src/rfilter1/include/ss_to_s.c:19-43, with `substr_length`, ss_len.c:14-21.  A line has at most 131 bytes, so
the limit `LINE_LENGTH` of 132 never truncates. -/
def substr (l : List Nat) (p : Int × Int) : List Nat :=
  if p.2 - p.1 + 1 < 1 then [] else (l.drop p.1.toNat).take (p.2 - p.1 + 1).toNat

/-- A field from offset `s0`, where a mark stands, to offset `e`: past the mark to white space, past the white space, boundary
characters left out, src/rfilter1/include/grules2.c:140-153, 162-177 and 182-197. -/
def field (l : List Nat) (s0 e : Nat) : List Nat :=
  if skipNon l (e - s0) s0 < e then substr l (unquote l (skipSp l (skipNon l (e - s0) s0)) e) else []

/-- The left hand side, src/rfilter1/include/grules2.c:114-131: the text and its recorded length. -/
def lhs (l : List Nat) (ieq : Nat) : List Nat × Int :=
  if skipSp l 0 < ieq then
    (substr l (unquote l (skipSp l 0) (backSp l (skipSp l 0) (ieq - 1))),
     (unquote l (skipSp l 0) (backSp l (skipSp l 0) (ieq - 1))).2 - (unquote l (skipSp l 0) (backSp l (skipSp l 0) (ieq - 1))).1 + 1)
  else ([], 0)

/-- The context mark, src/rfilter1/include/grules2.c:93-104: the last slash, unless a `]` comes before the next `[` after it. -/
def contextMark (l : List Nat) : Option Nat :=
  match strrchr 47 l with
  | none => none
  | some ic => if ptrLt (strchr 93 (l.drop ic)) (strchr 91 (l.drop ic)) then none else some ic

/-- The contexts, src/rfilter1/include/grules2.c:154-197: the left and the right one. -/
def contexts (l : List Nat) : Option Nat → List Nat × List Nat
  | none => ([], [])
  | some ic =>
    match strchr 95 (l.drop ic) with
    | none => ([], [])
    | some d => (field l ic (backSp l ic (ic + d - 1)), field l (ic + d) (prtrim l))

/-- `r_process_data_line` up to the storing of the rule, src/rfilter1/include/grules2.c:65-197, for format NIST1.  With the
context mark at the start of the line, line 138 reads the byte before the buffer. -/
def parseRule (l : List Nat) : Out Rule :=
  if l.all isSpace then .err 1
  else
    match strstr [61, 62] l with
    | none => .err 32
    | some ieq =>
      match contextMark l with
      | some 0 => .oob
      | some (ic + 1) =>
        .ok ⟨(contexts l (some (ic + 1))).1, (lhs l ieq).1, (lhs l ieq).2, (contexts l (some (ic + 1))).2,
          field l ieq (backSp l ieq ic)⟩
      | none => .ok ⟨[], (lhs l ieq).1, (lhs l ieq).2, [], field l ieq (prtrim l)⟩

/-! ## Reading a rule file -/

/-- The fields of the rule set while the file is read, src/rfilter1/include/grules2.c:259-267; `alloc` is the size of the rule
table once allocated. -/
structure Rd where
  format : List Nat
  copyNoHit : Bool
  caseSensitive : Bool
  maxRules : Int
  alloc : Option Nat
  rules : List Rule
  deriving Repr, DecidableEq

/-- src/rfilter1/include/grules2.c:262-267. -/
def rd0 : Rd := ⟨nist1, true, true, 400, none, []⟩

/-- `atobool`, src/rfilter1/include/atobool.c:7-19. -/
def atobool (s : List Nat) : Bool :=
  s.map lower == [116] || s.map lower == [121, 101, 115] || s.map lower == [116, 114, 117, 101]

/-- The digits of `atol`. -/
def digits : Nat → List Nat → Nat
  | acc, [] => acc
  | acc, b :: s => if 48 ≤ b ∧ b ≤ 57 then digits (acc * 10 + (b - 48)) s else acc

/-- `atol` of the C library, without overflow. -/
def atol (s : List Nat) : Int :=
  match s.dropWhile isSpace with
  | 45 :: t => - (digits 0 t : Int)
  | 43 :: t => digits 0 t
  | t => digits 0 t

/-- A quote character, the delimiters of src/rfilter1/include/grules2.c:28. -/
def isQuote (b : Nat) : Bool := b = 34 || b = 39

/-- `sstok2` with the delimiters `"'`, src/rfilter1/include/sstok2.c:20-41: the text between the first quote and the next
quote or the end (`strchr` finds the NUL, too); `none` = length below 0. -/
def sstok2 (l : List Nat) : Option (List Nat) :=
  match l.dropWhile (fun b => !isQuote b) with
  | [] => none
  | _ :: t => some (t.takeWhile (fun b => !isQuote b))

/-- `strstr` finds the keyword in the line. -/
def has (key l : List Nat) : Bool := (strstr key l).isSome

/-- `r_process_aux_line`, src/rfilter1/include/grules2.c:19-54, without the fields `name` and `desc`.  The keywords (`FORMAT`,
`MAX_NRULES`, `COPY_NO_HIT`, `CASE_SENSITIVE`) are looked up in the whole line. -/
def auxLine (st : Rd) (l : List Nat) : Out Rd :=
  match sstok2 l with
  | none => .err 3
  | some v =>
    .ok
      { st with
        format := if has [70, 79, 82, 77, 65, 84] (l.map upper) then v else st.format
        maxRules := if has [77, 65, 88, 95, 78, 82, 85, 76, 69, 83] (l.map upper) then atol v else st.maxRules
        copyNoHit := if has [67, 79, 80, 89, 95, 78, 79, 95, 72, 73, 84] (l.map upper) then atobool v else st.copyNoHit
        caseSensitive :=
          if has [67, 65, 83, 69, 95, 83, 69, 78, 83, 73, 84, 73, 86, 69] (l.map upper) then atobool v
          else st.caseSensitive }

/-- `get_comment_flag`, src/rfilter1/include/gcomflag.c:12-19: the first bytes of the first line that are `isgraph`. -/
def commentFlag (l : List Nat) : List Nat := l.takeWhile (fun b => 33 ≤ b && b ≤ 126)

/-- `prtrim2(del_eol(pline))`, src/rfilter1/include/grules2.c:289, del_eol.c:13-18, prtrim2.c:13-14: a newline is white
space. -/
def rtrim (l : List Nat) : List Nat := (l.reverse.dropWhile isSpace).reverse

/-- `valid_data_line`, src/rfilter1/include/valdata.c:13-28. -/
def validData (flag l : List Nat) : Bool :=
  if l = [] then false else if flag = [] then true else !(flag.isPrefixOf l)

/-- `remove_comments`, src/rfilter1/include/remcomm.c:17-24. -/
def removeComments (flag l : List Nat) : List Nat :=
  if flag = [] then l
  else
    match strstr flag l with
    | none => l
    | some i => l.take i ++ List.replicate (l.length - i) 32

/-- The allocation before the first data line, src/rfilter1/include/grules2.c:298-299. -/
def allocate (st : Rd) : Rd :=
  match st.alloc with
  | none => { st with alloc := some st.maxRules.toNat }
  | some _ => st

/-- Storing the rule, src/rfilter1/include/grules2.c:199-207: at entry nrules + 1 of the table. -/
def store (st : Rd) (r : Rule) : Out Rd :=
  if (st.rules.length : Int) < st.maxRules then
    if st.rules.length + 1 < st.alloc.getD 0 then .ok { st with rules := st.rules ++ [r] } else .oob
  else .err 31

/-- A data line, src/rfilter1/include/grules2.c:298-303 with `r_process_data_line`, 65-212.  In another format than NIST1 an
uninitialised rule is stored, whose source pointer the index building follows. -/
def dataLine (st : Rd) (l : List Nat) : Out Rd :=
  match parseRule l with
  | .err 1 => .err 1
  | .err e => if st.format = nist1 then .err e else .oob
  | .oob => .oob
  | .hang => .hang
  | .ok r => if st.format = nist1 then store st r else .oob

/-- A line of the rule file, src/rfilter1/include/grules2.c:289-309. -/
def ruleLine (flag : List Nat) (st : Rd) (raw : List Nat) : Out Rd :=
  if validData flag (rtrim raw) then
    if (rtrim raw).head? = some 42 then auxLine st (rtrim raw)
    else if st.maxRules < 0 ∧ st.alloc = none then .err 255
    else dataLine (allocate st) (removeComments flag (rtrim raw))
  else .ok st

/-- The lines of the rule file, src/rfilter1/include/grules2.c:288-309. -/
def ruleLines (flag : List Nat) : List (List Nat) → Rd → Out Rd
  | [], st => .ok st
  | raw :: rest, st =>
    match ruleLine flag st raw with
    | .ok st' => ruleLines flag rest st'
    | .err e => .err e
    | .oob => .oob
    | .hang => .hang

/-- The texts `fgets` with a buffer of `n` bytes finds in a file one after another. -/
def getLines (n : Nat) : Nat → List Nat → List (List Nat)
  | 0, _ => []
  | fuel + 1, s =>
    match fgets n s with
    | none => []
    | some (l, rest) => cstr l :: getLines n fuel rest

/-- `get_rules2`, src/rfilter1/include/grules2.c:239-360, for a file that can be opened.  Without any data line the table
is never allocated and line 314 writes through an uninitialised pointer.  A negative table size makes the allocation fail
(code 255 stands for the fatal error). -/
def getRules (file : List Nat) : Out RuleSet :=
  match getLines 132 file.length file with
  | [] => .err 12
  | l0 :: rest =>
    match ruleLines (commentFlag l0) rest rd0 with
    | .ok st =>
      if st.alloc = none then .oob
      else
        .ok ⟨st.format, st.copyNoHit, st.caseSensitive, st.rules, (buildIndex st.caseSensitive st.rules).order,
          (buildIndex st.caseSensitive st.rules).first, (buildIndex st.caseSensitive st.rules).last⟩
    | .err e => .err e
    | .oob => .oob
    | .hang => .hang

/-! ## The program -/

/-- The loop over the input, src/rfilter1/rfilter1.c:62-75: the output and the rules that fired.  For an empty text line 63
reads the byte before the buffer. -/
def filterLines (rs : RuleSet) : List (List Nat) → Out (List Nat × List Nat)
  | [] => .ok ([], [])
  | pa :: rest =>
    if pa = [] then .oob
    else
      match applyRules 100000 rs pa with
      | .ok (pb, fired) =>
        match filterLines rs rest with
        | .ok (out, more) => .ok (pb ++ out, fired ++ more)
        | .err e => .err e
        | .oob => .oob
        | .hang => .hang
      | .err _ => .err 4
      | .oob => .oob
      | .hang => .hang

/-- `main`, src/rfilter1/rfilter1.c:29-83, without debugging output: the exit code or the output. -/
def rfilter (file input : List Nat) : Out (List Nat × List Nat) :=
  match getRules file with
  | .ok rs => filterLines rs (getLines 100000 input.length input)
  | .err _ => .err 3
  | .oob => .oob
  | .hang => .hang

end Verif.Rfilter
