import Verif.Text.Spec
/-!
# Model of sclite's line reading and tokenising

Texts are lists of bytes without the terminating NUL, files are the list of bytes still to be read.
-/
set_option autoImplicit false
namespace Verif.Lines
open Verif.Text

/-! ## Reading lines -/

/-- The part of a buffer before the first NUL, and its length: `TEXT_strlen`, src/sclite/text.c:674-682. -/
def cstr (l : List Nat) : List Nat := l.takeWhile (· ≠ 0)

/-- The bytes `fgets` of the C library takes from the file when at most `n` fit: up to and including a newline. -/
def takeLine : Nat → List Nat → List Nat × List Nat
  | 0, s => ([], s)
  | _ + 1, [] => ([], [])
  | n + 1, c :: s => if c = 10 then ([c], s) else (c :: (takeLine n s).1, (takeLine n s).2)

/-- `fgets(arr, n, fp)` of the C library; `none` = NULL (end of file, nothing read). -/
def fgets (n : Nat) (s : List Nat) : Option (List Nat × List Nat) := if s = [] then none else some (takeLine (n - 1) s)

/-- Outcome of reading a line: the buffer's allocated size and its recorded size, the text in the buffer, the rest of the
file. -/
inductive Read where
  | eof
  | line (cap len : Nat) (l rest : List Nat)
  | undef
  deriving Repr, DecidableEq

/-- The loop of `TEXT_ensure_fgets`, src/sclite/text.c:1242-1256: `l` is the text in the buffer.  An empty text makes the
code read the byte before the buffer; the copy and the next `fgets` must fit the new allocation. -/
def growLoop : Nat → Nat → Nat → List Nat → List Nat → Read
  | 0, _, _, _, _ => .undef
  | fuel + 1, cap, len, l, rest =>
    if l = [] then .undef
    else if l.getLast? = some 10 then .line cap len l rest
    else if l.length < len - 1 then .line cap len l rest
    else if l.length + 1 ≤ len * 2 ∧ len - 1 + (len + 1) ≤ len * 2 then
      match fgets (len + 1) rest with
      | none => .line (len * 2) len l rest
      | some (m, rest') => growLoop fuel (len * 2) (len * 2) (cstr (l.take (len - 1) ++ m)) rest'
    else .undef

/-- `TEXT_ensure_fgets`, src/sclite/text.c:1235-1257, with a buffer of `cap` allocated bytes recorded as `len`. -/
def ensureFgets (cap len : Nat) (s : List Nat) : Read :=
  if cap < len then .undef
  else
    match fgets len s with
    | none => .eof
    | some (l, rest) => growLoop (s.length + 1) cap len (cstr l) rest

/-- Reading a file line by line as all callers do (e.g. src/sclite/text.c:1674, src/sclite/align.c:116); `none` =
undefined behaviour. -/
def readAll : Nat → Nat → Nat → List Nat → Option (List (List Nat))
  | 0, _, _, _ => none
  | fuel + 1, cap, len, s =>
    match ensureFgets cap len s with
    | .eof => some []
    | .undef => none
    | .line cap' len' l rest => (readAll fuel cap' len' rest).map (l :: ·)

/-! ## Fields -/

/-- `isspace` of the C library in the C locale; `VTisspace`, src/sclite/text.c:363. -/
def isSpace (b : Nat) : Bool := (9 ≤ b && b ≤ 13) || b = 32

/-- `TEXT_skip_wspace`, src/sclite/text.c:376-379; `none` = the code exits (broken UTF-8). -/
def skipWs (e : Enc) : List Nat → Option (List Nat)
  | [] => some []
  | b :: p =>
    match nbytes e b with
    | none => none
    | some _ => if isSpace b then skipWs e p else some (b :: p)

/-- `TEXT_strcspn`, src/sclite/text.c:1510-1535: the bytes before the first separator and the rest; `none` = exit or a
character cut off by the end of the text. -/
def cspn (e : Enc) (set : List Nat) : Nat → List Nat → Option (List Nat × List Nat)
  | _, [] => some ([], [])
  | 0, _ :: _ => none
  | fuel + 1, b :: p =>
    match nbytes e b with
    | none => none
    | some n =>
      if 1 < n then
        if n ≤ (b :: p).length then (cspn e set fuel ((b :: p).drop n)).map fun r => ((b :: p).take n ++ r.1, r.2) else none
      else if b ∈ set then some ([], b :: p)
      else (cspn e set fuel p).map fun r => (b :: r.1, r.2)

/-- The loop of `TEXT_nth_field`, src/sclite/text.c:1745-1748; its counter is never incremented. -/
def nthLoop (e : Enc) (field : Nat) : Nat → List Nat → Option (List Nat)
  | 0, _ => none
  | fuel + 1, p =>
    if 0 < field ∧ p ≠ [] then
      match cspn e [32, 9, 10] p.length p with
      | none => none
      | some (_, r) =>
        match skipWs e r with
        | none => none
        | some r' => nthLoop e field fuel r'
    else some p

/-- `TEXT_nth_field`, src/sclite/text.c:1738-1752: the text copied out (the size of the destination is not checked by the
code and not modelled). -/
def nthField (e : Enc) (p : List Nat) (field : Nat) : Option (List Nat) :=
  match skipWs e p with
  | none => none
  | some p1 =>
    match nthLoop e field (p1.length + 1) p1 with
    | none => none
    | some p2 => (cspn e [32, 9, 10] p2.length p2).map (·.1)

/-! ## strtok -/

/-- Skipping separators, src/sclite/text.c:942-946. -/
def skipSet (e : Enc) (set : List Nat) : Nat → List Nat → Option (List Nat)
  | _, [] => some []
  | 0, _ :: _ => none
  | fuel + 1, b :: p =>
    if b ∈ set then
      match nbytes e b with
      | none => none
      | some n => if n ≤ (b :: p).length then skipSet e set fuel ((b :: p).drop n) else none
    else some (b :: p)

/-- Scanning a token, src/sclite/text.c:950-966: the token and the text after its separator. -/
def scanTok (e : Enc) (set : List Nat) : Nat → List Nat → Option (List Nat × List Nat)
  | _, [] => some ([], [])
  | 0, _ :: _ => none
  | fuel + 1, b :: p =>
    match nbytes e b with
    | none => none
    | some n =>
      if n = 1 then
        if b ∈ set then some ([], p) else (scanTok e set fuel p).map fun r => (b :: r.1, r.2)
      else if n ≤ (b :: p).length then
        (scanTok e set fuel ((b :: p).drop n)).map fun r => ((b :: p).take n ++ r.1, r.2)
      else none

/-- `TEXT_strtok`, src/sclite/text.c:924-967: token (or NULL) and new base pointer; `base` is the static pointer, `arg` the
argument; outer `none` = exit or out of bounds. -/
def strtok (e : Enc) (set : List Nat) (base arg : Option (List Nat)) : Option (Option (List Nat) × Option (List Nat)) :=
  match arg.or base with
  | none => some (none, none)
  | some [] => some (none, some [])
  | some (b :: p) =>
    match skipSet e set (b :: p).length (b :: p) with
    | none => none
    | some [] => some (none, some [])
    | some (c :: q) =>
      match scanTok e set (c :: q).length (c :: q) with
      | none => none
      | some (t, r) => some (some t, some r)

/-- All tokens of a text: one call with the text, then calls with NULL until NULL is returned (as in
src/sclite/align.c:860-863). -/
def strtokAll (e : Enc) (set : List Nat) : Nat → Option (List Nat) → Option (List Nat) → Option (List (List Nat))
  | 0, _, _ => none
  | fuel + 1, base, arg =>
    match strtok e set base arg with
    | none => none
    | some (none, _) => some []
    | some (some t, base') => (strtokAll e set fuel base' none).map (t :: ·)

/-! ## First alternatives -/

/-- Static variables of `tokenize_TEXT_first_alt` and the base pointer of `TEXT_strtok`, src/sclite/text.c:1447-1448. -/
structure AltState where
  inAlt : Bool
  cnt : Nat
  base : Option (List Nat)
  deriving Repr, DecidableEq

/-- The loop of `tokenize_TEXT_first_alt`, src/sclite/text.c:1454-1478; 123, 125, 47 are `{`, `}`, `/`, 64 is `@`. -/
def altLoop (e : Enc) (set : List Nat) : Nat → Option (List Nat) → AltState → Option (Option (List Nat) × AltState)
  | 0, _, _ => none
  | _ + 1, none, st => some (none, st)
  | fuel + 1, some t, st =>
    let next := fun (st : AltState) =>
      match strtok e set st.base none with
      | none => none
      | some (t', base') => altLoop e set fuel t' { st with base := base' }
    if t.head? = some 123 then next { st with inAlt := true, cnt := 0 }
    else if t.head? = some 125 then next { st with inAlt := false }
    else
      let st' := if t.head? = some 47 then { st with cnt := st.cnt + 1 } else st
      if !st'.inAlt || st'.cnt = 0 then
        match strcmp e t [64] with
        | none => none
        | some r => if r ≠ 0 then some (some t, st') else next st'
      else next st'

/-- `tokenize_TEXT_first_alt`, src/sclite/text.c:1445-1481 (the warning is left out). -/
def firstAlt (e : Enc) (set : List Nat) (st : AltState) (arg : Option (List Nat)) : Option (Option (List Nat) × AltState) :=
  let st1 := if arg.isSome then { st with inAlt := false, cnt := 0 } else st
  match strtok e set st1.base arg with
  | none => none
  | some (t, base') =>
    altLoop e set ((arg.getD []).length + (st1.base.getD []).length + 2) t { st1 with base := base' }

/-- All tokens: one call with the text, then calls with NULL until NULL is returned (as in src/sclite/align.c:854-857). -/
def firstAltAll (e : Enc) (set : List Nat) : Nat → AltState → Option (List Nat) → Option (List (List Nat))
  | 0, _, _ => none
  | fuel + 1, st, arg =>
    match firstAlt e set st arg with
    | none => none
    | some (none, _) => some []
    | some (some t, st') => (firstAltAll e set fuel st' none).map (t :: ·)

/-! ## Quoted tokens -/

/-- `TEXT_strspn`, src/sclite/text.c:1484-1505: the rest after the leading separators. -/
def spn (e : Enc) (set : List Nat) : List Nat → Option (List Nat)
  | [] => some []
  | b :: p =>
    match nbytes e b with
    | none => none
    | some n => if 1 < n then some (b :: p) else if b ∈ set then spn e set p else some (b :: p)

/-- The text up to and including the next double quote (all of it if there is none), and the rest;
src/sclite/text.c:1589-1594. -/
def toQuote : List Nat → List Nat × List Nat
  | [] => ([], [])
  | b :: p => if b = 34 then ([b], p) else (b :: (toQuote p).1, (toQuote p).2)

/-- Locating the end of a token, src/sclite/text.c:1583-1600: the token and the rest beginning with the separator. -/
def qscan (e : Enc) (set : List Nat) : Nat → List Nat → Option (List Nat × List Nat)
  | _, [] => some ([], [])
  | 0, _ :: _ => none
  | fuel + 1, b :: p =>
    match nbytes e b with
    | none => none
    | some n =>
      if 1 < n then
        if n ≤ (b :: p).length then (qscan e set fuel ((b :: p).drop n)).map fun r => ((b :: p).take n ++ r.1, r.2) else none
      else if b = 34 then (qscan e set fuel (toQuote p).2).map fun r => (b :: (toQuote p).1 ++ r.1, r.2)
      else if b ∈ set then some ([], b :: p)
      else (qscan e set fuel p).map fun r => (b :: r.1, r.2)

/-- `TEXT_strqtok`, src/sclite/text.c:1540-1608: token (or NULL) and the new static text (`none` = freed).  The private
copy of the text is always long enough (1562-1568) and not modelled. -/
def strqtok (e : Enc) (set : List Nat) (data arg : Option (List Nat)) : Option (Option (List Nat) × Option (List Nat)) :=
  match arg.or data with
  | none => some (none, none)
  | some p =>
    match spn e set p with
    | none => none
    | some [] => some (none, none)
    | some (c :: q) =>
      match qscan e set (c :: q).length (c :: q) with
      | none => none
      | some (t, r) => some (some t, some (r.drop 1))

/-- All tokens: one call with the text, then calls with NULL until NULL is returned (src/sclite/scores.c:584-744). -/
def strqtokAll (e : Enc) (set : List Nat) : Nat → Option (List Nat) → Option (List Nat) → Option (List (List Nat))
  | 0, _, _ => none
  | fuel + 1, data, arg =>
    match strqtok e set data arg with
    | none => none
    | some (none, _) => some []
    | some (some t, data') => (strqtokAll e set fuel data' none).map (t :: ·)

end Verif.Lines
