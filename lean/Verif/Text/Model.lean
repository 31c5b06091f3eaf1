import Verif.Text.Tables
/-!
# Model of sclite's text primitives

Texts are lists of bytes without the terminating NUL; bytes are natural numbers below 256.
-/
set_option autoImplicit false
namespace Verif.Text

/-- `TEXT_ENCODINGS`, src/sclite/text.h:16. -/
inductive Enc where
  | ascii | extAscii | gb | utf8
  deriving Repr, DecidableEq

/-- `TEXT_nbytes_of_char`, src/sclite/text.c:462-491; `none` = the code exits. -/
def nbytes (e : Enc) (b : Nat) : Option Nat :=
  match e with
  | .ascii => some 1
  | .extAscii => some 1
  | .gb => if b &&& 0x80 = 0 then some 1 else some 2
  | .utf8 =>
    if b &&& 0x80 = 0 then some 1
    else if b &&& 0xE0 = 0xC0 then some 2
    else if b &&& 0xF0 = 0xE0 then some 3
    else if b &&& 0xF8 = 0xF0 then some 4
    else if b &&& 0xFC = 0xF8 then some 5
    else if b &&& 0xFE = 0xFC then some 6
    else none

/-! ## Comparison -/

/-- Result of comparing the bytes of one character: a difference, or the rests, or a read past a terminator. -/
inductive ByteCmp where
  | differ (r : Int)
  | same (p q : List Nat)
  | overrun

/-- The loop over the bytes of a character, src/sclite/text.c:787-799.  The byte after the text is its terminator 0; two
equal terminators inside a character send both pointers past the texts. -/
def cmpBytes : Nat → List Nat → List Nat → ByteCmp
  | 0, p, q => .same p q
  | n + 1, x :: p, y :: q => if x ≠ y then .differ (if x < y then -1 else 1) else cmpBytes n p q
  | _ + 1, [], y :: _ => if 0 ≠ y then .differ (-1) else .overrun
  | _ + 1, x :: _, [] => if x ≠ 0 then .differ 1 else .overrun
  | _ + 1, [], [] => .overrun

/-- The loop of `TEXT_strcmp_master`, src/sclite/text.c:780-803, comparing at most `lim` characters (`none` = all; as in
the code, at least one); `none` = exit or out-of-bounds read.  The fuel is the length of the first text plus one. -/
def cmpLoop (e : Enc) : Nat → Option Nat → List Nat → List Nat → Option Int
  | 0, _, _, _ => none
  | _ + 1, _, [], [] => some 0
  | _ + 1, _, _ :: _, [] => some 1
  | _ + 1, _, [], _ :: _ => some (-1)
  | fuel + 1, lim, x :: p, y :: q =>
    match nbytes e x, nbytes e y with
    | some c1, some c2 =>
      if c1 ≠ c2 then some (if c1 < c2 then -1 else 1)
      else
        match cmpBytes c1 (x :: p) (y :: q) with
        | .differ r => some r
        | .overrun => none
        | .same p' q' =>
          match lim with
          | none => cmpLoop e fuel none p' q'
          | some n => if 1 < n then cmpLoop e fuel (some (n - 1)) p' q' else some 0
    | _, _ => none

/-- `TEXT_strcmp`, src/sclite/text.c:872-874. -/
def strcmp (e : Enc) (p q : List Nat) : Option Int := cmpLoop e (p.length + 1) none p q

/-- `TEXT_strCcmp`, src/sclite/text.c:863-865. -/
def strCcmp (e : Enc) (n : Nat) (p q : List Nat) : Option Int := cmpLoop e (p.length + 1) (some n) p q

/-- `TEXT_strBcmp`, src/sclite/text.c:867-869, i.e. `strncmp`. -/
def strBcmp : Nat → List Nat → List Nat → Int
  | 0, _, _ => 0
  | _ + 1, [], [] => 0
  | _ + 1, [], _ :: _ => -1
  | _ + 1, _ :: _, [] => 1
  | n + 1, x :: p, y :: q => if x < y then -1 else if y < x then 1 else strBcmp n p q

/-! ## UTF-8 -/

/-- `TEXT_getUTFCodePoint`, src/sclite/text.c:976-1008; `none` = the code exits or reads past the terminator.  (For a
character cut off by the terminator the code reads the terminator; here that is `none`.) -/
def decode (p : List Nat) : Option Nat :=
  match p with
  | [] => some 0
  | b :: rest =>
    match nbytes .utf8 b, rest with
    | some 1, _ => some b
    | some 2, b1 :: _ => some (((b &&& 0x1F) <<< 6) + (b1 &&& 0x3F))
    | some 3, b1 :: b2 :: _ => some (((b &&& 0xF) <<< 12) + ((b1 &&& 0x3F) <<< 6) + (b2 &&& 0x3F))
    | some 4, b1 :: b2 :: b3 :: _ =>
      some (((b &&& 0x7) <<< 18) + ((b1 &&& 0x3F) <<< 12) + ((b2 &&& 0x3F) <<< 6) + (b3 &&& 0x3F))
    | some 5, b1 :: b2 :: b3 :: b4 :: _ =>
      some (((b &&& 0x3) <<< 24) + ((b1 &&& 0x3F) <<< 18) + ((b2 &&& 0x3F) <<< 12) + ((b3 &&& 0x3F) <<< 6) + (b4 &&& 0x3F))
    | _, _ => none

/-- `TEXT_UTFCodePointToTEXT`, src/sclite/text.c:1012-1037, for code points that are not negative; `none` = the code
exits. -/
def encode (c : Nat) : Option (List Nat) :=
  if c < 0x80 then some [c]
  else if c < 0x800 then some [(192 + c / 64) % 256, (128 + c % 64) % 256]
  else if c < 0x10000 then some [(224 + c / 4096) % 256, (128 + c / 64 % 64) % 256, (128 + c % 64) % 256]
  else if c < 0x20000 then
    some [(240 + c / 262144) % 256, (128 + c / 4096 % 64) % 256, (128 + c / 64 % 64) % 256, (128 + c % 64) % 256]
  else none

/-! ## Case conversion -/

/-- `tolower` / `toupper` of the C library in the C locale. -/
def cCase (low : Bool) (b : Nat) : Nat :=
  if low then if 65 ≤ b ∧ b ≤ 90 then b + 32 else b
  else if 97 ≤ b ∧ b ≤ 122 then b - 32 else b

/-- `getKnownUFTCaseCP`, src/sclite/text.c:1039-1107, for the table of the selected profile; `none` = -1. -/
def known (low : Bool) (cp : Nat) : List (Nat × Nat) → Option Nat
  | [] => none
  | (u, l) :: t => if (if low then u else l) = cp then some (if low then l else u) else known low cp t

/-- Conversion of one character, src/sclite/text.c:1129-1162; `ch` is the character's bytes. -/
def caseChar (e : Enc) (tbl : List (Nat × Nat)) (low : Bool) (ch : List Nat) : Option (List Nat) :=
  match e, ch with
  | _, [] => none
  | .gb, b :: rest => if rest = [] then some [cCase low b] else some (b :: rest)
  | .ascii, b :: rest => some (cCase low b :: rest)
  | .extAscii, b :: rest =>
    if b &&& 0x80 ≠ 0 then
      if low then some ((if 192 ≤ b ∧ b ≤ 223 then b + 32 else b) :: rest)
      else some ((if 224 ≤ b then b - 32 else b) :: rest)
    else some (cCase low b :: rest)
  | .utf8, b :: rest =>
    match decode (b :: rest) with
    | none => none
    | some cp =>
      match known low cp tbl with
      | some o => if o > 0 then encode o else if rest = [] then some [cCase low b] else some (b :: rest)
      | none => if rest = [] then some [cCase low b] else some (b :: rest)

/-- The static buffer of `TEXT_str_to_master` when one more character is stored, src/sclite/text.c:1164-1172: new size,
or `none` if character and terminator do not fit (a heap overrun). -/
def store (size len c2 : Nat) : Option Nat :=
  let size' := if len + c2 + 1 > size then size * 3 / 2 else size
  if len + c2 + 1 ≤ size' then some size' else none

/-- The conversion loop of `TEXT_str_to_master`, src/sclite/text.c:1126-1177: `size` of the static buffer, converted text
`acc`; the fuel is the length of the text.  `none` = exit, cut off character or overrun. -/
def caseLoop (e : Enc) (tbl : List (Nat × Nat)) (low : Bool) : Nat → Nat → List Nat → List Nat → Option (List Nat × Nat)
  | _, size, acc, [] => some (acc, size)
  | 0, _, _, _ :: _ => none
  | fuel + 1, size, acc, b :: p =>
    match nbytes e b with
    | none => none
    | some n =>
      if n ≤ (b :: p).length then
        match caseChar e tbl low ((b :: p).take n) with
        | none => none
        | some ch =>
          match store size acc.length ch.length with
          | none => none
          | some size' => caseLoop e tbl low fuel size' (acc ++ ch) ((b :: p).drop n)
      else none

/-- `TEXT_chrlen`, src/sclite/text.c:686-693; `none` = exit or cut off character. -/
def chrlen (e : Enc) : Nat → List Nat → Option Nat
  | _, [] => some 0
  | 0, _ :: _ => none
  | fuel + 1, b :: p =>
    match nbytes e b with
    | none => none
    | some n => if n ≤ (b :: p).length then (chrlen e fuel ((b :: p).drop n)).map (· + 1) else none

/-- `TEXT_str_to_master`, src/sclite/text.c:1110-1180: converts a text, given the size of the static buffer (`none` = not
allocated yet); returns the converted text and the new size. -/
def caseText (e : Enc) (tbl : List (Nat × Nat)) (low : Bool) (size : Option Nat) (p : List Nat) :
    Option (List Nat × Nat) :=
  match (match size with
    | some s => some s
    | none => (chrlen e p.length p).map fun n => if n + 1 < 5 then 5 else n + 1) with
  | none => none
  | some s => caseLoop e tbl low p.length s [] p

/-- `TEXT_strcasecmp`, src/sclite/text.c:858-860 and 758-803: both texts are converted to lower case, then compared. -/
def strcasecmp (e : Enc) (tbl : List (Nat × Nat)) (size : Option Nat) (p q : List Nat) : Option (Int × Nat) :=
  match caseText e tbl true size p with
  | none => none
  | some (p', s1) =>
    match caseText e tbl true (some s1) q with
    | none => none
    | some (q', s2) => (strcmp e p' q').map fun r => (r, s2)

/-! ## Word lists and word equality -/

/-- `bsearch` of the C library as used by `in_TEXT_LIST`, src/sclite/text.c:1714-1727: index range `[l, u)`. -/
def bsearch (e : Enc) (key : List Nat) (elems : List (List Nat)) : Nat → Nat → Nat → Option (Option Nat)
  | 0, l, u => if l < u then none else some none
  | fuel + 1, l, u =>
    if l < u then
      let i := (l + u) / 2
      match elems[i]? with
      | none => none
      | some x =>
        match strcmp e key x with
        | none => none
        | some r =>
          if r < 0 then bsearch e key elems fuel l i
          else if r > 0 then bsearch e key elems fuel (i + 1) u
          else some (some i)
    else some none

/-- `in_TEXT_LIST`, src/sclite/text.c:1714-1727; outer `none` = undefined, inner `none` = -1. -/
def inTextList (e : Enc) (elems : List (List Nat)) (key : List Nat) : Option (Option Nat) :=
  bsearch e key elems elems.length 0 elems.length

/-- The fields of `WORD` (src/sclite/word.h) read by `equal_WORD2`. -/
structure Word where
  value : List Nat
  intern : List Nat
  optDel : Bool
  fragCorr : Bool
  deriving Repr, DecidableEq

/-- The text compared, src/sclite/word.c:383-384. -/
def Word.text (w : Word) : List Nat := if w.optDel then w.intern else w.value

/-- `equal_WORD2`, src/sclite/word.c:373-407, for two words; 0 = equal, `none` = undefined: with fragments the byte before
an empty text is read. -/
def equalWord (e : Enc) (w1 w2 : Word) : Option Int :=
  let t1 := w1.text
  let t2 := w2.text
  let l1 := t1.length
  let l2 := t2.length
  if w1.fragCorr || w2.fragCorr then
    if t1.head? = some 45 ∧ l1 > 1 then
      if l2 < l1 - 1 then some 1
      else some (strBcmp (l1 - 1) (t1.drop 1) (t2.drop (l2 - (l1 - 1))))
    else if l1 = 0 then none
    else if t1.getLast? = some 45 ∧ l1 > 1 then some (strBcmp (l1 - 1) t1 t2)
    else if t2.head? = some 45 ∧ l2 > 1 then
      if l1 < l2 - 1 then some (-1)
      else some (strBcmp (l2 - 1) (t1.drop (l1 - (l2 - 1))) (t2.drop 1))
    else if l2 = 0 then none
    else if t2.getLast? = some 45 ∧ l2 > 1 then some (strBcmp (l2 - 1) t1 t2)
    else strcmp e t1 t2
  else strcmp e t1 t2

/-- `decode_opt_del`, src/sclite/align.c:752-765; 40 and 41 are the parentheses.  For an empty value the byte before it is
read: `none`.  For the value `(` or `)` alone the tests cannot both hold. -/
def decodeOptDel (w : Word) : Option Word :=
  match w.value with
  | [] => none
  | b :: rest =>
    if (b :: rest).getLast? = some 41 ∧ b = 40 then
      some { w with optDel := true, intern := ((b :: rest).drop 1).take ((b :: rest).length - 2) }
    else some w

end Verif.Text
