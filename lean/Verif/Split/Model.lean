import Verif.Text.Model
/-!
# Model of splitting words into characters and of the escaped parts of a word

Texts are lists of bytes without the terminating NUL, see `Verif.Text.Model`.
-/
set_option autoImplicit false
namespace Verif.Split
open Verif.Text

/-! ## Separating characters -/

/-- `is_ASCII`, src/sclite/text.c:356-358: every byte when the encoding is ASCII or extended ASCII. -/
def isAscii (e : Enc) (b : Nat) : Bool :=
  match e with
  | .ascii => true
  | .extAscii => true
  | _ => b &&& 0x80 = 0

/-- The flags of a call of `TEXT_separate_chars`, src/sclite/text.c:546-549 and 571: language profile Guarani,
`CALI_NOASCII`, `CALI_DELHYPHEN`. -/
structure Flags where
  guarani : Bool
  noAscii : Bool
  delHyphen : Bool

/-- The local state of `TEXT_separate_chars`, src/sclite/text.c:546-558: the bytes stored so far (`tp - *to` is their
number), the size of the buffer, and the two memories about the previous character. -/
structure St where
  out : List Nat
  size : Nat
  lastAscii : Bool
  lastSpace : Bool

/-- Storing bytes and the terminator; `none` = a write past the buffer. -/
def put (st : St) (size : Nat) (bs : List Nat) (lastAscii lastSpace : Bool) : Option St :=
  if st.out.length + bs.length + 1 ≤ size then some ⟨st.out ++ bs, size, lastAscii, lastSpace⟩ else none

/-- One iteration of the loop, src/sclite/text.c:559-630, on the text `b :: rest`: the new state and the rest.  `none` = the
code exits, a character is cut off by the terminator, or the buffer is overrun.  For the Guarani letter in a one-byte
encoding the code copies two bytes but advances by three, leaving a terminator inside the result; that is `none` too. -/
def step (e : Enc) (f : Flags) (st : St) (b : Nat) (rest : List Nat) : Option (St × List Nat) :=
  match nbytes e b with
  | none => none
  | some cs =>
    if cs ≤ (b :: rest).length then
      let size := if st.out.length + cs + 4 > st.size then st.size * 2 else st.size
      let isHyphen := cs = 1 ∧ b = 45
      let isSpace : Bool := cs = 1 ∧ b = 32
      let ch := (b :: rest).take cs
      if f.guarani ∧ (b = 71 ∨ b = 103) ∧ rest.take 2 = [0xCC, 0x83] then
        if e = .ascii ∨ e = .extAscii then none
        else
          (put st size ((if st.lastSpace then [] else [32]) ++ (b :: rest).take 3) false false).map
            fun st' => (st', (b :: rest).drop 3)
      else if f.delHyphen ∧ isHyphen then some ({ st with size := size }, (b :: rest).drop cs)
      else if st.out = [] then (put st size ch (isAscii e b) isSpace).map fun st' => (st', (b :: rest).drop cs)
      else
        let blank := if st.lastSpace then [] else if isSpace then []
          else if f.noAscii ∧ isAscii e b ∧ st.lastAscii then [] else [32]
        (put st size (blank ++ ch) (isAscii e b) isSpace).map fun st' => (st', (b :: rest).drop cs)
    else none

/-- The loop of `TEXT_separate_chars`, src/sclite/text.c:559-631; the fuel is the length of the text. -/
def loop (e : Enc) (f : Flags) : Nat → St → List Nat → Option St
  | _, st, [] => some st
  | 0, _, _ :: _ => none
  | fuel + 1, st, b :: rest =>
    match step e f st b rest with
    | none => none
    | some (st', rest') => loop e f fuel st' rest'

/-- `TEXT_separate_chars`, src/sclite/text.c:546-632: the separated text and the new size of the buffer. -/
def separate (e : Enc) (f : Flags) (size : Nat) (p : List Nat) : Option (List Nat × Nat) :=
  (loop e f p.length ⟨[], size, false, true⟩ p).map fun st => (st.out, st.size)

/-! ## Escaped parts of a word -/

/-- `TEXT_strcpy_escaped`, src/sclite/text.c:640-650. -/
def escape (chr : Nat) : List Nat → List Nat
  | [] => []
  | b :: p => if b = chr then 92 :: b :: escape chr p else b :: escape chr p

/-- `TEXT_strBdup_noEscape`, src/sclite/text.c:718-735, of a whole text: every backslash is dropped. -/
def unescape (p : List Nat) : List Nat := p.filter (· ≠ 92)

/-- `TEXT_strstr` for the one-character text ";", src/sclite/text.c:653-673: the bytes before the first character that is a
semicolon, and the text from there; `some none` = not found, `none` = exit or cut off character.  Simplified: the code
compares without regard to case, converting the whole rest of the text at every position; no other character becomes a
semicolon by case conversion. -/
def strstr (e : Enc) : Nat → List Nat → Option (Option (List Nat × List Nat))
  | _, [] => some none
  | 0, _ :: _ => none
  | fuel + 1, b :: p =>
    match nbytes e b with
    | none => none
    | some n =>
      if n ≤ (b :: p).length then
        if (b :: p).take n = [59] then some (some ([], b :: p))
        else (strstr e fuel ((b :: p).drop n)).map (·.map fun r => ((b :: p).take n ++ r.1, r.2))
      else none

/-- `nextColon`, src/sclite/word.c:238-258: the bytes before the next separator that is not escaped, and the text from
there.  `prev` is the byte in front of the text, `none` if that is outside of the text's memory; reading it then is
`none`. -/
def nextColon (e : Enc) : Nat → Option Nat → List Nat → Option (List Nat × List Nat)
  | 0, _, _ => none
  | fuel + 1, prev, p =>
    match strstr e p.length p with
    | none => none
    | some none => some (p, [])
    | some (some (pre, rest)) =>
      match pre.getLast?.or prev with
      | none => none
      | some c =>
        if c = 92 then (nextColon e fuel (rest.head?) (rest.drop 1)).map fun r => (pre ++ rest.take 1 ++ r.1, r.2)
        else some (pre, rest)

/-- The text parts of a `WORD`, src/sclite/word.h:5-24. -/
structure Parts where
  value : List Nat
  tag1 : Option (List Nat)
  tag2 : Option (List Nat)
  deriving Repr, DecidableEq

/-- `new_WORD`, src/sclite/word.c:297-325, the texts: one asterisk at the end of the value is dropped. -/
def newWord (value : List Nat) (tag1 tag2 : Option (List Nat)) : Parts :=
  if 1 < value.length ∧ value.getLast? = some 42 then ⟨value.dropLast, tag1, tag2⟩ else ⟨value, tag1, tag2⟩

/-- `new_WORD_parseText`, src/sclite/word.c:261-295; `none` = exit or out-of-bounds read. -/
def parseText (e : Enc) (t : List Nat) : Option Parts :=
  if t.head? = some 123 then some (newWord t none none)
  else
    match nextColon e (t.length + 1) none t with
    | none => none
    | some (v, []) => some (newWord (unescape v) none none)
    | some (v, c :: r1) =>
      match nextColon e (r1.length + 1) (some c) r1 with
      | none => none
      | some (t1, []) => some (newWord (unescape v) (some (unescape t1)) none)
      | some (t1, c' :: r2) =>
        match nextColon e (r2.length + 1) (some c') r2 with
        | none => none
        | some (t2, _) => some (newWord (unescape v) (some (unescape t1)) (some (unescape t2)))

/-- `formatWordForSGML`, src/sclite/scores.c:139-152, without the caller's buffers of 1000 bytes. -/
def format (w : Parts) : List Nat :=
  if w.tag1 = none ∧ w.tag2 = none then escape 59 w.value
  else escape 59 w.value ++ 59 :: escape 59 (w.tag1.getD []) ++ 59 :: escape 59 (w.tag2.getD [])

end Verif.Split
