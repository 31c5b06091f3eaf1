/-!
# Model of asclite tokens: cleaned text, equivalence, edit distance

src/asclite/core/token.cpp.  A string is a list of characters (bytes in the code).
-/
set_option autoImplicit false
namespace Verif.Token

/-- `FRAGMENT_MARKER`, src/asclite/core/token.cpp:29. -/
def fragmentMarker : Char := '-'
/-- `BEGIN_OPTIONAL_MARKER`, src/asclite/core/token.cpp:30. -/
def beginOptional : Char := '('
/-- `END_OPTIONAL_MARKER`, src/asclite/core/token.cpp:31. -/
def endOptional : Char := ')'

/-- Fragment status, src/asclite/core/token.h (`NOT_FRAGMENT`, `BEGIN_FRAGMENT`, `END_FRAGMENT`). -/
inductive Frag where
  | no | begin | fin
  deriving Repr, DecidableEq

/-- Settings read through the token's segment: `UseOptionallyDeletable`, `AreFragmentsCorrect`,
`PerformCaseSensitiveAlignment` (src/asclite/core/token.cpp:103, 119, 257). -/
structure Settings where
  optionally : Bool
  fragments : Bool
  caseSensitive : Bool
  deriving Repr, DecidableEq

/-- The members set by `UpdateCleanedUpTextIfNeeded`; `size` is a `size_t`, kept in `Int` here so that a wrap
below zero is visible. -/
structure Cleaned where
  start : Nat
  size : Int
  optional : Bool
  frag : Frag
  deriving Repr, DecidableEq

/-- `sourceText[k]` for a signed index: `none` is a read in front of the string (undefined behaviour); the
position just behind the end reads the terminating zero. -/
def charAt (s : List Char) (k : Int) : Option Char :=
  if k < 0 then none
  else if k.toNat < s.length then s[k.toNat]?
  else if k.toNat = s.length then some (Char.ofNat 0)
  else none

/-- First part of `UpdateCleanedUpTextIfNeeded` (optional marker), src/asclite/core/token.cpp:99-116. -/
def cleanOptional (st : Settings) (s : List Char) : Option (Nat × Int × Bool) :=
  if st.optionally then
    match charAt s 0, charAt s ((s.length : Int) - 1) with
    | some a, some b =>
      if a = beginOptional ∧ b = endOptional then some (1, (s.length : Int) - 2, true)
      else some (0, s.length, false)
    | _, _ => none
  else some (0, s.length, false)

/-- Second part (fragment markers), src/asclite/core/token.cpp:119-137.  The fragment member is taken to be
`NOT_FRAGMENT` before the call (its value in a new token); the code keeps an older value when a token's
text is replaced. -/
def cleanFragment (st : Settings) (s : List Char) (start : Nat) (size : Int) (opt : Bool) :
    Option Cleaned :=
  if st.fragments then
    match charAt s start with
    | none => none
    | some a =>
      let (start1, size1, f1) : Nat × Int × Frag :=
        if a = fragmentMarker then (start + 1, size - 1, .fin) else (start, size, .no)
      match charAt s (start1 + size1 - 1) with
      | none => none
      | some b =>
        if b = fragmentMarker then some ⟨start1, size1 - 1, opt, .begin⟩
        else some ⟨start1, size1, opt, f1⟩
  else some ⟨start, size, opt, .no⟩

/-- `UpdateCleanedUpTextIfNeeded`, src/asclite/core/token.cpp:97-139; `none` = read outside the string. -/
def clean (st : Settings) (s : List Char) : Option Cleaned :=
  match cleanOptional st s with
  | none => none
  | some (start, size, opt) => cleanFragment st s start size opt

/-- `sourceText.substr(start, size)`, src/asclite/core/token.cpp:204-208: a wrapped size takes everything up to
the end. -/
def Cleaned.text (c : Cleaned) (s : List Char) : List Char :=
  if c.size < 0 then s.drop c.start else (s.drop c.start).take c.size.toNat

/-- `tolower` in the C locale, src/asclite/core/token.cpp:219. -/
def lowerChar (c : Char) : Char :=
  if 'A' ≤ c ∧ c ≤ 'Z' then Char.ofNat (c.toNat + 32) else c

/-- The text compared: cleaned, lower-cased unless case sensitive
(src/asclite/core/token.cpp:257-266, 340-349). -/
def Cleaned.shown (st : Settings) (c : Cleaned) (s : List Char) : List Char :=
  if st.caseSensitive then c.text s else (c.text s).map lowerChar

/-- Does `sub` occur in `s` at position `i`? -/
def occursAt (s sub : List Char) (i : Nat) : Bool := i ≤ s.length && sub.isPrefixOf (s.drop i)

/-- `string::find(sub, pos)`: first position not before `pos`. -/
def find (s sub : List Char) (pos : Nat) : Option Nat :=
  ((List.range (s.length + 1)).filter (fun i => pos ≤ i)).find? (occursAt s sub)

/-- `s.find(sub, s.size() - sub.size()) != npos`; a wrapped difference lies behind the end of the string, where
`find` answers `npos` (src/asclite/core/token.cpp:284, 307, 315-317; lengths below 2^32). -/
def findTail (s sub : List Char) : Bool :=
  if s.length < sub.length then false else (find s sub (s.length - sub.length)).isSome

/-- The decision of `IsEquivalentTo` on the compared texts and fragment states,
src/asclite/core/token.cpp:268-324. -/
def equivTexts (fragments : Bool) (tok1 : List Char) (f1 : Frag) (tok2 : List Char) (f2 : Frag) : Bool :=
  if fragments then
    match f1, f2 with
    | .no, .no => tok1 == tok2
    | .no, .begin => find tok1 tok2 0 == some 0
    | .no, .fin => findTail tok1 tok2
    | .begin, .no => find tok2 tok1 0 == some 0
    | .begin, .begin => (find tok1 tok2 0).isSome || (find tok2 tok1 0).isSome
    | .begin, .fin => false
    | .fin, .no => findTail tok2 tok1
    | .fin, .begin => false
    | .fin, .fin => findTail tok1 tok2 || findTail tok2 tok1
  else tok1 == tok2

/-- `IsEquivalentTo` on two source texts, src/asclite/core/token.cpp:252-325; both tokens read the same
settings. -/
def isEquivalentTo (st : Settings) (s1 s2 : List Char) : Option Bool :=
  match clean st s1, clean st s2 with
  | some c1, some c2 =>
    some (equivTexts st.fragments (c1.shown st s1) c1.frag (c2.shown st s2) c2.frag)
  | _, _ => none

/-! ## Edit distance -/

/-- The heap array `d`: its size and contents, `none` = not yet written. -/
structure Mem where
  size : Nat
  cell : Nat → Option Nat

/-- Read; `none` = outside the array or uninitialised. -/
def Mem.read (m : Mem) (k : Nat) : Option Nat := if k < m.size then m.cell k else none

/-- Write; `none` = outside the array. -/
def Mem.write (m : Mem) (k v : Nat) : Option Mem :=
  if k < m.size then some { m with cell := fun x => if x = k then some v else m.cell x } else none

/-- `for k in ks: d[f k] = k`, src/asclite/core/token.cpp:360-364. -/
def initLoop (f : Nat → Nat) : List Nat → Mem → Option Mem
  | [], m => some m
  | k :: ks, m =>
    match m.write (f k) k with
    | none => none
    | some m' => initLoop f ks m'

variable {α : Type} [DecidableEq α]

/-- Inner loop over `j`, src/asclite/core/token.cpp:367-377; `n` is already incremented. -/
def innerLoop (s t : List α) (n i : Nat) : List Nat → Mem → Option Mem
  | [], m => some m
  | j :: js, m =>
    match s[i - 1]?, t[j - 1]? with
    | some a, some b =>
      let cost := if a = b then 0 else 1
      match m.read ((j - 1) * n + i), m.read (j * n + i - 1), m.read ((j - 1) * n + i - 1) with
      | some x, some y, some z =>
        match m.write (j * n + i) (min (min (x + 1) (y + 1)) (z + cost)) with
        | none => none
        | some m' => innerLoop s t n i js m'
      | _, _, _ => none
    | _, _ => none

/-- Outer loop over `i`, src/asclite/core/token.cpp:366. -/
def outerLoop (s t : List α) (n mm : Nat) : List Nat → Mem → Option Mem
  | [], m => some m
  | i :: is, m =>
    match innerLoop s t n i ((List.range mm).drop 1) m with
    | none => none
    | some m' => outerLoop s t n mm is m'

/-- `EditDistance` on the compared texts, src/asclite/core/token.cpp:351-388; `none` = undefined behaviour. -/
def editDistance (s t : List α) : Option Nat :=
  if s.length ≠ 0 ∧ t.length ≠ 0 then
    let n := s.length + 1
    let mm := t.length + 1
    match initLoop (fun k => k) (List.range n) ⟨mm * n, fun _ => none⟩ with
    | none => none
    | some m1 =>
      match initLoop (fun k => k * n) (List.range mm) m1 with
      | none => none
      | some m2 =>
        match outerLoop s t n mm ((List.range n).drop 1) m2 with
        | none => none
        | some m3 => m3.read (n * mm - 1)
  else some 0

end Verif.Token
