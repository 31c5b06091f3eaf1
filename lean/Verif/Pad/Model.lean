/-!
# Model of sclite's padding functions

src/sclite/pad.c.  Texts are lists of characters without the final NUL; a result `none` = a write outside of the buffer.
`int`s do not overflow.
-/
set_option autoImplicit false
namespace Verif.Pad

/-- A loop that writes `n` blanks (none when `n` is negative). -/
def blanks (n : Int) : List Char := List.replicate n.toNat ' '

/-- `center`, src/sclite/pad.c:86-109; the buffer has 2000 bytes.  `some none` = exit. -/
def center (str : List Char) (len : Int) : Option (Option (List Char)) :=
  if len ≥ 2000 then some none
  else
    let il : Int := str.length
    let ft := (len - il).tdiv 2
    let bk := len - (il + ft)
    let out := blanks ft ++ str ++ blanks bk
    if out.length + 1 > 2000 then none else some (some out)

/-- The loop of `strncpy_pad`, src/sclite/pad.c:117-122. -/
def padLoop (chr : Char) : Nat → List Char → List Char
  | 0, _ => []
  | n + 1, [] => chr :: padLoop chr n []
  | n + 1, c :: cs => c :: padLoop chr n cs

/-- `strncpy_pad`, src/sclite/pad.c:114-124, into a buffer of `cap` bytes. -/
def strncpyPad (cap : Nat) (src : List Char) (len max : Int) (chr : Char) : Option (List Char) :=
  let out := padLoop chr (min len (max - 1)).toNat src
  if out.length + 1 > cap then none else some out

/-- `set_pad_n`, src/sclite/pad.c:59-66. -/
def setPadN (cap : Nat) (n max : Int) : Option (List Char) :=
  let i := (min n (max - 1)).toNat
  if i + 1 > cap then none else some (List.replicate i ' ')

/-- The end of `set_pad` and `set_pad_cent_n`, src/sclite/pad.c:49-54, 74-79: `i` blanks are written, then the NUL goes on the last
of them. -/
def cutPad (cap : Nat) (len max : Int) : Option (List Char) :=
  let i := (min len (max - 1)).toNat
  if i > cap ∨ cap = 0 then none
  else if i > 0 then some (List.replicate (i - 1) ' ') else some []

/-- `set_pad`, src/sclite/pad.c:44-55.  `strlen` is unsigned (64 bits), and the difference wraps; halved and cut to an `int`
(32 bits) it is negative again when the text is longer than the line. -/
def setPad (width : Nat) (cap : Nat) (str : List Char) (max : Int) : Option (List Char) :=
  let u : Nat := (((width : Int) - str.length) % 2 ^ 64).toNat / 2
  let len : Int := (u : Int).bmod (2 ^ 32)
  cutPad cap len max

/-- `set_pad_cent_n`, src/sclite/pad.c:70-80. -/
def setPadCentN (width : Nat) (cap : Nat) (len max : Int) : Option (List Char) :=
  cutPad cap (((width : Int) - len).tdiv 2) max

end Verif.Pad
