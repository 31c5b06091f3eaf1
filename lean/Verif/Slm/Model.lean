/-!
# Tables and files of language models (src/sclite/slm_v2/src)

Short indices, the table of counts, alphas in two bytes, and the merging of files of n-grams. Integers do not overflow; logarithms of alphas are whole numbers
of some unit. Not modelled: reading and writing of files, byte orders.
-/
set_option autoImplicit false
namespace Verif.Slm

/-! ## Short indices -/

/-- `KEY`: src/sclite/slm_v2/src/ngram.h 45. -/
def key : Nat := 65000

/-- `new_index`: the table afterwards and the short index: src/sclite/slm_v2/src/short_indices.c 47-60. -/
def newIndex (tab : List Nat) (pos full : Nat) : List Nat × Nat :=
  (if decide ((full : Int) - ((tab.length : Int) - 1) * (key : Int) ≥ (key : Int)) then tab ++ [pos] else tab, full % key)

/-- Calls of `new_index` one after the other, as when a model is made: src/sclite/slm_v2/src/idngram2lm.c 747, 941-943. -/
def store : List Nat → List (Nat × Nat) → List Nat × List Nat
  | tab, [] => (tab, [])
  | tab, (pos, full) :: ps =>
    let (tab, short) := newIndex tab pos full
    let (tab, shorts) := store tab ps
    (tab, short :: shorts)

/-- The loop of `get_full_index`, `none` if it takes more steps than the first argument: src/sclite/slm_v2/src/short_indices.c 84-92. -/
def search (tab : List Nat) (pos : Nat) : Nat → Nat → Nat → Option Nat
  | 0, _, _ => none
  | f + 1, lower, upper =>
    if decide (1 < upper - lower) then
      let m := (upper + lower) / 2
      if decide (pos < (tab[m]?).getD 0) then search tab pos f lower m else search tab pos f m upper
    else some lower

/-- `get_full_index`: src/sclite/slm_v2/src/short_indices.c 62-100. -/
def fullIndex (tab : List Nat) (short pos : Nat) : Option Nat :=
  if tab.isEmpty then some short
  else
    let upper := tab.length - 1
    let lower := if decide ((tab[upper]?).getD 0 ≤ pos) then upper else 0
    (search tab pos (tab.length + 1) lower upper).map (fun l => l * key + short)

/-! ## The table of counts -/

/-- The loop of `lookup_index_of`: src/sclite/slm_v2/src/lookup_index_of.c 39-45. -/
def scan (tab : List Int) (v : Int) : Nat → Option (List Int × Nat)
  | 0 => none
  | i + 1 =>
    if tab[i]? == some v then some (tab, i)
    else if tab[i]? == some 0 then some (tab.set i v, i)
    else scan tab v i

/-- `lookup_index_of`: the table afterwards and the index, or `none` where the program ends: src/sclite/slm_v2/src/lookup_index_of.c 28-53. -/
def indexOf (tab : List Int) (v : Int) : Option (List Int × Nat) :=
  if decide (0 < v) && decide (v < (tab.length : Int)) && tab[v.toNat]? == some v then some (tab, v.toNat)
  else if decide (0 < v) && decide (v < (tab.length : Int)) && tab[v.toNat]? == some 0 then some (tab.set v.toNat v, v.toNat)
  else scan tab v tab.length

/-- Calls of `lookup_index_of` one after the other: src/sclite/slm_v2/src/counts.c 37. -/
def indices : List Int → List Int → Option (List Int × List Nat)
  | tab, [] => some (tab, [])
  | tab, v :: vs =>
    match indexOf tab v with
    | none => none
    | some (tab, i) => (indices tab vs).map (fun r => (r.1, i :: r.2))

/-! ## Alphas in two bytes -/

/-- `short_alpha` for the logarithm `x`: the array afterwards and the short value, or `none` where the program ends:
src/sclite/slm_v2/src/two_byte_alphas.c 41-88. -/
def shortAlpha (els : Nat) (lo hi : Int) (arr : List Int) (x : Int) : Option (List Int × Nat) :=
  if decide (lo ≤ x) && decide (x ≤ hi) then some (arr, ((els : Int) * (x - lo) / (hi - lo)).toNat)
  else
    match arr.findIdx? (fun y => y == x) with
    | some i => some (arr, els + i)
    | none => if decide (65535 ≤ els + arr.length) then none else some (arr ++ [x], els + (arr.length + 1))

/-- What `double_alpha` gives: `number` of the range times the number of elements, an element of the array, the end of the program, or an element of the
array that has not been set: src/sclite/slm_v2/src/two_byte_alphas.c 101-110. -/
inductive Alpha where
  | number (scaled : Int)
  | kept (x : Int)
  | quit
  | unset
  deriving DecidableEq

/-- `double_alpha`: src/sclite/slm_v2/src/two_byte_alphas.c 90-114. -/
def longAlpha (els : Nat) (lo hi : Int) (arr : List Int) (s : Nat) : Alpha :=
  if decide (els + arr.length < s) then .quit
  else if decide (els < s) then
    match arr[s - els]? with
    | some x => .kept x
    | none => .unset
  else .number ((els : Int) * lo + (s : Int) * (hi - lo))

/-! ## Merging -/

/-- An n-gram with its count: src/sclite/slm_v2/src/mergeidngram.c 28-32. -/
abbrev File := List (List Nat × Int)

/-- `cmp_ngram`, for n-grams of the same length: src/sclite/slm_v2/src/mergeidngram.c 135-148. -/
def cmp : List Nat → List Nat → Ordering
  | a :: s, b :: t => if a < b then .lt else if b < a then .gt else cmp s t
  | _, _ => .eq

/-- `MAX_VOCAB_SIZE` for all words: src/sclite/slm_v2/src/mergeidngram.c 195-196, toolkit.h 27. -/
def largest (n : Nat) : List Nat := List.replicate n 65535

/-- The smallest n-gram at the head of a file: src/sclite/slm_v2/src/mergeidngram.c 199-205. -/
def smallest : List Nat → List File → List Nat
  | o, [] => o
  | o, [] :: fs => smallest o fs
  | o, ((g, _) :: _) :: fs => smallest (if cmp o g == .gt then g else o) fs

/-- A file after a round: src/sclite/slm_v2/src/mergeidngram.c 209-213. -/
def pop (o : List Nat) : File → File
  | [] => []
  | (g, c) :: r => if cmp o g == .eq then r else (g, c) :: r

/-- What a file adds to the count: src/sclite/slm_v2/src/mergeidngram.c 211-212. -/
def took (o : List Nat) : File → Int
  | [] => 0
  | (g, c) :: _ => if cmp o g == .eq then c else 0

/-- The sum of the counts of a round: src/sclite/slm_v2/src/mergeidngram.c 207-212. -/
def sum (o : List Nat) : List File → Int
  | [] => 0
  | f :: fs => took o f + sum o fs

/-- A file has come to its end in this round: src/sclite/slm_v2/src/mergeidngram.c 213-215. -/
def ended (o : List Nat) (f : File) : Bool := !f.isEmpty && (pop o f).isEmpty

/-- The rounds, `none` if there are more than the first argument; the end is only looked for when a file ends:
src/sclite/slm_v2/src/mergeidngram.c 191-227. -/
def merge (n : Nat) : Nat → List File → Option File
  | 0, _ => none
  | k + 1, fs =>
    let o := smallest (largest n) fs
    let fs' := fs.map (pop o)
    if fs.any (ended o) && fs'.all List.isEmpty then some [(o, sum o fs)]
    else (merge n k fs').map (fun r => (o, sum o fs) :: r)

end Verif.Slm
