import Verif.TextVal.Model
/-!
# The hash table of words (src/sclite/slm_v2/src/rr_libs/sih.c)

Strings are lists of characters without the terminating null. The rates are fractions and are compared exactly (double in the code); integers do not
overflow. The hash function is a parameter. Not modelled: warnings, version of files, allocation, that the table keeps pointers to the strings of the caller.
-/
set_option autoImplicit false
namespace Verif.Sih
open Verif.TextVal (space)

/-! ## Sizes -/

/-- The loop over `div`: src/sclite/slm_v2/src/rr_libs/sih.c 51-58. -/
def hasDivisor (n : Nat) : Bool := (List.range (n / 3 + 1)).any (fun d => decide (3 ≤ d) && n / d * d == n)

/-- The loop over `num`, `none` if it takes more steps than the first argument: src/sclite/slm_v2/src/rr_libs/sih.c 50-61. -/
def search : Nat → Nat → Option Nat
  | 0, _ => none
  | f + 1, n => if hasDivisor n then search f (n + 2) else some n

/-- More steps than are ever needed, see `nearest_prime`; not in the code. -/
def fact : Nat → Nat
  | 0 => 1
  | n + 1 => (n + 1) * fact n

/-- `nearest_prime_up`: src/sclite/slm_v2/src/rr_libs/sih.c 45-62. -/
def nearestPrime (n : Nat) : Option Nat := search (fact n + 2) (if n / 2 * 2 == n then n + 1 else n)

/-! ## The table -/

/-- `sih_slot_t`: src/sclite/slm_v2/src/rr_libs/sih.h 25-28. -/
structure Slot where
  str : Option (List Char)
  val : Int
  deriving DecidableEq

/-- `sih_t`, with the rates `on / od` and `gn / gd`; `nslots` is the length of `slots`: src/sclite/slm_v2/src/rr_libs/sih.h 31-38. -/
structure Table where
  on : Nat
  od : Nat
  gn : Nat
  gd : Nat
  nentries : Nat
  slots : List Slot
  deriving DecidableEq

/-- `rr_calloc`: src/sclite/slm_v2/src/rr_libs/sih.c 81, 106. -/
def fresh (n : Nat) : List Slot := List.replicate n ⟨none, 0⟩

/-- `sih_create`; `none` where the program ends because of the rates: src/sclite/slm_v2/src/rr_libs/sih.c 65-83. -/
def create (size : Int) (on od gn gd : Nat) : Option Table :=
  match nearestPrime (max size 11).toNat with
  | none => none
  | some n =>
    if decide (100 * on < od) || decide (99 * od < 100 * on) then none
    else if decide (10 * gn < 11 * gd) || decide (100 * gd < gn) then none
    else some ⟨on, od, gn, gd, 0, fresh n⟩

/-- The loop over `key`: where it stops, at an empty slot or the string, or `none` if it does not stop within the steps of the first argument:
src/sclite/slm_v2/src/rr_libs/sih.c 117-137, 150-163. -/
def find (slots : List Slot) (s : List Char) : Nat → Nat → Option Nat
  | 0, _ => none
  | f + 1, key =>
    let key := key % slots.length
    match slots[key]? with
    | none => none
    | some x =>
      match x.str with
      | none => some key
      | some t => if t == s then some key else find slots s f (key + 1)

/-- The end of `sih_add`; once all slots have been looked at the loop never ends: src/sclite/slm_v2/src/rr_libs/sih.c 115-137. -/
def insert (h : List Char → Nat) (t : Table) (s : List Char) (v : Int) : Option Table :=
  match find t.slots s t.slots.length (h s) with
  | none => none
  | some i =>
    some { t with
      slots := t.slots.set i ⟨some s, v⟩
      nentries := if (t.slots[i]?).any (fun x => x.str.isNone) then t.nentries + 1 else t.nentries }

/-- The occupancy with `n` entries and `k` slots is over its limit: src/sclite/slm_v2/src/rr_libs/sih.c 95, 102. -/
def over (t : Table) (n k : Nat) : Bool := decide (t.on * k < n * t.od)

/-- The new number of slots: src/sclite/slm_v2/src/rr_libs/sih.c 101-104. -/
def grown (t : Table) : Option Nat :=
  let k := t.slots.length * t.gn / t.gd + 3
  nearestPrime (if over t t.nentries k then k * ((t.on + t.od) / t.od) + 3 else k)

/-- The strings and values of a table: src/sclite/slm_v2/src/rr_libs/sih.c 109-111. -/
def entries (slots : List Slot) : List (List Char × Int) := slots.filterMap (fun x => x.str.map (fun s => (s, x.val)))

/-- Some calls one after the other: src/sclite/slm_v2/src/rr_libs/sih.c 109-111. -/
def each (add : Table → List Char → Int → Option Table) : Table → List (List Char × Int) → Option Table
  | t, [] => some t
  | t, (s, v) :: ops =>
    match add t s v with
    | none => none
    | some t => each add t ops

/-- `sih_add`, calls in calls being counted down; `none` for the empty string, too many calls in calls, and a loop without end:
src/sclite/slm_v2/src/rr_libs/sih.c 87-138. -/
def addF (h : List Char → Nat) : Nat → Table → List Char → Int → Option Table
  | 0, _, _, _ => none
  | f + 1, t, s, v =>
    if s.isEmpty then none
    else if over t (t.nentries + 1) t.slots.length then
      match grown t with
      | none => none
      | some n =>
        match each (addF h f) { t with nentries := 0, slots := fresh n } (entries t.slots) with
        | none => none
        | some t => insert h t s v
    else insert h t s v

/-- `sih_add`: src/sclite/slm_v2/src/rr_libs/sih.c 87-138. -/
def add (h : List Char → Nat) (t : Table) (s : List Char) (v : Int) : Option Table := addF h (t.nentries + 1) t s v

/-- `sih_lookup`: whether the string is there and the value; `none` for the empty string and a loop without end:
src/sclite/slm_v2/src/rr_libs/sih.c 141-164. -/
def lookup (h : List Char → Nat) (t : Table) (s : List Char) : Option (Bool × Int) :=
  if s.isEmpty then none
  else
    match find t.slots s t.slots.length (h s) with
    | none => none
    | some i =>
      match t.slots[i]? with
      | none => none
      | some x => some (if x.str.isNone then (false, 0) else (true, x.val))

/-! ## Files -/

/-- What is in a file after the version: src/sclite/slm_v2/src/rr_libs/sih.c 186-190, 195, 207-213. -/
structure File where
  on : Nat
  od : Nat
  gn : Nat
  gd : Nat
  nslots : Nat
  nentries : Nat
  vals : List Int
  block : List Char
  deriving DecidableEq

/-- A string with its null, or a null: src/sclite/slm_v2/src/rr_libs/sih.c 208-213. -/
def bytes (x : Slot) : List Char := x.str.getD [] ++ ['\x00']

/-- `sih_val_write_to_file`; `none` if the number of entries is wrong: src/sclite/slm_v2/src/rr_libs/sih.c 177-220. -/
def write (t : Table) : Option File :=
  if (entries t.slots).length != t.nentries then none
  else some ⟨t.on, t.od, t.gn, t.gd, t.slots.length, t.nentries, t.slots.map Slot.val, t.slots.flatMap bytes⟩

/-- How reading ends; `outside` is a look behind the end of the block: src/sclite/slm_v2/src/rr_libs/sih.c 249, 255, 264, 270. -/
inductive Read (α : Type) where
  | ok (x : α)
  | short | premature | unaccounted | outside
  deriving DecidableEq

/-- The loop over the slots, one for each value: src/sclite/slm_v2/src/rr_libs/sih.c 254-272. -/
def readSlots : List Int → List Char → Read (List Slot)
  | [], [] => .ok []
  | [], _ :: _ => .unaccounted
  | _ :: _, [] => .outside
  | v :: vs, c :: b =>
    if c == '\x00' then
      match readSlots vs b with
      | .ok l => .ok (⟨none, v⟩ :: l)
      | e => e
    else
      match (c :: b).dropWhile (fun c => c != '\x00') with
      | [] => .premature
      | _ :: r =>
        match readSlots vs r with
        | .ok l => .ok (⟨some ((c :: b).takeWhile (fun c => c != '\x00')), v⟩ :: l)
        | e => e

/-- `sih_val_read_from_file`; the number of slots says how many values are read, and a file that ends is an error:
src/sclite/slm_v2/src/rr_libs/sih.c 223-278. -/
def read (f : File) : Read Table :=
  if decide (f.vals.length < f.nslots) then .short
  else
    match readSlots (f.vals.take f.nslots) f.block with
    | .ok l => .ok ⟨f.on, f.od, f.gn, f.gd, f.nentries, l⟩
    | .short => .short
    | .premature => .premature
    | .unaccounted => .unaccounted
    | .outside => .outside

/-! ## Lists of words -/

/-- `sscanf` with `%s`: src/sclite/slm_v2/src/rr_libs/read_wlist_si.c 36. -/
def firstWord (l : List Char) : List Char := (l.dropWhile space).takeWhile (fun c => !space c)

/-- `read_wlist_into_siht`: the calls of `sih_add` for the lines of a file. A line without word leaves `word` as it was, which is not defined in the first
line, `none`. Lines and words are taken to fit in their arrays: src/sclite/slm_v2/src/rr_libs/read_wlist_si.c 25-53. -/
def wordList : Option (List Char) → Nat → List (List Char) → Option (List (List Char × Int))
  | _, _, [] => some []
  | prev, n, l :: ls =>
    if "##".toList.isPrefixOf l then wordList prev n ls
    else
      match (if (firstWord l).isEmpty then prev else some (firstWord l)) with
      | none => none
      | some w => (wordList (some w) (n + 1) ls).map (fun ops => (w, ((n + 1 : Nat) : Int)) :: ops)

end Verif.Sih
