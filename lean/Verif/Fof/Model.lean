/-!
# Statistics of n-grams (src/sclite/slm_v2/src/idngram2stats.c)

The same steps are in src/sclite/slm_v2/src/idngram.h 264-345. Not modelled: reading of the file, the suggested sizes.
-/
set_option autoImplicit false
namespace Verif.Fof

/-- `pos_of_novelty` for an n-gram after another, `none` if they are out of order: src/sclite/slm_v2/src/idngram2stats.c 123-135. -/
def novelty : List Nat → List Nat → Option Nat
  | c :: cs, p :: ps => if decide (p < c) then some 0 else if decide (c < p) then none else (novelty cs ps).map (· + 1)
  | _, _ => some 0

/-- What is kept for one length of k-grams: `num_kgrams`, `fof_array`, `ng_count`: src/sclite/slm_v2/src/idngram2stats.c 86-92. -/
structure Lv where
  num : Nat
  fof : Nat → Nat
  cnt : Nat

/-- A k-gram is complete: src/sclite/slm_v2/src/idngram2stats.c 150-153, 173-176. -/
def close (size : Nat) (s : Lv) : Lv :=
  { s with num := s.num + 1, fof := if decide (s.cnt ≤ size) then fun j => if j = s.cnt then s.fof j + 1 else s.fof j else s.fof }

/-- One n-gram with its count, for k-grams of `i + 1` words, fewer than n: src/sclite/slm_v2/src/idngram2stats.c 148-166. -/
def level (size i : Nat) (first : Bool) (pos c : Nat) (s : Lv) : Lv :=
  let s1 := if decide (pos ≤ i) then (if first then { s with cnt := c } else { close size s with cnt := c }) else s
  if decide (i + 1 ≤ pos) then { s1 with cnt := s1.cnt + c } else s1

/-- The loop over the n-grams, with the last `pos_of_novelty`; `none` where the program ends with an error: src/sclite/slm_v2/src/idngram2stats.c 103-168. -/
def loop (size n i : Nat) : Bool → List Nat → Nat → Lv → List (List Nat × Nat) → Option (Nat × Lv)
  | _, _, pos, s, [] => some (pos, s)
  | first, prev, _, s, (g, c) :: r =>
    match novelty g prev with
    | none => none
    | some p => if decide (p = n) && !first then none else loop size n i false g p (level size i first p c s) r

/-- The last n-gram: src/sclite/slm_v2/src/idngram2stats.c 170-178. -/
def finish (size i : Nat) (r : Nat × Lv) : Lv := if decide (r.1 ≤ i) then close size r.2 else r.2

/-- The numbers of k-grams of `i + 1` words, from 2 to n - 1, and how many of them occur how often: src/sclite/slm_v2/src/idngram2stats.c 81-192. -/
def stats (size n i : Nat) (file : List (List Nat × Nat)) : Option Lv :=
  (loop size n i true (List.replicate n 0) n ⟨0, fun _ => 0, 0⟩ file).map (finish size i)

/-- The n-grams of full length, `num_kgrams[n-2]` and `fof_array[n-2]`, in a file without errors: src/sclite/slm_v2/src/idngram2stats.c 143-146. -/
def full (size : Nat) : Lv → List (List Nat × Nat) → Lv
  | s, [] => s
  | s, (_, c) :: r => full size (close size { s with cnt := c }) r

/-- The column "> N times" of the table, `t`, in the line for `j`: src/sclite/slm_v2/src/idngram2stats.c 186-188. -/
def more (s : Lv) : Nat → Int
  | 0 => s.num
  | j + 1 => more s j - s.fof (j + 1)

end Verif.Fof
