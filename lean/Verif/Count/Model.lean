/-!
# Counting words and n-grams of a text (src/sclite/slm_v2/src)

`text2wfreq` and the part of `text2idngram` before the temporary files are merged. Not modelled: reading of vocabularies, splitting of words of 500 letters,
overflow of counts, messages.
-/
set_option autoImplicit false
namespace Verif.Count

/-- A byte as `char` with a sign, added as `unsigned int`: src/sclite/slm_v2/src/text2wfreq.c 123-124. -/
def signed (b : Nat) : Nat := if decide (b < 128) then b else 2 ^ 32 - 256 + b

/-- `hash`: src/sclite/slm_v2/src/text2wfreq.c 116-126. -/
def hash (m : Nat) (key : List Nat) : Nat := key.foldl (fun h b => (64 * h + signed b) % 2 ^ 32 % m) 0

/-- `update_chain`, words are compared byte by byte: src/sclite/slm_v2/src/text2wfreq.c 76-104. -/
def chain (key : List Nat) : List (List Nat × Nat) → List (List Nat × Nat)
  | [] => [(key, 1)]
  | (w, c) :: r => if decide (w < key) then (w, c) :: chain key r else if decide (key = w) then (w, c + 1) :: r else (key, 1) :: (w, c) :: r

/-- `update`: src/sclite/slm_v2/src/text2wfreq.c 136-148. -/
def update (m : Nat) (t : Nat → List (List Nat × Nat)) (key : List Nat) : Nat → List (List Nat × Nat) :=
  if decide (m ≤ hash m key) then t else fun i => if i = hash m key then chain key (t i) else t i

/-- `print`: src/sclite/slm_v2/src/text2wfreq.c 106-114, 128-134. -/
def print (m : Nat) (t : Nat → List (List Nat × Nat)) : List (List Nat × Nat) := (List.range m).flatMap t

/-- The words of a text counted in a table of size `m`; empty words do not occur: src/sclite/slm_v2/src/text2wfreq.c 196-209. -/
def wfreq (m : Nat) (text : List (List Nat)) : List (List Nat × Nat) := print m (text.foldl (update m) (fun _ => []))

/-- The state between two fillings of the buffer: the n-gram at the beginning of the buffer, the words left, and whether a blank or end of line is left after the
last word: src/sclite/slm_v2/src/text2idngram.c 241-248, 325-329. -/
structure Rd where
  cur : List Nat
  rest : List Nat
  pend : Bool

/-- The n-grams before the last position, and the state, when the buffer has been filled with at most the given number of n-grams. After the last word the
word that cannot be read is what is in memory: src/sclite/slm_v2/src/text2idngram.c 254-276. -/
def fill (memory : Nat) : Nat → Rd → List (List Nat) × Rd
  | 0, s => ([], s)
  | k + 1, ⟨cur, w :: rest, pend⟩ =>
    let r := fill memory k ⟨cur.tail ++ [w], rest, pend⟩
    (cur :: r.1, r.2)
  | _ + 1, ⟨cur, [], true⟩ => ([cur], ⟨cur.tail ++ [memory], [], false⟩)
  | _ + 1, ⟨cur, [], false⟩ => ([], ⟨cur, [], false⟩)

/-- `rr_feof(stdin)`: src/sclite/slm_v2/src/text2idngram.c 248, 254. -/
def done (s : Rd) : Bool := s.rest.isEmpty && !s.pend

/-- The fillings of a buffer of the given size: the n-grams sorted, and the one at the last position, not sorted: src/sclite/slm_v2/src/text2idngram.c 248-331. -/
def fills (memory size : Nat) : Nat → Rd → List (List (List Nat) × List Nat)
  | 0, _ => []
  | f + 1, s =>
    if done s then []
    else
      let r := fill memory size s
      (r.1, r.2.cur) :: fills memory size f r.2

/-- The loop that writes a temporary file, with `temp_ngram` and `temp_count`: src/sclite/slm_v2/src/text2idngram.c 306-321. -/
def write : List Nat → Nat → List (List Nat) → List (List Nat × Nat)
  | _, _, [] => []
  | t, c, g :: gs => if decide (t = g) then write t (c + 1) gs else (t, c) :: write g 1 gs

/-- A temporary file, from the n-grams in order and the last one: src/sclite/slm_v2/src/text2idngram.c 297-321. -/
def temp (sorted : List (List Nat)) (z : List Nat) : List (List Nat × Nat) :=
  match sorted ++ [z] with
  | [] => []
  | t :: gs => write t 1 gs

/-- The fillings for a text of at least `n` words, `ended` by a blank or end of line: src/sclite/slm_v2/src/text2idngram.c 241-331. -/
def buffers (n memory size : Nat) (text : List Nat) (ended : Bool) : List (List (List Nat) × List Nat) :=
  fills memory size (text.length + 2) ⟨text.take n, text.drop n, ended⟩

/-- The temporary files; `qsort` is any function that puts n-grams in order: src/sclite/slm_v2/src/text2idngram.c 278-323. -/
def files (qsort : List (List Nat) → List (List Nat)) (n memory size : Nat) (text : List Nat) (ended : Bool) : List (List (List Nat × Nat)) :=
  (buffers n memory size text ended).map (fun b => temp (qsort b.1) b.2)

end Verif.Count
