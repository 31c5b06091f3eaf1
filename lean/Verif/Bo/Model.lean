/-!
# Probabilities by backing off (src/sclite/slm_v2/src)

`arpa_bo_ng_prob`, `calc_prob_of` and `decode_bo_case`. Probabilities and weights are logarithms, whole numbers of some unit, so a product is a sum. The indices
into the tables are those that `get_full_index` gives. Not modelled: the binary form of models, the check for closed vocabularies.
-/
set_option autoImplicit false
namespace Verif.Bo

/-- The tables of a model: the words of the n-grams of each level, the places where their successors begin, the probabilities and weights; level 0 are the words
themselves, 0 to `vocab`. What is in memory behind a table of words or of places is `beyond` or `past`: src/sclite/slm_v2/src/evallm.h 41-80,
src/sclite/slm_v2/src/load_lm.c 397-434. -/
structure Lm where
  vocab : Nat
  words : Nat → List Nat
  beyond : Nat → Nat
  starts : Nat → List Nat
  past : Nat → Nat
  probs : Nat → Nat → Int
  alphas : Nat → Nat → Int

/-- `word_id[k][j]`: src/sclite/slm_v2/src/arpa_bo_ng_prob.c 126-127. -/
def word (lm : Lm) (k j : Nat) : Nat := ((lm.words k)[j]?).getD (lm.beyond k)

/-- `get_full_index(ind[k][j], ..., j)`: src/sclite/slm_v2/src/arpa_bo_ng_prob.c 92-96. -/
def start (lm : Lm) (k j : Nat) : Nat := ((lm.starts k)[j]?).getD (lm.past k)

/-- One more than `ng_end` for the successors of n-gram `i` of level `k`: src/sclite/slm_v2/src/arpa_bo_ng_prob.c 98-122. -/
def bound (lm : Lm) (k i : Nat) : Nat :=
  if k = 0 then
    if decide (i < lm.vocab) then start lm 0 (i + 1) else (lm.words 1).length + 1
  else if decide (i + 1 < (lm.words k).length) then start lm k (i + 1)
  else (lm.words (k + 1)).length + 1

/-- The binary search for word `w` from `b` to before `e`, in at most as many steps as the first number: src/sclite/slm_v2/src/arpa_bo_ng_prob.c 124-141. -/
def search (lm : Lm) (k w : Nat) : Nat → Nat → Nat → Option Nat
  | 0, _, _ => none
  | f + 1, b, e =>
    if decide (b < e) then
      let m := b + (e - 1 - b) / 2
      if decide (w < word lm k m) then search lm k w f b m
      else if decide (word lm k m < w) then search lm k w f (m + 1) e
      else some m
    else none

/-- The n-grams found after n-gram `i` of level `k`: src/sclite/slm_v2/src/arpa_bo_ng_prob.c 88-151. -/
def walk (lm : Lm) : Nat → Nat → List Nat → List Nat
  | _, _, [] => []
  | k, i, w :: ws =>
    match search lm (k + 1) w (bound lm k i + 1) (start lm k i) (bound lm k i) with
    | none => []
    | some j => j :: walk lm (k + 1) j ws

/-- `ng_index` as far as n-grams were found: src/sclite/slm_v2/src/arpa_bo_ng_prob.c 65-151. -/
def chain (lm : Lm) : List Nat → List Nat
  | [] => []
  | w :: ws => if decide (start lm 0 w < start lm 0 (w + 1)) then w :: walk lm 0 w ws else []

/-- The program ends if a probability is above one: src/sclite/slm_v2/src/arpa_bo_ng_prob.c 195-201. -/
def check (p : Int) (b : Nat) : Option (Int × Nat) := if decide (0 < p) then none else some (p, b)

/-- `arpa_bo_ng_prob`: the probability and `bo_case`, `none` where the program ends: src/sclite/slm_v2/src/arpa_bo_ng_prob.c 25-204. -/
def prob (lm : Lm) : List Nat → Option (Int × Nat)
  | [] => none
  | [w] => check (lm.probs 0 w) 0
  | w :: v :: ws =>
    let c := ws.length + 1
    let ix := chain lm (w :: v :: ws)
    if decide (ix.length = c + 1) then check (lm.probs c ((ix[c]?).getD 0)) 0
    else
      match prob lm (v :: ws) with
      | none => none
      | some (p, b) =>
        if decide (c ≤ ix.length) then check (p + lm.alphas (c - 1) ((ix[c - 1]?).getD 0)) (b + 1 * 4 ^ (c - 1))
        else check p (b + 2 * 4 ^ (c - 1))

/-- What `decode_bo_case` writes: src/sclite/slm_v2/src/decode_bo_case.c 37-57. -/
inductive Tok where
  | num (n : Nat)
  | dash
  | cross
  deriving DecidableEq

/-- `decode_bo_case`: what is written, and whether `1 << (2*i)` is taken for a negative `i`, which is not defined:
src/sclite/slm_v2/src/decode_bo_case.c 28-62. -/
def decode : Nat → Nat → List Tok × Bool
  | 0, _ => ([.num 1], false)
  | i + 1, b =>
    let d := b / 4 ^ i
    if d = 1 then
      let r := decode i (b - d * 4 ^ i)
      (.num (i + 2) :: .dash :: r.1, r.2)
    else if d = 2 then
      let r := decode i (b - d * 4 ^ i)
      (.num (i + 2) :: .cross :: r.1, r.2)
    else ([.num (i + 2)], true)

/-- The most recent word of the first `n` of the context that is in the list: src/sclite/slm_v2/src/calc_prob_of.c 57-74. -/
def recent (fb : Nat → Option Bool) (ctx : List Nat) : Nat → Option (Nat × Bool)
  | 0 => none
  | n + 1 =>
    match fb ((ctx[n]?).getD 0) with
    | some inc => some (n, inc)
    | none => recent fb ctx n

/-- The words of `sought_ngram` without the last: src/sclite/slm_v2/src/calc_prob_of.c 76-97. -/
def used (fb : Nat → Option Bool) (ctx : List Nat) : List Nat :=
  match recent fb ctx ctx.length with
  | none => (List.range ctx.length).map (fun i => (ctx[i]?).getD 0)
  | some (m, false) => (List.range (ctx.length - m - 1)).map (fun i => (ctx[i + m + 1]?).getD 0)
  | some (m, true) => (List.range (ctx.length - m - 1 + 1)).map (fun i => (ctx[i + m]?).getD 0)

end Verif.Bo
