/-!
# Shorter n-grams, and vocabularies from frequencies (src/sclite/slm_v2/src)

`ngram2mgram` and `wfreq2vocab`. Words of n-grams are numbers; with `-words` they are strings, compared by `strcmp`, which is the same order with other names.
Integers do not overflow. Not modelled: the parsing of records, messages.
-/
set_option autoImplicit false
namespace Verif.Mgram

/-- N-grams with counts: src/sclite/slm_v2/src/ngram2mgram.c 187-231. -/
abbrev File := List (List Nat × Int)

/-- The test for the order of two n-grams: src/sclite/slm_v2/src/ngram2mgram.c 243-256. -/
def ordered : List Nat → List Nat → Bool
  | p :: ps, g :: gs => if decide (g < p) then false else if decide (p < g) then true else ordered ps gs
  | _, _ => true

/-- The comparison of the first `m` words: src/sclite/slm_v2/src/ngram2mgram.c 280-285. -/
def same (m : Nat) (p g : List Nat) : Bool := p.take m == g.take m

/-- The loop: what is written, `previous_ngram`, `current_ngram` and `running_total` at the end, where n-grams that are not yet set are `none`; `none` where the
program ends since the order is wrong: src/sclite/slm_v2/src/ngram2mgram.c 165-336. -/
def rounds (m : Nat) : Option (List Nat) → Option (List Nat) → Int → File → Option (File × Option (List Nat) × Option (List Nat) × Int)
  | prev, cur, t, [] => some ([], prev, cur, t)
  | _, none, _, (g, c) :: rs => rounds m none (some g) c rs
  | _, some p, t, (g, c) :: rs =>
    if ordered p g then
      if same m p g then rounds m (some p) (some g) (t + c) rs
      else (rounds m (some p) (some g) c rs).map (fun r => ((p.take m, t) :: r.1, r.2))
    else none

/-- How the program ends: with an error, with a file, or with the file and then an n-gram that was never set:
src/sclite/slm_v2/src/ngram2mgram.c 247, 338-355. -/
inductive Out where
  | quit
  | file (f : File)
  | unset (f : File)
  deriving DecidableEq

/-- `ngram2mgram`. With `binary` records end at once; otherwise `more` tells whether anything, as the end of a line, comes after the last count, when the loop is
entered once more and the last n-gram becomes the previous one: src/sclite/slm_v2/src/ngram2mgram.c 165-355, rr_libs/rr_feof.c 24-31. -/
def run (binary more : Bool) (m : Nat) (rs : File) : Out :=
  match rounds m none none 0 rs with
  | none => .quit
  | some (out, prev, cur, t) =>
    if binary then .file out
    else
      match (if more then cur else prev) with
      | none => .unset out
      | some p => .file (out ++ [(p.take m, t)])

/-- `num_to_output`, for `-gt` or `-top`, of which 20000 is the default: src/sclite/slm_v2/src/wfreq2vocab.c 105-130, 154-174. -/
def number (gt top : Option Int) (rs : List (String × Int)) : Int :=
  let n := match gt with
    | some c => ((rs.filter (fun r => decide (c < r.2))).length : Int)
    | none => top.getD 20000
  if decide ((rs.length : Int) < n) then (rs.length : Int) else n

/-- What `wfreq2vocab` may write, the words `out`, with any order of records that `qsort` may give for equal counts; words are compared by code points, as
`strcmp` does for ASCII:
src/sclite/slm_v2/src/wfreq2vocab.c 163-200. -/
def Writes (gt top : Option Int) (rs : List (String × Int)) (out : List (String × Int)) : Prop :=
  ∃ byCount : List (String × Int), byCount.Perm rs ∧ byCount.Pairwise (fun a b => b.2 ≤ a.2) ∧
    out.Perm (byCount.take (number gt top rs).toNat) ∧ out.Pairwise (fun a b => a.1 ≤ b.1)

end Verif.Mgram
