import Verif.Slm.Model
/-!
# Merging of temporary files of n-grams (src/sclite/slm_v2/src/idngram.h)

Not modelled: frequencies of frequencies, names and removal of files.
-/
set_option autoImplicit false
namespace Verif.Tempf

/-- The rounds for files that are all open at the same time. These are the steps of mergeidngram, `Slm.merge`, as long as no file is empty; for an empty file memory that
was never set is taken for an n-gram, here `none`, as if there are more than `k` rounds: src/sclite/slm_v2/src/idngram.h 162-262. -/
def once (n k : Nat) (fs : List Slm.File) : Option Slm.File := if fs.any List.isEmpty then none else Slm.merge n k fs

/-- `merge_tempfiles` with at most `max` files open. The file made from the first of them is put behind the last, and read before it is closed, so that only what `seen` gives is
there; `none` if the calls are deeper than the last argument but one: src/sclite/slm_v2/src/idngram.h 93-316. -/
def mergeAll (seen : Slm.File → Slm.File) (n k max : Nat) : Nat → List Slm.File → Option Slm.File
  | 0, _ => none
  | f + 1, fs =>
    if decide (max < fs.length) then
      match mergeAll seen n k max f (fs.take max) with
      | none => none
      | some out => mergeAll seen n k max f (fs.drop max ++ [seen out])
    else once n k fs

end Verif.Tempf
