import Verif.Corresp.Spec
/-!
# Model of the comparison of several systems (sclite `corresp.c`, `rank.c`)
-/
set_option autoImplicit false
namespace Verif.Corresp

/-- The searches for a name in the other systems (corresp.c:144-157, 196-212): the first match in each, or failure. -/
def rowOf {A : Type} (p : A → Bool) : List (List A) → Option (List Nat)
  | [] => some []
  | s :: ss =>
    match s.findIdx? p with
    | none => none
    | some i => (rowOf p ss).map (fun r => i :: r)

/-- `find_matched_grp` (corresp.c:134-162): the loop ends at the first speaker of the first system that another one lacks. -/
def matchedGroups {N I W : Type} [DecidableEq N] (others : List (List (Spkr N I W))) : Nat → List (Spkr N I W) → List (List Nat)
  | _, [] => []
  | i, g :: gs =>
    match rowOf (fun s => decide (g.name = s.name)) others with
    | none => []
    | some r => (i :: r) :: matchedGroups others (i + 1) gs

/-- `find_matched_paths` for a group (corresp.c:189-215): sentences of the first system that another one lacks are skipped.
(The row of the first system is stored under `grp_ptr[0]` instead of `gr`, corresp.c:196; these are the same number.) -/
def matchedPaths {I W : Type} [DecidableEq I] (others : List (List (Path I W))) : Nat → List (Path I W) → List (List Nat)
  | _, [] => []
  | i, p :: ps =>
    match rowOf (fun q => decide (p.id = q.id)) others with
    | none => matchedPaths others (i + 1) ps
    | some r => (i :: r) :: matchedPaths others (i + 1) ps

/-- Outcome of comparing the references: reading past the end of an alignment, or an answer. -/
inductive Out where
  | undefined
  | differ
  | same
deriving DecidableEq

/-- Skipping insertions (corresp.c:291-294, 331-334). -/
def skip {W : Type} : List (Entry W) → List (Entry W)
  | .ins _ :: es => skip es
  | es => es

/-- The loop over two alignments in `identical_refs` (corresp.c:288-303); the first argument bounds the number of rounds.  Where only
one index has reached the end, the test `>` lets the comparison read the entry at that index (corresp.c:297-301). -/
def refLoop {W : Type} [DecidableEq W] : Nat → List (Entry W) → List (Entry W) → Out
  | 0, _, _ => .undefined
  | f + 1, a, b =>
    if a = [] ∨ b = [] then .same
    else
      match skip a, skip b with
      | [], [] => .same
      | .ref r _ :: a', .ref s _ :: b' => if r = s then refLoop f a' b' else .differ
      | _, _ => .undefined

/-- Comparison with the first alignment (corresp.c:286-304). -/
def refsAll {W : Type} [DecidableEq W] (a : List (Entry W)) : List (List (Entry W)) → Out
  | [] => .same
  | b :: bs =>
    match refLoop (a.length + 1) a b with
    | .same => refsAll a bs
    | o => o

/-- `identical_refs` (corresp.c:280-307). -/
def identicalRefs {W : Type} [DecidableEq W] : List (List (Entry W)) → Out
  | [] => .differ
  | [_] => .same
  | a :: bs => refsAll a bs

/-- The marks of `lattice_error` (corresp.c:319-324): `none` for insertions. -/
def marks {W : Type} : List (Entry W) → List (Option Bool)
  | [] => []
  | .ins _ :: es => none :: marks es
  | .ref _ ok :: es => some ok :: marks es

/-- One further alignment (corresp.c:327-353), for alignments with the same reference words: the marks of the words it got right. -/
def improve {W : Type} : List (Entry W) → List (Option Bool) → List (Option Bool)
  | [], ms => ms
  | .ins _ :: es, ms => improve es ms
  | .ref _ ok :: es, ms =>
    let pre := ms.takeWhile (fun m => m.isNone)
    match ms.dropWhile (fun m => m.isNone) with
    | [] => pre
    | m :: rest => pre ++ (if ok then some true else m) :: improve es rest

/-- `lattice_error` (corresp.c:310-369): the number of reference words and of those no system got right. -/
def latticeError {W : Type} (a : List (Entry W)) (bs : List (List (Entry W))) : Nat × Nat :=
  let ms := bs.foldl (fun m b => improve b m) (marks a)
  (ms.countP (fun m => m.isSome), ms.countP (fun m => m == some false))

/-- A column of the combined print: insertions, or a reference word; for each system the entry it contributes. -/
inductive Column (W : Type) where
  | ins (cells : List (Option (Entry W)))
  | word (r : W) (cells : List (Option (Entry W)))
deriving DecidableEq

/-- `inserts_exist` for one system (corresp.c:383-391): its next entry exists and is an insertion. -/
def isIns {W : Type} : List (Entry W) → Bool
  | .ins _ :: _ => true
  | _ => false

/-- `process_inserts` (corresp.c:423-463): systems whose next entry is an insertion give it up. -/
def insCells {W : Type} (ps : List (List (Entry W))) : List (Option (Entry W)) := ps.map (fun p => if isIns p then p.head? else none)

/-- The positions of the systems after `process_inserts` (`psets[p] ++`, corresp.c:451). -/
def insRest {W : Type} (ps : List (List (Entry W))) : List (List (Entry W)) := ps.map (fun p => if isIns p then p.tail else p)

/-- The loop of `PATH_multi_print` (corresp.c:588-593); `process_rest` (corresp.c:465-516) reads the reference word of the first system,
which needs an entry there (corresp.c:470).  `none`: reading past the end.  The first argument bounds the number of columns. -/
def multiPrint {W : Type} : Nat → List (List (Entry W)) → Option (List (Column W))
  | 0, _ => none
  | f + 1, ps =>
    if ps.any (fun p => !p.isEmpty) then
      if ps.any isIns then (multiPrint f (insRest ps)).map (fun cs => .ins (insCells ps) :: cs)
      else
        match ps with
        | (.ref r _ :: _) :: _ => (multiPrint f (ps.map List.tail)).map (fun cs => .word r (ps.map List.head?) :: cs)
        | _ => none
    else some []

/-- `init_RANK_struct_from_SCORES` (rank.c:19-82): the entry for row `g` and system `n`, and the name of row `g`; `none` for memory
that is never written. -/
def rankEntry {G V : Type} (value : G → V) (systems : List (List G)) (g n : Nat) : Option V :=
  (systems[n]?.bind (fun s => s[g]?)).map value

/-- The name of row `g` is taken from the first system (rank.c:19-82, cited above). -/
def rankName {G N : Type} (name : G → N) (systems : List (List G)) (g : Nat) : Option N :=
  (systems[0]?.bind (fun s => s[g]?)).map name

end Verif.Corresp
