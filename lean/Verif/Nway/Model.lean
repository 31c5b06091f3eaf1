import Verif.AscGraph.Model
/-!
# Model of asclite's generic aligner (`-generic-cost`)

src/asclite/core/graph.cpp with `align.genericmethod=true`: all systems are aligned with each other, without
reference.  Tokens, streams, predecessor indexes, the memoised recursion, the starting coordinates and the choice of
the best start are those of `Verif.AscGraph`.  Also the report written from the alignment
(src/asclite/core/sgml_generic_reportgenerator.cpp).
-/
set_option autoImplicit false
namespace Verif.Nway
open Verif.AscGraph

/-! ## Predecessors -/

/-- `list::unique`: drops elements equal to the one before, src/asclite/core/graph.cpp:606. -/
def unique : List Nat → List Nat
  | [] => []
  | [x] => [x]
  | x :: y :: l => if x = y then unique (y :: l) else x :: unique (y :: l)

/-- The indexes stream `i` may be at one step earlier, its own index first, src/asclite/core/graph.cpp:602-607. -/
def options (g : G) (c : Coord) (i : Nat) : List Nat :=
  unique (c.getD i 0 :: g.prevIdx i (c.getD i 0))

/-- The inner loop moving the iterators, src/asclite/core/graph.cpp:621-634: `ns` are the lengths of the lists, an
iterator is its position, the length itself standing for `end()`.  An iterator that reaches its end stays there and
the next one is moved; it is moved on from its end the next time.  Moving an iterator from `end()` is undefined in C++;
the lists of the usual libraries are circular and it arrives at `begin()`, which is what is modelled.  The flag says
that `j` has reached the number of dimensions. -/
def advance : List Nat → List Nat → List Nat × Bool
  | n :: ns, k :: ks =>
    let k' := if k = n then 0 else k + 1
    if k' = n then ((k' :: (advance ns ks).1), (advance ns ks).2) else (k' :: ks, false)
  | _, _ => ([], true)

/-- The coordinate the iterators stand for, if none is at its end, src/asclite/core/graph.cpp:641-655. -/
def pick : List (List Nat) → List Nat → Option Coord
  | xs :: ls, k :: ks =>
    match xs[k]?, pick ls ks with
    | some x, some r => some (x :: r)
    | _, _ => none
  | _, _ => some []

/-- The outer loop, src/asclite/core/graph.cpp:616-657: coordinates in the order they are found.  It stops when the last
iterator is at its end, which is when the inner loop has run through all dimensions (`overflow_iff_last`). -/
def odometer (ls : List (List Nat)) : Nat → List Nat → List Coord
  | 0, _ => []
  | fuel + 1, ks =>
    let r := advance (ls.map List.length) ks
    if r.2 then []
    else
      match pick ls r.1 with
      | some c => c :: odometer ls fuel r.1
      | none => odometer ls fuel r.1

/-- A bound on the number of rounds of the outer loop. -/
def rounds (ls : List (List Nat)) : Nat := (ls.map (fun l => l.length + 1)).foldr (· * ·) 1

/-- `PreviousCoordinatesGeneric`, src/asclite/core/graph.cpp:588-666; `AddFront` reverses. -/
def genPrev (g : G) (c : Coord) : List Coord :=
  if isEnding c then []
  else
    let ls := (List.range g.dim).map (options g c)
    (odometer ls (rounds ls) (ls.map (fun _ => 0))).reverse

/-! ## Costs -/

/-- The tokens of the streams that move, in order of the streams, src/asclite/core/graph.cpp:767-771. -/
def moved (g : G) (cur prev : Coord) : List Tok :=
  (changed cur prev).filterMap (fun i => g.tok i (cur.getD i 0))

/-- Counting a token with the last of the tokens kept that it is equivalent to, src/asclite/core/graph.cpp:774-793;
`none` = there is none. -/
def bump (eqv : Tok → Tok → Bool) (a : Tok) : List (Tok × Nat) → Option (List (Tok × Nat))
  | [] => none
  | (r, n) :: rest =>
    match bump eqv a rest with
    | some rest' => some ((r, n) :: rest')
    | none => if eqv a r then some ((r, n + 1) :: rest) else none

/-- One token of the loop, src/asclite/core/graph.cpp:771-794. -/
def countTok (eqv : Tok → Tok → Bool) (cls : List (Tok × Nat)) (a : Tok) : List (Tok × Nat) :=
  (bump eqv a cls).getD (cls ++ [(a, 1)])

/-- `nbroccur`, src/asclite/core/graph.cpp:801-805. -/
def maxCount (cls : List (Tok × Nat)) : Nat := cls.foldl (fun m c => if c.2 > m then c.2 else m) 0

/-- `deletable` after the loops at src/asclite/core/graph.cpp:771, 1422: the flag of the last token seen. -/
def lastOptional (ts : List Tok) : Bool := ts.foldl (fun _ t => t.optional) false

/-- `GetTransitionCostGenericWordBased`, src/asclite/core/graph.cpp:755-808, for the tokens that move. -/
def wordCost (cfg : Cfg) (dim : Nat) (ts : List Tok) : Int :=
  costInsertion cfg (lastOptional ts) * ((dim - ts.length : Nat) : Int) +
    cfg.costTrans * ((ts.length - maxCount (ts.foldl (countTok cfg.eqv) []) : Nat) : Int)

/-- `mintime`, src/asclite/core/graph.cpp:1424-1425. -/
def minTime (ts : List Tok) : Int := ts.foldl (fun m t => if m = -1 ∨ t.start < m then t.start else m) (-1)

/-- `maxtime`, src/asclite/core/graph.cpp:1427-1428. -/
def maxTime (ts : List Tok) : Int := ts.foldl (fun m t => if m = -1 ∨ t.stop > m then t.stop else m) (-1)

/-- `transitioncost`, src/asclite/core/graph.cpp:1437: assigned, not added up. -/
def shift (ts : List Tok) : Int :=
  ts.foldl (fun _ t => maxTime ts - t.stop + t.start - minTime ts) 0

/-- `GetTransitionCostGenericTimeBased`, src/asclite/core/graph.cpp:1408-1444, for the tokens that move. -/
def timeCost (cfg : Cfg) (dim : Nat) (ts : List Tok) : Int :=
  (costInsertion cfg (lastOptional ts) * (((dim - ts.length : Nat) : Int) * (maxTime ts - minTime ts)) +
    cfg.costTrans * shift ts).tdiv cfg.safeDivider

/-- `GetTransitionCostGeneric`, src/asclite/core/graph.cpp:1328-1334. -/
def stepCost (cfg : Cfg) (dim : Nat) (ts : List Tok) : Int :=
  if cfg.typeCost = 2 then timeCost cfg dim ts else wordCost cfg dim ts

/-- See `stepCost`. -/
def genTrans (g : G) (cur prev : Coord) : Int := stepCost g.cfg g.dim (moved g cur prev)

/-! ## Filling the table and reading the alignment -/

/-- `FillGraph`, src/asclite/core/graph.cpp:369-399. -/
def fillGen (g : G) (fuel : Nat) : Table → List Coord → Option Table
  | m, [] => some m
  | m, c :: cs =>
    if m c = uncalculated then
      match calcCost (genPrev g) (genTrans g) fuel m c with
      | none => none
      | some (v, m') => fillGen g fuel (m'.put c v) cs
    else fillGen g fuel m cs

/-- The loop of `GetBestCoordinateAndCost` when `m_HypRefStatus` is false, src/asclite/core/graph.cpp:944-1061: `best` is
`prevbestcost`, `bp` is `bestprev`, `num` is `bestnumchg` (written only when costs are equal). -/
def bestGenLoop (m : Table) (trans : Coord → Coord → Int) (c : Coord) :
    Int → Option Coord → Nat → List Coord → Option Coord
  | _, bp, _, [] => bp
  | best, bp, num, p :: ps =>
    let cost := m p + trans c p
    if best = -1 then bestGenLoop m trans c cost (some p) num ps
    else if cost < best then bestGenLoop m trans c cost (some p) num ps
    else if cost = best then
      if numberChanged c p > num then bestGenLoop m trans c cost (some p) (numberChanged c p) ps
      else bestGenLoop m trans c best bp num ps
    else bestGenLoop m trans c best bp num ps

/-- `GetBestCoordinateAndCost`, src/asclite/core/graph.cpp:928-1066. -/
def bestGen (g : G) (m : Table) (c : Coord) : Option Coord :=
  if isEnding c then none else bestGenLoop m (genTrans g) c (-1) none 0 (genPrev g c)

/-- The second loop of `RetrieveAlignment`, src/asclite/core/graph.cpp:885-912. -/
def traceGen (g : G) (m : Table) : Nat → Coord → List Column → Option (List Column)
  | 0, _, _ => none
  | fuel + 1, c, acc =>
    match bestGen g m c with
    | none => some acc
    | some p => traceGen g m fuel p (acc ++ [columnOf c p])

/-- `RetrieveAlignment` read through `GetGraphAlignedToken`, src/asclite/core/graph.cpp:847-925,
graphalignedsegment.cpp:53-63. -/
def retrieveGen (g : G) (m : Table) (fuel : Nat) : Option (List Column) :=
  match bestStart m (-1) none (startingCoords g) with
  | none => none
  | some c =>
    match traceGen g m fuel c [] with
    | none => none
    | some cols => some cols.reverse

/-- `FillGraph`, then `GetBestCost` and `RetrieveAlignment`, src/asclite/core/recording.cpp:574-584. -/
def alignGen (g : G) (fuel : Nat) : Option (Int × List Column) :=
  match fillGen g fuel (fun _ => uncalculated) (startingCoords g) with
  | none => none
  | some m =>
    match retrieveGen g m fuel with
    | none => none
    | some cols => some (bestCost m (-1) (startingCoords g), cols)

/-! ## From the systems to the streams and to the report -/

/-- `NextGeneric`, src/asclite/core/ctmstmrttm_segmentor.cpp:119-136: the streams of a group, per system and speech the
segments of the time span, if there are any (`α`: a segment). -/
def groupStreams {α : Type} (systems : List (List (List α))) : List (List α) :=
  systems.flatMap (fun speeches => speeches.filter (fun segs => !segs.isEmpty))

/-- What the report looks at in a token, src/asclite/core/sgml_generic_reportgenerator.cpp:73-131: text, attributes as
written (times, confidence, speaker), title of its system, file and channel of its segment. -/
structure Said where
  text : List Char
  attrs : List Char
  input : List Char
  file : List Char
  channel : List Char
  deriving Repr, DecidableEq

/-- A `<word>` element, src/asclite/core/sgml_generic_reportgenerator.cpp:98-134; the attributes other than `input` are
kept as one text. -/
def wordLine (t : Option Said) : List Char :=
  match t with
  | none => "\t\t<word></word>\n".toList
  | some t => "\t\t<word".toList ++ t.attrs ++ " input=\"".toList ++ t.input ++ "\">".toList ++ t.text ++ "</word>\n".toList

/-- File and channel of the last token of the column, src/asclite/core/sgml_generic_reportgenerator.cpp:70-83. -/
def lastPlace (col : List (Option Said)) : List Char × List Char :=
  col.foldl (fun a t => match t with | some t => (t.file, t.channel) | none => a) ([], [])

/-- An attribute written unless empty, src/asclite/core/sgml_generic_reportgenerator.cpp:87-91. -/
def attr (name value : List Char) : List Char :=
  if value = [] then [] else ' ' :: name ++ "=\"".toList ++ value ++ "\"".toList

/-- The `<word>` elements of a column: one per stream, then empty ones up to the number of systems,
src/asclite/core/sgml_generic_reportgenerator.cpp:96-138. -/
def words (systems : Nat) (col : List (Option Said)) : List (List Char) :=
  col.map wordLine ++ List.replicate (systems - col.length) (wordLine none)

/-- A `<putative>` element, src/asclite/core/sgml_generic_reportgenerator.cpp:85-140. -/
def putative (systems : Nat) (col : List (Option Said)) : List Char :=
  "\t<putative".toList ++ attr "file".toList (lastPlace col).1 ++ attr "channel".toList (lastPlace col).2 ++ ">\n".toList ++
    (words systems col).flatten ++ "\t</putative>\n".toList

/-- Where the report goes, src/asclite/core/sgml_generic_reportgenerator.cpp:36-66: `where = 1` asks for a file. -/
inductive Dest where
  | stdout
  | file
  | lost
  deriving Repr, DecidableEq

/-- See `Dest`; when the file cannot be opened `where` is set to 1 again (line 52) and the output goes to the buffer of
the unopened file. -/
def dest (wantFile opened : Bool) : Dest :=
  if wantFile then (if opened then .file else .lost) else .stdout

end Verif.Nway
