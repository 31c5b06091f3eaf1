/-!
# Model of asclite's multi-dimensional aligner (`Graph`, hypothesis/reference mode)

src/asclite/core/graph.cpp.  The generic (non hyp/ref) mode `align.genericmethod=true` is in
`Verif.Nway`.  C `int` is modelled by unbounded `Int`; the cost table is used through its
specification (a function from coordinates to costs, `-1` when not calculated; see
`Verif.LevMatrix`).
-/
set_option autoImplicit false
namespace Verif.AscGraph

/-- A coordinate: one token index per dimension, 0 = before the first token
(src/asclite/core/graph.cpp:185, segmentsgroup.cpp:185 — entry 0 of each vector is `NULL`). -/
abbrev Coord := List Nat

/-- `C_UNCALCULATED`, src/asclite/core/levenshteinmatrix.h:24. -/
def uncalculated : Int := -1

/-- Attributes of a token used by the aligner (src/asclite/core/token.h, timedobject.h):
identity, optional flag, own times (−1 = unknown) and the times of its segment. -/
structure Tok where
  id : Nat
  optional : Bool
  start : Int
  stop : Int
  segStart : Int
  segStop : Int
  deriving Repr, DecidableEq

/-- One stream: `m_TabVecHypRef[i]` without the two `NULL`s, the predecessor lists of its tokens,
`m_TabFirstTokens[i]`, `m_TabLastTokens[i]`; tokens are named by their index in the vector
(1 … n), as `m_TabMapTokenIndex` does (src/asclite/core/graph.cpp:71-123). -/
structure Stream where
  toks : List Tok
  precs : Nat → List Nat
  firsts : List Nat
  lasts : List Nat

/-- Settings of the aligner: constructor arguments and `SetGraphOptimization`,
src/asclite/core/graph.cpp:31-51, 1305-1318.  `eqv` is `Token::IsEquivalentTo`, `editDist` is
`Token::EditDistance`, `sameSpk t1 t2` is "the speaker mapped from t1's speaker is t2's speaker",
`maxDur` is `m_MaxDurationSegmentGroup`. -/
structure Cfg where
  typeCost : Nat
  costTrans : Int
  costIns : Int
  costOpt : Int
  costSpk : Int
  costAdaptive : Int
  optRef : Bool
  optHyp : Bool
  indexRef : Nat
  prune : Bool
  word : Bool
  speaker : Bool
  adaptive : Bool
  wordAlign : Bool
  pruneThr : Int
  wordThr : Int
  maxDur : Int
  safeDivider : Int
  eqv : Tok → Tok → Bool
  editDist : Tok → Tok → Nat
  sameSpk : Tok → Tok → Bool

/-- The aligner input. -/
structure G where
  cfg : Cfg
  streams : List Stream

/-- `GetDimension`, src/asclite/core/graph.h:141. -/
def G.dim (g : G) : Nat := g.streams.length

/-- `m_TabVecHypRef[i][k]`, `none` = `NULL` (index 0 or past the last token). -/
def G.tok (g : G) (i k : Nat) : Option Tok :=
  match g.streams[i]? with
  | none => none
  | some s => if k = 0 then none else s.toks[k - 1]?

/-- `PreviousIndexes`, src/asclite/core/graph.cpp:402-487, without the cache and without the branch for
the index `GetDimensionDeep-1` (no coordinate handled by the cost table has it).  The inner `for` over
`m_TabFirstTokens` is the recursion on `fs`; results are pushed to the front. -/
def prevIndexesLoop (s : Stream) (index : Nat) : List Nat → Bool → List Nat → List Nat
  | [], _, acc => acc
  | f :: fs, zeroAdded, acc =>
    if f = index ∧ zeroAdded = false then
      prevIndexesLoop s index fs true (0 :: acc)
    else
      match s.precs index with
      | [] => prevIndexesLoop s index fs zeroAdded (0 :: acc)
      | p :: ps => prevIndexesLoop s index fs zeroAdded ((p :: ps).reverse ++ acc)

/-- See `prevIndexesLoop`; src/asclite/core/graph.cpp:407-411 for index 0. -/
def prevIndexes (s : Stream) (index : Nat) : List Nat :=
  if index = 0 then [0] else prevIndexesLoop s index s.firsts false []

/-- `PreviousIndexes` of dimension `i`. -/
def G.prevIdx (g : G) (i index : Nat) : List Nat :=
  match g.streams[i]? with
  | none => []
  | some s => prevIndexes s index

/-- `isEndingCoordinate`, src/asclite/core/graph.cpp:359-366. -/
def isEnding (c : Coord) : Bool := c.all (· == 0)

/-- `NumberChanged`, src/asclite/core/graph.cpp:1076-1087. -/
def numberChanged : Coord → Coord → Nat
  | a :: as, b :: bs => (if a = b then 0 else 1) + numberChanged as bs
  | _, _ => 0

/-- Dimensions whose index differs, in increasing order (the scans at
src/asclite/core/graph.cpp:679-697, 1101-1102, 1199-1211). -/
def changedFrom (i : Nat) : Coord → Coord → List Nat
  | a :: as, b :: bs => if a = b then changedFrom (i + 1) as bs else i :: changedFrom (i + 1) as bs
  | _, _ => []

/-- See `changedFrom`. -/
def changed (cur prev : Coord) : List Nat := changedFrom 0 cur prev

/-- Start time of a token or, when unknown, of its segment; src/asclite/core/graph.cpp:1111-1118 and
elsewhere. -/
def effStart (t : Tok) : Int := if t.start < 0 then t.segStart else t.start

/-- End time of a token or, when unknown, of its segment; src/asclite/core/graph.cpp:1123-1130. -/
def effStop (t : Tok) : Int := if t.stop < 0 then t.segStop else t.stop

/-- The loop over the unchanged dimensions in `ValidateTransitionInsertionDeletion`,
src/asclite/core/graph.cpp:1141-1191; `cb`,`ce` are `currentchgbegin/end`. -/
def pruneLoop (g : G) (thr cb ce : Int) (chg : Nat) : Nat → Coord → Bool
  | _, [] => true
  | i, k :: ks =>
    if i = chg then pruneLoop g thr cb ce chg (i + 1) ks
    else
      match g.tok i k with
      | none => true
      | some t =>
        if effStart t < 0 then true
        else if effStop t < 0 then true
        else if cb < effStart t then
          let gap := if ce < effStart t then effStart t - ce
                     else if effStop t < cb then cb - effStop t else 0
          if gap > thr then false else pruneLoop g thr cb ce chg (i + 1) ks
        else pruneLoop g thr cb ce chg (i + 1) ks

/-- Gap between the time spans of two tokens, src/asclite/core/graph.cpp:1236-1249. -/
def spanGap (t1 t2 : Tok) : Int :=
  if effStop t1 < effStart t2 then effStart t2 - effStop t1
  else if effStop t2 < effStart t1 then effStart t1 - effStop t2
  else 0

/-- `ValidateTransitionInsertionDeletion`, src/asclite/core/graph.cpp:1089-1255.
A `NULL` token in the two-change branch would crash the code; the model answers `true` there and
the theorems only use it at legal coordinates. -/
def validate (g : G) (cur prev : Coord) : Bool :=
  if !g.cfg.prune && !g.cfg.word then true
  else if numberChanged cur prev = 1 ∧ g.cfg.prune = true then
    match changed cur prev with
    | chg :: _ =>
      match g.tok chg (cur.getD chg 0) with
      | none => true
      | some t =>
        if t.start < 0 then
          if t.segStart < 0 then true
          else if t.stop < 0 then
            if t.segStop < 0 then true
            else pruneLoop g g.cfg.pruneThr t.segStart t.segStop chg 0 cur
          else true
        else true
    | [] => true
  else if numberChanged cur prev = 2 ∧ g.cfg.word = true then
    match changed cur prev with
    | [i, j] =>
      match g.tok i (cur.getD i 0), g.tok j (cur.getD j 0) with
      | some t1, some t2 =>
        if effStart t1 < 0 ∨ effStart t2 < 0 ∨ effStop t1 < 0 ∨ effStop t2 < 0 then true
        else decide (spanGap t1 t2 ≤ g.cfg.wordThr)
      | _, _ => true
    | _ => true
  else true

/-- Predecessors changing only stream `i` (inner `while(l != le)` loops,
src/asclite/core/graph.cpp:511-522, 556-570). -/
def singleMoves (g : G) (c : Coord) (i : Nat) : List Coord :=
  let k := c.getD i 0
  if k = 0 then [] else
    ((g.prevIdx i k).map (fun l => c.set i l)).filter (fun p => validate g c p)

/-- Predecessors changing reference stream `i` to `l` and one hypothesis stream
(src/asclite/core/graph.cpp:524-544). -/
def pairMoves (g : G) (c : Coord) (i l : Nat) : List Coord :=
  (List.range g.cfg.indexRef).flatMap (fun j =>
    let k := c.getD j 0
    if k = 0 then [] else
      ((g.prevIdx j k).map (fun m => (c.set i l).set j m)).filter (fun p => validate g c p))

/-- `PreviousCoordinatesHypRef`, src/asclite/core/graph.cpp:490-585.  `AddFront` reverses the order of
generation. -/
def prevCoords (g : G) (c : Coord) : List Coord :=
  if isEnding c then [] else
  let refs := (List.range g.dim).filter (fun i => g.cfg.indexRef ≤ i)
  let gen1 := refs.flatMap (fun i =>
    let k := c.getD i 0
    if k = 0 then [] else
      (g.prevIdx i k).flatMap (fun l =>
        (if validate g c (c.set i l) then [c.set i l] else []) ++ pairMoves g c i l))
  let gen2 := (List.range g.cfg.indexRef).flatMap (fun i => singleMoves g c i)
  (gen1 ++ gen2).reverse

/-- `GetCostInsertion`, src/asclite/core/graph.h:153. -/
def costInsertion (cfg : Cfg) (optionally : Bool) : Int :=
  if optionally then cfg.costOpt else cfg.costIns

/-- `GetCostAdaptive`, src/asclite/core/graph.cpp:1257-1295. -/
def costAdaptive (cfg : Cfg) (t1 t2 : Tok) : Int :=
  if !cfg.adaptive then 0
  else if effStart t1 < 0 ∨ effStart t2 < 0 ∨ effStop t1 < 0 ∨ effStop t2 < 0 then 0
  else if effStop t1 < effStart t2 then
    (cfg.costAdaptive * (effStart t2 - effStop t1)).tdiv cfg.maxDur
  else if effStop t2 < effStart t1 then
    (cfg.costAdaptive * (effStart t1 - effStop t2)).tdiv cfg.maxDur
  else 0

/-- `GetCostWordAlign`, src/asclite/core/graph.cpp:1297-1303. -/
def costWordAlign (cfg : Cfg) (t1 t2 : Tok) : Int :=
  if !cfg.wordAlign then 0 else cfg.editDist t1 t2

/-- `GetCostTransitionWordBased`, src/asclite/core/graph.cpp:714-752 (the file/channel mismatch exit is
not modelled: all tokens of a group share source and channel). -/
def costTransWord (cfg : Cfg) (t1 t2 : Tok) : Int :=
  if !cfg.eqv t1 t2 then cfg.costTrans + costAdaptive cfg t1 t2 + costWordAlign cfg t1 t2
  else if !cfg.speaker then costAdaptive cfg t1 t2
  else if cfg.sameSpk t1 t2 then costAdaptive cfg t1 t2
  else cfg.costSpk + costAdaptive cfg t1 t2

/-- `GetCostTransitionTimeBased`, src/asclite/core/graph.cpp:1379-1406. -/
def costTransTime (cfg : Cfg) (t1 t2 : Tok) : Int :=
  let c := cfg.costTrans * ((t1.start - t2.start).natAbs + (t1.stop - t2.stop).natAbs)
  if cfg.speaker && !cfg.sameSpk t1 t2 then c + cfg.costSpk else c

/-- May an inserted/deleted token of stream `i` be optional,
src/asclite/core/graph.cpp:702-703, 1370-1371. -/
def deletable (cfg : Cfg) (i : Nat) (t : Tok) : Bool :=
  if (i < cfg.indexRef ∧ cfg.optHyp = true) ∨ (cfg.indexRef ≤ i ∧ cfg.optRef = true) then t.optional
  else false

/-- Cost of advancing one token of stream `i` alone. -/
def costSingle (cfg : Cfg) (i : Nat) (t : Tok) : Int :=
  if cfg.typeCost = 2 then
    (costInsertion cfg (deletable cfg i t) * (t.stop - t.start)).tdiv cfg.safeDivider
  else costInsertion cfg (deletable cfg i t)

/-- Cost of advancing two tokens together. -/
def costPair (cfg : Cfg) (t1 t2 : Tok) : Int :=
  if cfg.typeCost = 2 then (costTransTime cfg t1 t2).tdiv cfg.safeDivider
  else costTransWord cfg t1 t2

/-- `GetTransitionCostHypRef` (word and time based), src/asclite/core/graph.cpp:669-711, 1320-1326,
1336-1377: the first two changed dimensions decide.  `NULL` dereference (no change, or a `NULL` token)
is given cost 0 here; it does not happen between a coordinate and its predecessors. -/
def transCost (g : G) (cur prev : Coord) : Int :=
  match changed cur prev with
  | [] => 0
  | [i] =>
    match g.tok i (cur.getD i 0) with
    | some t => costSingle g.cfg i t
    | none => 0
  | i :: j :: _ =>
    match g.tok i (cur.getD i 0), g.tok j (cur.getD j 0) with
    | some t1, some t2 => costPair g.cfg t1 t2
    | _, _ => 0

/-- The cost table as used here: what reading a coordinate returns. -/
abbrev Table := Coord → Int

/-- `SetCostFor` on the table. -/
def Table.put (m : Table) (c : Coord) (v : Int) : Table := fun c' => if c' = c then v else m c'

mutual
/-- `CalculateCost`, src/asclite/core/graph.cpp:234-287, for any predecessor and transition functions.
`none`: recursion deeper than `fuel`. -/
def calcCost (prevs : Coord → List Coord) (trans : Coord → Coord → Int) :
    Nat → Table → Coord → Option (Int × Table)
  | 0, _, _ => none
  | fuel + 1, m, c =>
    match prevs c with
    | [] => some (0, m)
    | p :: ps => calcLoop prevs trans fuel m c uncalculated (p :: ps)
/-- The `while` loop of `CalculateCost`, src/asclite/core/graph.cpp:253-280. -/
def calcLoop (prevs : Coord → List Coord) (trans : Coord → Coord → Int) :
    Nat → Table → Coord → Int → List Coord → Option (Int × Table)
  | _, m, _, mincost, [] => some (mincost, m)
  | fuel, m, c, mincost, p :: ps =>
    match (if m p = uncalculated then
        match calcCost prevs trans fuel m p with
        | none => none
        | some (v, m') => some (v, m'.put p v)
      else some (m p, m)) with
    | none => none
    | some (cost, m1) =>
      let t := cost + trans c p
      let mincost' := if mincost = uncalculated then t else if t < mincost then t else mincost
      calcLoop prevs trans fuel m1 c mincost' ps
end

/-- All ways of choosing one element per list. -/
def choices : List (List Nat) → List Coord
  | [] => [[]]
  | xs :: rest => xs.flatMap (fun x => (choices rest).map (fun t => x :: t))

/-- `StartingCoordinates`, src/asclite/core/graph.cpp:290-356: one last token per non-empty stream, 0 for an
empty one.  Simplification: the odometer is replaced by the list of coordinates it visits, in a fixed
order. -/
def startingCoords (g : G) : List Coord :=
  choices (g.streams.map (fun s => if s.lasts = [] then [0] else s.lasts))

/-- `FillGraph`, src/asclite/core/graph.cpp:369-399. -/
def fillGraph (g : G) (fuel : Nat) : Table → List Coord → Option Table
  | m, [] => some m
  | m, c :: cs =>
    if m c = uncalculated then
      match calcCost (prevCoords g) (transCost g) fuel m c with
      | none => none
      | some (v, m') => fillGraph g fuel (m'.put c v) cs
    else fillGraph g fuel m cs

/-- `GetBestCost`, src/asclite/core/graph.cpp:811-844. -/
def bestCost (m : Table) : Int → List Coord → Int
  | best, [] => best
  | best, c :: cs =>
    bestCost m (if best = -1 then m c else if m c < best then m c else best) cs

/-- First loop of `RetrieveAlignment`: the starting coordinate kept,
src/asclite/core/graph.cpp:858-883. -/
def bestStart (m : Table) : Int → Option Coord → List Coord → Option Coord
  | _, cur, [] => cur
  | best, cur, c :: cs =>
    if best = -1 then bestStart m (m c) (some c) cs
    else if m c < best then bestStart m (m c) (some c) cs
    else bestStart m best cur cs

/-- Whether at least two dimensions changed, src/asclite/core/graph.cpp:958-975 and repeats. -/
def twoChanged (cur prev : Coord) : Bool := decide (2 ≤ numberChanged cur prev)

/-- `GetBestCoordinateAndCost` (hyp/ref mode), src/asclite/core/graph.cpp:928-1066: `best` is
`prevbestcost`, `bp` is `bestprev`, `two` is `isCorrectSubs`. -/
def bestPrevLoop (m : Table) (trans : Coord → Coord → Int) (c : Coord) :
    Int → Option Coord → Bool → List Coord → Option Coord
  | _, bp, _, [] => bp
  | best, bp, two, p :: ps =>
    let cost := m p + trans c p
    if best = -1 then bestPrevLoop m trans c cost (some p) (twoChanged c p) ps
    else if cost < best then bestPrevLoop m trans c cost (some p) (twoChanged c p) ps
    else if cost = best ∧ two = false then
      if twoChanged c p then bestPrevLoop m trans c cost (some p) true ps
      else bestPrevLoop m trans c best bp two ps
    else bestPrevLoop m trans c best bp two ps

/-- See `bestPrevLoop`. -/
def bestPrev (g : G) (m : Table) (c : Coord) : Option Coord :=
  if isEnding c then none else bestPrevLoop m (transCost g) c (-1) none false (prevCoords g c)

/-- One aligned column: per stream the index of the token placed there, `none` for a gap
(`GraphAlignedToken`). -/
abbrev Column := List (Option Nat)

/-- The column built for one step, src/asclite/core/graph.cpp:890-900 (tokens named by index). -/
def columnOf : Coord → Coord → Column
  | a :: as, b :: bs => (if a = b then none else some a) :: columnOf as bs
  | _, _ => []

/-- The second loop of `RetrieveAlignment`, src/asclite/core/graph.cpp:885-912.  `acc` is the vector filled by
`AddFrontGraphAlignedToken` (which appends). -/
def traceLoop (g : G) (m : Table) : Nat → Coord → List Column → Option (List Column)
  | 0, _, _ => none
  | fuel + 1, c, acc =>
    match bestPrev g m c with
    | none => some acc
    | some p => traceLoop g m fuel p (acc ++ [columnOf c p])

/-- `RetrieveAlignment` read through `GetGraphAlignedToken`, which reverses the vector
(src/asclite/core/graph.cpp:847-925, graphalignedsegment.cpp:53-63). -/
def retrieve (g : G) (m : Table) (fuel : Nat) : Option (List Column) :=
  match bestStart m (-1) none (startingCoords g) with
  | none => none
  | some c =>
    match traceLoop g m fuel c [] with
    | none => none
    | some cols => some cols.reverse

/-- `FillGraph`, then `GetBestCost` and `RetrieveAlignment`, as called by
src/asclite/core/levenshtein.cpp. -/
def align (g : G) (fuel : Nat) : Option (Int × List Column) :=
  match fillGraph g fuel (fun _ => uncalculated) (startingCoords g) with
  | none => none
  | some m =>
    match retrieve g m fuel with
    | none => none
    | some cols => some (bestCost m (-1) (startingCoords g), cols)

/-- The option `align.optionally` as read by `Levenshtein::SetSegments` and again by `STTScorer::Score`:
(`opt_ref`, `opt_hyp`).  src/asclite/core/levenshtein.cpp:48-68, stt_scorer.cpp:43-62 (the warning for an
unknown value is not modelled). -/
def optFlags (s : String) : Bool × Bool :=
  if s = "both" ∨ s = "ref" then (true, false)
  else if s = "both" ∨ s = "hyp" then (false, true)
  else if s = "none" then (false, false)
  else (false, false)

/-- The settings `Levenshtein::SetSegments` passes to `Graph` for the unit costs and the option,
src/asclite/core/levenshtein.cpp:83; the other fields are kept. -/
def setSegmentsCfg (cfg : Cfg) (opt : String) (typecost : Nat) : Cfg :=
  { cfg with typeCost := typecost, costTrans := 400, costIns := 300, costOpt := 200, costSpk := 100,
             costAdaptive := 50, optRef := (optFlags opt).1, optHyp := (optFlags opt).2 }

end Verif.AscGraph
