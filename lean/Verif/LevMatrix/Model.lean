import Verif.LevMatrix.Spec
/-!
# Model of asclite's two cost tables

`ArrayLevenshteinMatrix` and `CompressedLevenshteinMatrix`.  Sizes are unbounded
naturals (the code uses `size_t`; wrap-around of sizes is not modelled).
-/
set_option autoImplicit false
namespace Verif.LevMatrix

/-- `C_UNCALCULATED`, src/asclite/core/levenshteinmatrix.h:24. -/
def uncalculated : Int := -1

/-- `m_TabDimensionDeep[i] = _TabDimensionDeep[i] - 1`,
src/asclite/core/compressedlevenshteinmatrix.cpp:51-56 and
arraylevenshteinmatrix.cpp:33-38. -/
def dimsOf (tabDeep : List Nat) : List Nat := tabDeep.map (· - 1)

/-- Running products `m[0] = 1`, `m[i] = m[i-1] * d[i-1]`;
src/asclite/core/arraylevenshteinmatrix.cpp:32-37 and
compressedlevenshteinmatrix.cpp:74-81 (three arrays built by the same loop). -/
def multipliersFrom (acc : Nat) : List Nat → List Nat
  | [] => []
  | d :: ds => acc :: multipliersFrom (acc * d) ds

/-- See `multipliersFrom`. -/
def multipliers (ds : List Nat) : List Nat := multipliersFrom 1 ds

/-- `for i: out += m[i]*coordinates[i]`,
src/asclite/core/arraylevenshteinmatrix.cpp:91-94. -/
def weightedSum : List Nat → List Nat → Nat
  | m :: ms, c :: cs => m * c + weightedSum ms cs
  | _, _ => 0

/-- Product of the sizes: `m_MaxSize`, arraylevenshteinmatrix.cpp:33-38;
`m_BlockSizeElts`/`m_NbrCompressedTabs`, compressedlevenshteinmatrix.cpp:451-458. -/
def prod : List Nat → Nat
  | [] => 1
  | d :: ds => d * prod ds

/-! ## Array table -/

/-- State of `ArrayLevenshteinMatrix`, src/asclite/core/arraylevenshteinmatrix.h:28-34. -/
structure ArrayTable where
  dims : List Nat
  cells : List Int
  count : Nat
  deriving Repr

/-- Constructor, src/asclite/core/arraylevenshteinmatrix.cpp:26-53. -/
def ArrayTable.new (tabDeep : List Nat) : ArrayTable :=
  let dims := dimsOf tabDeep
  { dims := dims
    cells := List.replicate (prod dims) uncalculated
    count := 0 }

/-- `CoordinatesToSize`, src/asclite/core/arraylevenshteinmatrix.cpp:89-105;
`none` is `exit(E_INVALID)`. -/
def ArrayTable.index (t : ArrayTable) (c : Coord) : Option Nat :=
  let out := weightedSum (multipliers t.dims) c
  if prod t.dims ≤ out then none else some out

/-- `GetCostFor`, src/asclite/core/arraylevenshteinmatrix.h:43; `none` = program exit
or read outside the array. -/
def ArrayTable.get (t : ArrayTable) (c : Coord) : Option Int :=
  match t.index c with
  | none => none
  | some i => t.cells[i]?

/-- `SetCostFor`, src/asclite/core/arraylevenshteinmatrix.cpp:65-73. -/
def ArrayTable.set (t : ArrayTable) (c : Coord) (v : Int) : Option ArrayTable :=
  match t.index c with
  | none => none
  | some i =>
    match t.cells[i]? with
    | none => none
    | some old =>
      some { t with
        cells := t.cells.set i v
        count := if old = uncalculated then t.count + 1 else t.count }

/-- A client history run against the array table: the answers of the reads and the
final table. -/
def ArrayTable.run (t : ArrayTable) : List Op → Option (List Int × ArrayTable)
  | [] => some ([], t)
  | .set c v :: ops =>
    match t.set c v with
    | none => none
    | some t' => t'.run ops
  | .get c :: ops =>
    match t.get c with
    | none => none
    | some x =>
      match t.run ops with
      | none => none
      | some (xs, t') => some (x :: xs, t')

/-! ## Compressed table -/

/-- Ceiling division as computed at
src/asclite/core/compressedlevenshteinmatrix.cpp:415-418. -/
def blockDim (deep divider : Nat) : Nat :=
  let q := deep / divider
  if deep % divider ≠ 0 then q + 1 else q

/-- Candidate dividers of one dimension, src/asclite/core/compressedlevenshteinmatrix.cpp:384-392. -/
def candidates (levelopt deep : Nat) : List Nat :=
  (if deep = 1 then [1] else []) ++
  (List.range (deep + 1)).filter (fun j =>
    2 ≤ j && (deep % j = 0 ||
      (1 ≤ levelopt && (deep + 1) % 2 = 0 && (deep + 1) % j = 0) ||
      (2 ≤ levelopt && (deep + levelopt) % j = 0)))

/-- All tuples of candidates, last dimension varying fastest: the order in which the
odometer at src/asclite/core/compressedlevenshteinmatrix.cpp:437-445 visits them.
Simplification: the odometer itself is replaced by the list of tuples it enumerates. -/
def tuples : List (List Nat) → List (List Nat)
  | [] => [[]]
  | cs :: rest => cs.flatMap (fun x => (tuples rest).map (fun t => x :: t))

/-- `closer`, src/asclite/core/compressedlevenshteinmatrix.cpp:410-423. -/
def closeness (target : Nat) (dims divs : List Nat) : Nat :=
  let size := prod (List.zipWith blockDim dims divs)
  if size < target then target - size else size - target

/-- Main search of `BlockComputation`, src/asclite/core/compressedlevenshteinmatrix.cpp:399-448:
keep the first tuple that is strictly closer.  `best = none` is the initial
`closestsize = ULONG_MAX`. -/
def searchBest (target : Nat) (dims : List Nat) :
    Option (Nat × List Nat) → List (List Nat) → Option (Nat × List Nat)
  | best, [] => best
  | none, t :: ts => searchBest target dims (some (closeness target dims t, t)) ts
  | some (c, b), t :: ts =>
    let d := closeness target dims t
    searchBest target dims (if d < c then some (d, t) else some (c, b)) ts

/-- Geometry of the compressed table: `m_TabBlockDivider`, `m_TabBlockDimensionDeep`,
`m_BlockSizeElts`, src/asclite/core/compressedlevenshteinmatrix.cpp:429-463. -/
structure Geometry where
  dividers : List Nat
  blockDims : List Nat
  blockElts : Nat
  deriving Repr, DecidableEq

/-- `BlockComputation`, src/asclite/core/compressedlevenshteinmatrix.cpp:370-477.
`none`: some dimension has no candidate divider (the code would read an empty vector). -/
def blockComputation (levelopt target : Nat) (dims : List Nat) : Option Geometry :=
  match searchBest target dims none (tuples (dims.map (candidates levelopt))) with
  | none => none
  | some (_, divs) =>
    let bd := List.zipWith blockDim dims divs
    let elts := prod bd
    some { dividers := divs
           blockDims := bd
           blockElts := if elts * 4 < 16 then 4 else elts }

/-- Constructor, geometry part, src/asclite/core/compressedlevenshteinmatrix.cpp:61-64:
`BlockComputation(0)`, redone with level 1 when the block is under 20% of the requested size
(`BaseLengthIn < 0.2*KB*1024`, written without fractions). -/
def buildGeometry (blockKB : Nat) (dims : List Nat) : Option Geometry :=
  match blockComputation 0 (blockKB * 256) dims with
  | none => none
  | some g =>
    if 5 * (g.blockElts * 4) < blockKB * 1024 then blockComputation 1 (blockKB * 256) dims
    else some g

/-- `CoordinatesToBlockOffset`, block part,
src/asclite/core/compressedlevenshteinmatrix.cpp:326-336. -/
def blockNum (g : Geometry) (c : Coord) : Nat :=
  weightedSum (multipliers g.dividers) (List.zipWith (· / ·) c g.blockDims)

/-- `CoordinatesToBlockOffset`, offset part,
src/asclite/core/compressedlevenshteinmatrix.cpp:326-336. -/
def blockOffset (g : Geometry) (c : Coord) : Nat :=
  weightedSum (multipliers g.blockDims) (List.zipWith (· % ·) c g.blockDims)

/-- The LZMA library as used by the table: compressed data, compressed length, and the
inverse (src/asclite/core/compressedlevenshteinmatrix.cpp:190-199, 240-242). -/
structure Codec (β : Type) where
  enc : List Int → β
  zLen : β → Nat
  dec : β → List Int

/-- `comp_lengh` after compressing the given cells,
src/asclite/core/compressedlevenshteinmatrix.cpp:185-199. -/
def Codec.encLen {β : Type} (k : Codec β) (cells : List Int) : Nat := k.zLen (k.enc cells)

/-- `LZMA_PROPS_SIZE`, src/asclite/core/compressedlevenshteinmatrix.cpp:42. -/
def propsSize : Nat := 5

/-- Contents of one block: not created, plain cells, or compressed data
(`m_TabIsCreated`, `m_TabbIsCompressed`, `m_TabStartByte`, `m_TabStartByteCompressed`,
src/asclite/core/compressedlevenshteinmatrix.h:34-39, 78). -/
inductive Content (β : Type) where
  | absent
  | plain (cells : List Int)
  | packed (z : β)
  deriving Repr

/-- One block with `m_TabSizes` and `m_TabHitsTimer`,
src/asclite/core/compressedlevenshteinmatrix.h:35-39. -/
structure Block (β : Type) where
  content : Content β
  size : Nat
  hits : Nat
  deriving Repr

/-- State of `CompressedLevenshteinMatrix`.  `mem` is `m_CurrentMemorySize` (kept in `Int`
so that the unsigned wrap-around of intermediate differences is not needed), `count` is
`m_SizeOfArray`, `decompressions` is `m_Decompressions`,
src/asclite/core/compressedlevenshteinmatrix.h:30-89. -/
structure CTable (β : Type) where
  blocks : List (Block β)
  mem : Int
  accesses : Nat
  count : Nat
  decompressions : Nat
  deriving Repr

/-- Fixed parameters of a table: geometry, codec and the two memory triggers
(`isCallGarbageCollector`, `isStopGarbageCollector`,
src/asclite/core/compressedlevenshteinmatrix.h:88-89; arbitrary predicates of the current
memory size here). -/
structure Params (β : Type) where
  geom : Geometry
  codec : Codec β
  callGC : Int → Bool
  stopGC : Int → Bool

variable {β : Type}

/-- `m_BaseLengthIn = m_BlockSizeElts * sizeof(int)`,
src/asclite/core/compressedlevenshteinmatrix.cpp:463. -/
def baseLengthIn (p : Params β) : Nat := p.geom.blockElts * 4

/-- Bytes of data a block holds: its cells at 4 bytes each, or compressed data plus the codec
properties (src/asclite/core/compressedlevenshteinmatrix.cpp:163-166, 217, 251). -/
def Content.dataBytes (k : Codec β) : Content β → Nat
  | .absent => 0
  | .plain cells => cells.length * 4
  | .packed z => k.zLen z + propsSize

/-- Bytes obtained from `malloc` for a block and not freed: `m_BaseLengthIn` when plain,
`m_BaseLengthOut` when compressed (the output buffer is not shrunk),
src/asclite/core/compressedlevenshteinmatrix.cpp:69, 163, 186, 209, 214, 238, 248. -/
def Content.allocBytes (p : Params β) : Content β → Nat
  | .absent => 0
  | .plain _ => baseLengthIn p
  | .packed _ => baseLengthIn p + baseLengthIn p / 50 + propsSize

/-- Constructor (block array part), src/asclite/core/compressedlevenshteinmatrix.cpp:83-107. -/
def CTable.new (p : Params β) : CTable β :=
  { blocks := List.replicate (prod p.geom.dividers) { content := .absent, size := 0, hits := 0 }
    mem := 0, accesses := 0, count := 0, decompressions := 0 }

/-- `TouchBlock`, src/asclite/core/compressedlevenshteinmatrix.h:71. -/
def touch (t : CTable β) (i : Nat) : CTable β :=
  { t with
    blocks := t.blocks.modify i (fun b => { b with hits := t.accesses })
    accesses := t.accesses + 1 }

/-- The compression step of `CompressBlock` on a created block,
src/asclite/core/compressedlevenshteinmatrix.cpp:181-224. -/
def compressCreated (p : Params β) (t : CTable β) (i : Nat) : CTable β :=
  match t.blocks[i]? with
  | some { content := .plain cells, size := sz, hits := h } =>
    let comp := p.codec.encLen cells
    if sz ≤ comp + propsSize then t
    else
      { t with
        blocks := t.blocks.set i
          { content := .packed (p.codec.enc cells), size := comp + propsSize, hits := h }
        mem := t.mem + (comp + propsSize) - sz }
  | _ => t

/-- The selection loop of `ForcedGarbageCollection`: created, uncompressed block with
the smallest hit timer, first index on ties
(src/asclite/core/compressedlevenshteinmatrix.cpp:292-313). -/
def victim : List (Block β) → Nat → Option (Nat × Nat) → Option (Nat × Nat)
  | [], _, best => best
  | b :: bs, i, best =>
    match b.content with
    | .plain _ =>
      match best with
      | none => victim bs (i + 1) (some (b.hits, i))
      | some (h, j) => victim bs (i + 1) (if b.hits < h then some (b.hits, i) else some (h, j))
    | _ => victim bs (i + 1) best

/-- `ForcedGarbageCollection`, src/asclite/core/compressedlevenshteinmatrix.cpp:290-319:
new state and the returned `found`.  The victim is already created, so the
`CreateBlock` call inside `CompressBlock` does nothing. -/
def forcedGC (p : Params β) (t : CTable β) : CTable β × Bool :=
  match victim t.blocks 0 none with
  | none => (t, false)
  | some (_, i) => (compressCreated p t i, true)

/-- The `do … while(found && !isStop)` loop of `GarbageCollection`,
src/asclite/core/compressedlevenshteinmatrix.cpp:277-282.  `none`: not finished after
`fuel` iterations. -/
def gcLoop (p : Params β) : Nat → CTable β → Option (CTable β)
  | 0, _ => none
  | fuel + 1, t =>
    let (t', found) := forcedGC p t
    if found && !p.stopGC t'.mem then gcLoop p fuel t' else some t'

/-- `GarbageCollection`, src/asclite/core/compressedlevenshteinmatrix.cpp:263-288. -/
def gc (p : Params β) (fuel : Nat) (t : CTable β) : Option (CTable β) :=
  if p.callGC t.mem then gcLoop p fuel t else some t

/-- `CreateBlock`, src/asclite/core/compressedlevenshteinmatrix.cpp:158-175. -/
def createBlock (p : Params β) (fuel : Nat) (t : CTable β) (i : Nat) : Option (CTable β) :=
  match t.blocks[i]? with
  | none => none
  | some b =>
    match b.content with
    | .absent =>
      let t1 : CTable β :=
        { t with
          blocks := t.blocks.set i
            { content := .plain (List.replicate p.geom.blockElts uncalculated)
              size := baseLengthIn p, hits := b.hits }
          mem := t.mem + baseLengthIn p }
      gc p fuel (touch t1 i)
    | _ => some t

/-- `CompressBlock`, src/asclite/core/compressedlevenshteinmatrix.cpp:177-225. -/
def compressBlock (p : Params β) (fuel : Nat) (t : CTable β) (i : Nat) : Option (CTable β) :=
  match createBlock p fuel t i with
  | none => none
  | some t' => some (compressCreated p t' i)

/-- `DecompressBlock`, src/asclite/core/compressedlevenshteinmatrix.cpp:227-261: new state and
the returned `decomp`. -/
def decompressBlock (p : Params β) (fuel : Nat) (t : CTable β) (i : Nat) :
    Option (CTable β × Bool) :=
  match createBlock p fuel t i with
  | none => none
  | some t1 =>
    match t1.blocks[i]? with
    | none => none
    | some b =>
      match b.content with
      | .packed z =>
        let comp := b.size - propsSize
        let t2 : CTable β :=
          { t1 with
            blocks := t1.blocks.set i
              { content := .plain (p.codec.dec z), size := baseLengthIn p, hits := b.hits }
            mem := t1.mem + baseLengthIn p - comp
            decompressions := t1.decompressions + 1 }
        some (touch t2 i, true)
      | _ => some (touch t1 i, false)

/-- Read of an uncompressed block: `m_TabStartByte[coord_x][coord_y]`;
`none` when the block is not uncompressed or the offset is outside it. -/
def peek (t : CTable β) (i off : Nat) : Option Int :=
  match t.blocks[i]? with
  | some { content := .plain cells, .. } => cells[off]?
  | _ => none

/-- Write into an uncompressed block, src/asclite/core/compressedlevenshteinmatrix.cpp:364. -/
def pokeBlock (off : Nat) (v : Int) (b : Block β) : Block β :=
  match b.content with
  | .plain cells => { b with content := .plain (cells.set off v) }
  | _ => b

/-- `m_TabStartByte[coord_x][coord_y] = cost`,
src/asclite/core/compressedlevenshteinmatrix.cpp:364. -/
def poke (t : CTable β) (i off : Nat) (v : Int) : CTable β :=
  { t with blocks := t.blocks.modify i (pokeBlock off v) }

/-- `GetCostFor`, src/asclite/core/compressedlevenshteinmatrix.cpp:338-351. -/
def CTable.get (p : Params β) (fuel : Nat) (t : CTable β) (c : Coord) :
    Option (Int × CTable β) :=
  match decompressBlock p fuel t (blockNum p.geom c) with
  | none => none
  | some (t1, decomp) =>
    match peek t1 (blockNum p.geom c) (blockOffset p.geom c) with
    | none => none
    | some out =>
      if decomp then
        match gc p fuel t1 with
        | none => none
        | some t2 => some (out, t2)
      else some (out, t1)

/-- `SetCostFor`, src/asclite/core/compressedlevenshteinmatrix.cpp:353-368. -/
def CTable.set (p : Params β) (fuel : Nat) (t : CTable β) (c : Coord) (v : Int) :
    Option (CTable β) :=
  match decompressBlock p fuel t (blockNum p.geom c) with
  | none => none
  | some (t1, decomp) =>
    match peek t1 (blockNum p.geom c) (blockOffset p.geom c) with
    | none => none
    | some old =>
      let t2 : CTable β :=
        { t1 with count := if old = uncalculated then t1.count + 1 else t1.count }
      let t3 := poke t2 (blockNum p.geom c) (blockOffset p.geom c) v
      if decomp then gc p fuel t3 else some t3

/-- Client operations interleaved with arbitrary compressions of existing or new blocks and
explicit garbage collections.  The code itself only evicts inside `get`/`set`; the extra
operations make the theorem cover every other eviction schedule as well. -/
inductive COp where
  | client (op : Op)
  | compress (i : Nat)
  | collect
  deriving Repr

/-- The client part of a history. -/
def clientOps : List COp → List Op
  | [] => []
  | .client op :: h => op :: clientOps h
  | _ :: h => clientOps h

/-- Run a history against the compressed table; `none` when some garbage collection did not
finish within `fuel` iterations (or the program would fail). -/
def CTable.run (p : Params β) (fuel : Nat) (t : CTable β) :
    List COp → Option (List Int × CTable β)
  | [] => some ([], t)
  | .client (.set c v) :: ops =>
    match t.set p fuel c v with
    | none => none
    | some t' => CTable.run p fuel t' ops
  | .client (.get c) :: ops =>
    match t.get p fuel c with
    | none => none
    | some (x, t') =>
      match CTable.run p fuel t' ops with
      | none => none
      | some (xs, t'') => some (x :: xs, t'')
  | .compress i :: ops =>
    match compressBlock p fuel t i with
    | none => none
    | some t' => CTable.run p fuel t' ops
  | .collect :: ops =>
    match gc p fuel t with
    | none => none
    | some t' => CTable.run p fuel t' ops

end Verif.LevMatrix
