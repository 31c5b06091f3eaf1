import Verif.AscGraph.Model
/-!
# Specification of an alignment of several token graphs

Independent of the cost table and of coordinates.  An alignment is a list of columns; a column holds
at most one token per stream.
-/
set_option autoImplicit false
namespace Verif.AscGraph

/-- May token `i` follow `p` in stream `s` (`p = 0`: may token `i` come first)? -/
def Edge (s : Stream) (p i : Nat) : Prop :=
  (1 ≤ i ∧ i ≤ s.toks.length) ∧ ((p = 0 ∧ i ∈ s.firsts) ∨ p ∈ s.precs i)

/-- `Walk s p l e`: the tokens `l` can be read one after the other starting behind `p`, ending at `e`. -/
inductive Walk (s : Stream) : Nat → List Nat → Nat → Prop
  | nil (p : Nat) : Walk s p [] p
  | cons (p i : Nat) (l : List Nat) (e : Nat) : Edge s p i → Walk s i l e → Walk s p (i :: l) e

/-- A complete path through a stream: from its start to one of its last tokens; an empty stream has only
the empty path. -/
def CompletePath (s : Stream) (l : List Nat) : Prop :=
  ∃ e, Walk s 0 l e ∧ (e ∈ s.lasts ∨ (s.lasts = [] ∧ l = []))

/-- The tokens of stream `i` in an alignment, gaps skipped. -/
def proj (i : Nat) (cols : List Column) : List Nat :=
  cols.filterMap (fun col => col.getD i none)

/-- Streams that have a token in the column. -/
def occupied (col : Column) : List Nat :=
  (List.range col.length).filter (fun i => (col.getD i none).isSome)

/-- A column has a token of a single stream, or of exactly one hypothesis and one reference stream. -/
def LegalColumn (indexRef d : Nat) (col : Column) : Prop :=
  col.length = d ∧
  ((∃ i, occupied col = [i]) ∨ (∃ i j, occupied col = [i, j] ∧ i < indexRef ∧ indexRef ≤ j))

/-- An alignment of all the streams. -/
def IsAlignment (g : G) (cols : List Column) : Prop :=
  (∀ col ∈ cols, LegalColumn g.cfg.indexRef g.dim col) ∧
  ∀ (i : Nat) (s : Stream), g.streams[i]? = some s → CompletePath s (proj i cols)

/-- Cost of one column: a lone token costs an insertion/deletion, two tokens a substitution/match. -/
def colCost (g : G) (col : Column) : Int :=
  match occupied col with
  | [i] =>
    match g.tok i ((col.getD i none).getD 0) with
    | some t => costSingle g.cfg i t
    | none => 0
  | [i, j] =>
    match g.tok i ((col.getD i none).getD 0), g.tok j ((col.getD j none).getD 0) with
    | some t1, some t2 => costPair g.cfg t1 t2
    | _, _ => 0
  | _ => 0

/-- Cost of an alignment. -/
def alignmentCost (g : G) (cols : List Column) : Int := (cols.map (colCost g)).sum

/-- A well-formed acyclic token graph: indices in range, `rank` decreases along predecessors, tokens
without predecessor are first tokens, a non-empty stream has first and last tokens. -/
structure Stream.WF (s : Stream) (rank : Nat → Nat) : Prop where
  firsts_range : ∀ i ∈ s.firsts, 1 ≤ i ∧ i ≤ s.toks.length
  lasts_range : ∀ i ∈ s.lasts, 1 ≤ i ∧ i ≤ s.toks.length
  precs_range : ∀ i, 1 ≤ i → i ≤ s.toks.length → ∀ p ∈ s.precs i, 1 ≤ p ∧ p ≤ s.toks.length
  acyclic : ∀ i, 1 ≤ i → i ≤ s.toks.length → ∀ p ∈ s.precs i, rank p < rank i
  sources : ∀ i, 1 ≤ i → i ≤ s.toks.length → s.precs i = [] → i ∈ s.firsts

/-- Streams of the input with their ranks. -/
def G.WF (g : G) (rank : Nat → Nat → Nat) : Prop :=
  g.cfg.indexRef ≤ g.dim ∧ ∀ (i : Nat) (s : Stream), g.streams[i]? = some s → s.WF (rank i)

/-- Settings under which every step cost is well defined and not negative: non-negative unit costs; positive
divisors where they are used; with time-based costs every token ends no earlier than it starts. -/
structure G.CostsOK (g : G) : Prop where
  trans : 0 ≤ g.cfg.costTrans
  ins : 0 ≤ g.cfg.costIns
  opt : 0 ≤ g.cfg.costOpt
  spk : 0 ≤ g.cfg.costSpk
  adaptive : 0 ≤ g.cfg.costAdaptive
  maxDur : g.cfg.adaptive = true → 0 < g.cfg.maxDur
  divider : g.cfg.typeCost = 2 → 0 < g.cfg.safeDivider
  times : g.cfg.typeCost = 2 → ∀ s ∈ g.streams, ∀ t ∈ s.toks, t.start ≤ t.stop

/-- Coordinates of the alignment graph: per stream the index of one of its tokens, or 0. -/
def Dom (g : G) (c : Coord) : Prop :=
  c.length = g.dim ∧ ∀ (i : Nat) (s : Stream), g.streams[i]? = some s → c.getD i 0 ≤ s.toks.length

/-- `Back g c n e`: `e` is reached from `c` by following `n` predecessors. -/
inductive Back (g : G) : Coord → Nat → Coord → Prop
  | refl (c : Coord) : Back g c 0 c
  | step (c p : Coord) (n : Nat) (e : Coord) : p ∈ prevCoords g c → Back g p n e → Back g c (n + 1) e

/-- Word based costs without speaker, adaptive and edit-distance terms, written out: a match is free, a
substitution costs `sub`, a lone token costs `opt` when it is optional and its side may be optional, and
`ins` otherwise.  `ref = true` for a token of a reference stream. -/
structure PlainCosts where
  sub : Int
  ins : Int
  opt : Int
  optRef : Bool
  optHyp : Bool

/-- Cost of a lone token. -/
def PlainCosts.lone (k : PlainCosts) (ref : Bool) (t : Tok) : Int :=
  if t.optional && (if ref then k.optRef else k.optHyp) then k.opt else k.ins

/-- Cost of a column with these costs and token equality `eqv`. -/
def PlainCosts.col (k : PlainCosts) (eqv : Tok → Tok → Bool) (g : G) (col : Column) : Int :=
  match occupied col with
  | [i] =>
    match g.tok i ((col.getD i none).getD 0) with
    | some t => k.lone (decide (g.cfg.indexRef ≤ i)) t
    | none => 0
  | [i, j] =>
    match g.tok i ((col.getD i none).getD 0), g.tok j ((col.getD j none).getD 0) with
    | some t1, some t2 => if eqv t1 t2 then 0 else k.sub
    | _, _ => 0
  | _ => 0

/-- Silence between two time spans: from the earlier end to the later start, 0 when they meet. -/
def silence (b1 e1 b2 e2 : Int) : Int := max 0 (max b1 b2 - min e1 e2)

/-- What the option `align.optionally` should mean: (reference side, hypothesis side). -/
def optMeaning (s : String) : Bool × Bool :=
  if s = "both" then (true, true)
  else if s = "ref" then (true, false)
  else if s = "hyp" then (false, true)
  else (false, false)

end Verif.AscGraph
