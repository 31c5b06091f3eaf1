/-!
# Model of the scoring of speaker diarization by md-eval

src/md-eval/md-eval.pl.  Times are whole numbers of a unit that is larger than the constant `$epsilon` (1E-8 s), so that comparisons
up to `$epsilon` are exact; rounding of floating point sums is not modelled.  The times of the system are those of its file
(`RTBEG` = `TBEG`, no alignment of words).  Names are numbers.  `sort` is a parameter: the comparison functions of the program do not
order events of the same kind and time, and the events come from hashes.
-/
set_option autoImplicit false
namespace Verif.Diar

/-- A SPEAKER token, src/md-eval/md-eval.pl:500-570. -/
structure Turn where
  spkr : Nat
  tb : Int
  te : Int
  deriving Repr, DecidableEq

/-- The types of events, src/md-eval/md-eval.pl:2079-2118, 2267-2288. -/
inductive Kind where
  | uem
  | nsz
  | ref (s : Nat)
  | sys (s : Nat)
  deriving Repr, DecidableEq

/-- An event; `beg` for "BEG", otherwise "END". -/
structure Ev where
  kind : Kind
  beg : Bool
  time : Int
  deriving Repr, DecidableEq

/-- The two events of an interval. -/
def both (k : Kind) (b e : Int) : List Ev := [⟨k, true, b⟩, ⟨k, false, e⟩]

/-! ## The segments scored -/

/-- The events of `create_speaker_segs`, src/md-eval/md-eval.pl:2267-2287. -/
def segEvents (uem : List (Int × Int)) (ref sys : List Turn) : List Ev :=
  (uem.filter (fun u => u.1 < u.2)).flatMap (fun u => both .uem u.1 u.2) ++
    (ref.filter (fun t => t.tb < t.te)).flatMap (fun t => both (.ref t.spkr) t.tb t.te) ++
    (sys.filter (fun t => t.tb < t.te)).flatMap (fun t => both (.sys t.spkr) t.tb t.te)

/-- Counting a speaker up or down in a hash, entries that become zero being deleted, src/md-eval/md-eval.pl:2306-2310. -/
def bump (s : Nat) (d : Int) : List (Nat × Int) → List (Nat × Int)
  | [] => [(s, d)]
  | x :: l => if x.1 = s then (if x.2 + d = 0 then l else (x.1, x.2 + d) :: l) else x :: bump s d l

/-- A segment: the speakers of reference and system, begin and end, src/md-eval/md-eval.pl:2295-2299. -/
structure Sg where
  ref : List Nat
  sys : List Nat
  tb : Int
  te : Int
  deriving Repr, DecidableEq

/-- The variables of the loop, src/md-eval/md-eval.pl:2264-2265. -/
structure SweepSt where
  ev : Bool
  tb : Int
  refs : List (Nat × Int)
  syss : List (Nat × Int)
  deriving Repr, DecidableEq

/-- What an event changes, src/md-eval/md-eval.pl:2302-2311. -/
def SweepSt.step (st : SweepSt) (e : Ev) : SweepSt :=
  match e.kind with
  | .uem => { st with ev := e.beg, tb := if e.beg then e.time else st.tb }
  | .ref s => { st with refs := bump s (if e.beg then 1 else -1) st.refs }
  | .sys s => { st with syss := bump s (if e.beg then 1 else -1) st.syss }
  | .nsz => st

/-- The loop, src/md-eval/md-eval.pl:2292-2313. -/
def sweep : SweepSt → List Ev → List Sg
  | _, [] => []
  | st, e :: es =>
    if st.ev = true ∧ st.tb < e.time then
      ⟨st.refs.map Prod.fst, st.syss.map Prod.fst, st.tb, e.time⟩ :: sweep ({ st with tb := e.time }.step e) es
    else sweep (st.step e) es

/-- `create_speaker_segs`, src/md-eval/md-eval.pl:2261-2315. -/
def createSegs (sort : List Ev → List Ev) (uem : List (Int × Int)) (ref sys : List Turn) : List Sg :=
  sweep ⟨false, 0, [], []⟩ (sort (segEvents uem ref sys))

/-! ## The score -/

/-- A sum over segments weighted with their durations. -/
def weigh (f : Sg → Int) (l : List Sg) : Int := (l.map (fun g => (g.te - g.tb) * f g)).sum

/-- Number of speakers of the reference mapped to speakers of the system in the segment, src/md-eval/md-eval.pl:1988-1994. -/
def nmap (map : Nat → Option Nat) (g : Sg) : Nat := (g.ref.filter (fun r => (map r).any (fun s => g.sys.contains s))).length

/-- The statistics, src/md-eval/md-eval.pl:1963-1974, 1995. -/
structure Stats where
  scoredTime : Int
  scoredSpeech : Int
  missedSpeech : Int
  falarmSpeech : Int
  scoredSpeaker : Int
  missedSpeaker : Int
  falarmSpeaker : Int
  speakerError : Int
  deriving Repr, DecidableEq

/-- `score_speaker_segments`, src/md-eval/md-eval.pl:1954-1995, without the words and the types of speakers. -/
def score (map : Nat → Option Nat) (l : List Sg) : Stats where
  scoredTime := weigh (fun _ => 1) l
  scoredSpeech := weigh (fun g => if g.ref.length ≠ 0 then 1 else 0) l
  missedSpeech := weigh (fun g => if g.ref.length ≠ 0 ∧ ¬ g.sys.length ≠ 0 then 1 else 0) l
  falarmSpeech := weigh (fun g => if g.sys.length ≠ 0 ∧ ¬ g.ref.length ≠ 0 then 1 else 0) l
  scoredSpeaker := weigh (fun g => g.ref.length) l
  missedSpeaker := weigh (fun g => max ((g.ref.length : Int) - g.sys.length) 0) l
  falarmSpeaker := weigh (fun g => max ((g.sys.length : Int) - g.ref.length) 0) l
  speakerError := weigh (fun g => (min g.ref.length g.sys.length : Int) - nmap map g) l

/-- `spkr_overlap`, src/md-eval/md-eval.pl:1899-1905. -/
def overlap (l : List Sg) (r s : Nat) : Int := weigh (fun g => if g.ref.contains r ∧ g.sys.contains s then 1 else 0) l

/-! ## What is scored -/

/-- The events of `add_collars_to_uem`, src/md-eval/md-eval.pl:2039-2051; `uem` stands for the type, which is not looked at. -/
def collarEvents (c : Int) (uem : List (Int × Int)) (ref : List Turn) : List Ev :=
  uem.flatMap (fun u => both .uem u.1 u.2) ++
    ref.flatMap (fun t => [⟨.nsz, false, t.tb - c⟩, ⟨.nsz, true, t.tb + c⟩, ⟨.nsz, false, t.te - c⟩, ⟨.nsz, true, t.te + c⟩])

/-- The loop, src/md-eval/md-eval.pl:2056-2066. -/
def collarLoop : Int → Int → List Ev → List (Int × Int)
  | _, _, [] => []
  | n, tb, e :: es =>
    if e.beg then collarLoop (n + 1) (if n + 1 = 1 then e.time else tb) es
    else if n - 1 = 0 ∧ e.time > tb then (tb, e.time) :: collarLoop (n - 1) tb es
    else collarLoop (n - 1) tb es

/-- `add_collars_to_uem`, src/md-eval/md-eval.pl:2034-2068. -/
def addCollars (sort : List Ev → List Ev) (c : Int) (uem : List (Int × Int)) (ref : List Turn) : List (Int × Int) :=
  collarLoop 0 0 (sort (collarEvents c uem ref))

/-- The zones in which two turns or more overlap, src/md-eval/md-eval.pl:2090-2100. -/
def zoneLoop : Int → Int → List Ev → List (Int × Int)
  | _, _, [] => []
  | n, tb, e :: es =>
    if e.beg then zoneLoop (n + 1) (if n + 1 = 2 then e.time else tb) es
    else if n - 1 = 1 then (tb, e.time) :: zoneLoop (n - 1) tb es
    else zoneLoop (n - 1) tb es

/-- The zones, src/md-eval/md-eval.pl:2078-2100; the tokens are the SPEAKER tokens of the reference. -/
def overlapZones (sort : List Ev → List Ev) (ref : List Turn) : List (Int × Int) :=
  zoneLoop 0 0 (sort ((ref.filter (fun t => t.tb < t.te)).flatMap (fun t => both (.ref t.spkr) t.tb t.te)))

/-- The variables of the loop that merges zones with the partition, src/md-eval/md-eval.pl:2112. -/
structure MergeSt where
  tb : Int
  evl : Int
  nsz : Int
  on : Bool
  deriving Repr, DecidableEq

/-- Counting an event, src/md-eval/md-eval.pl:2114-2115, 2226-2227. -/
def MergeSt.count (st : MergeSt) (e : Ev) : MergeSt :=
  { st with
    evl := if e.kind = .uem then st.evl + (if e.beg then 1 else -1) else st.evl
    nsz := if e.kind = .nsz then st.nsz + (if e.beg then 1 else -1) else st.nsz }

/-- The loop that merges zones with the partition, src/md-eval/md-eval.pl:2113-2126, 2225-2238. -/
def mergeLoop : MergeSt → List Ev → List (Int × Int)
  | _, [] => []
  | st, e :: es =>
    let s := st.count e
    if s.on = true ∧ (s.evl = 0 ∨ s.nsz > 0) ∧ e.time > s.tb then (s.tb, e.time) :: mergeLoop { s with on := false } es
    else if s.evl > 0 ∧ s.nsz = 0 then mergeLoop { s with tb := e.time, on := true } es
    else mergeLoop s es

/-- The events of the merge, src/md-eval/md-eval.pl:2098-2108. -/
def mergeEvents (zones uem : List (Int × Int)) : List Ev :=
  zones.flatMap (fun z => both .nsz z.1 z.2) ++ (uem.filter (fun u => u.1 < u.2)).flatMap (fun u => both .uem u.1 u.2)

/-- Taking zones out of the partition. -/
def takeOut (sort : List Ev → List Ev) (zones uem : List (Int × Int)) : List (Int × Int) :=
  mergeLoop ⟨0, 0, 0, false⟩ (sort (mergeEvents zones uem))

/-- `exclude_overlapping_speech_from_uem` (option -1), src/md-eval/md-eval.pl:2072-2129. -/
def excludeOverlap (sort : List Ev → List Ev) (uem : List (Int × Int)) (ref : List Turn) : List (Int × Int) :=
  takeOut sort (overlapZones sort ref) uem

/-! ## Exclusion zones -/

/-- The types of the events of `add_exclusion_zones_to_uem`, src/md-eval/md-eval.pl:2143-2158. -/
inductive NsType where
  | lex
  | seg
  | nsz
  deriving Repr, DecidableEq

/-- An event, src/md-eval/md-eval.pl:2146-2157. -/
structure NsEv where
  type : NsType
  beg : Bool
  time : Int
  deriving Repr, DecidableEq

/-- The variables of the loop, src/md-eval/md-eval.pl:2165-2168; the begins of words and zones are never read. -/
structure NsSt where
  on : Bool
  tseg : Int
  tendNsz : Int
  tendLex : Int
  lex : Int
  nsz : Int
  deriving Repr, DecidableEq

/-- Counting, src/md-eval/md-eval.pl:2170-2188. -/
def NsSt.count (st : NsSt) (e : NsEv) : NsSt :=
  match e.type with
  | .lex => if e.beg then { st with lex := st.lex + 1 }
            else { st with lex := st.lex - 1, tendLex := if st.lex = 1 then e.time else st.tendLex }
  | .nsz => if e.beg then { st with nsz := st.nsz + 1 }
            else { st with nsz := st.nsz - 1, tendNsz := if st.nsz = 1 then e.time else st.tendNsz }
  | .seg => { st with tseg := e.time }

/-- The loop that makes the zones, src/md-eval/md-eval.pl:2169-2213: the events and the count of zones left open.  `m` is
`$max_extend`, zero for the `$epsilon` of the program. -/
def nsLoop (m : Int) : NsSt → List NsEv → List Ev × Int
  | st, [] => ([], st.nsz)
  | st, e :: es =>
    let s := st.count e
    if s.on then
      if s.nsz = 0 ∨ e.type ≠ .nsz then nsLoop m s es
      else
        let r := nsLoop m { s with on := false } es
        (⟨.nsz, true, if s.lex > 0 then e.time else max (max s.tendLex s.tseg) (e.time - m)⟩ :: r.1, r.2)
    else if s.nsz = 0 ∧ (s.lex > 0 ∨ e.type = .seg) then
      let r := nsLoop m { s with on := true } es
      (⟨.nsz, false, min (s.tendNsz + m) e.time⟩ :: r.1, r.2)
    else if s.nsz = 1 ∧ e.type = .nsz ∧ e.beg = true ∧ e.time > s.tendNsz + 2 * m then
      let r := nsLoop m s es
      (⟨.nsz, false, s.tendNsz + m⟩ :: ⟨.nsz, true, e.time - m⟩ :: r.1, r.2)
    else nsLoop m s es

/-- `add_exclusion_zones_to_uem` for the sorted events `ns`, src/md-eval/md-eval.pl:2132-2241. -/
def addExclusion (sort : List Ev → List Ev) (m : Int) (ns : List NsEv) (uem : List (Int × Int)) : List (Int × Int) :=
  let r := nsLoop m ⟨true, 0, 0, 0, 0, 0⟩ ns
  mergeLoop ⟨0, 0, r.2, false⟩ (sort (r.1 ++ (uem.filter (fun u => u.1 < u.2)).flatMap (fun u => both .uem u.1 u.2)))

/-! ## Reading, types of speakers -/

/-- The check for overlapping turns of a speaker, src/md-eval/md-eval.pl:589-600: `prev` is `$prev_token`. -/
def checkTurns : Option Turn → List Turn → Bool
  | _, [] => true
  | prev, t :: ts =>
    match prev with
    | none => checkTurns prev ts
    | some p => if t.tb ≥ p.te then checkTurns (some t) ts else false

/-- The types of the speakers of one side in a segment with their numbers, in some order, src/md-eval/md-eval.pl:1989-2000. -/
def typeCount (types : List Nat) : List (Nat × Int) := types.foldl (fun l t => bump t 1 l) []

/-- The cells of the confusion matrix of a segment of duration one, src/md-eval/md-eval.pl:2001-2015: `none` stands for missed or false
alarm.  `nref`, `nsys` are left over from the loops as in the program. -/
def typeCells (rs ss : List (Nat × Int)) (nref nsys : Int) : List ((Option Nat × Option Nat) × Int) :=
  let lastSys := (ss.getLast?.map Prod.snd).getD nsys
  let lastRef := (rs.getLast?.map Prod.snd).getD nref
  rs.flatMap (fun r => ss.map (fun s => ((some r.1, some s.1), min r.2 s.2)) ++ [((some r.1, none), max (r.2 - lastSys) 0)]) ++
    ss.map (fun s => ((none, some s.1), max (s.2 - lastRef) 0))

/-! ## The mapping of speakers -/

/-- What the search for a matching leaves behind: the mates of the columns and of the rows, `row_dec` and `col_inc`,
src/md-eval/md-eval.pl:2674-2675. -/
structure Found where
  rowMate : Nat → Option Nat
  colMate : Nat → Option Nat
  rowDec : Nat → Int
  colInc : Nat → Int

/-- The cost of pairing a row with a column times `K` = 1E12, the inverse of `$required_precision`: `M` is `-$min_score`, the largest
overlap; pairs without overlap have `no_match_cost`, src/md-eval/md-eval.pl:2700-2717. -/
def cell (K M : Int) (ov : Nat → Nat → Option Int) (k l : Nat) : Int :=
  match ov k l with
  | some o => K * (M - o)
  | none => K * M + M

/-- The minimum of a column, src/md-eval/md-eval.pl:2719-2729. -/
def colMin (K M : Int) (ov : Nat → Nat → Option Int) (n l : Nat) : Int :=
  (List.range n).foldl (fun m k => min m (cell K M ov k l)) (K * M + M)

/-- The check of the result, in exact arithmetic, src/md-eval/md-eval.pl:2862-2888. -/
def checkResult (n : Nat) (c : Nat → Nat → Int) (f : Found) : Bool :=
  (List.range n).all (fun k => (List.range n).all (fun l => decide (f.rowDec k - f.colInc l ≤ c k l))) &&
    (List.range n).all (fun k => (f.colMate k).any (fun l => decide (c k l = f.rowDec k - f.colInc l)))

/-- The pairs handed back, src/md-eval/md-eval.pl:2890-2898. -/
def matched (n : Nat) (ov : Nat → Nat → Option Int) (f : Found) : List (Nat × Nat) :=
  (List.range n).filterMap (fun l => (f.rowMate l).bind (fun k => if (ov k l).isSome then some (k, l) else none))

/-- `weighted_bipartite_graph_match` from the check on, src/md-eval/md-eval.pl:2862-2899. -/
def bgm (K M : Int) (ov : Nat → Nat → Option Int) (n : Nat) (f : Found) : Option (List (Nat × Nat)) :=
  if checkResult n (fun k l => cell K M ov k l - colMin K M ov n l) f then some (matched n ov f) else none

/-- The overlap of the speakers number `k` and `l` of two lists, if they have any, src/md-eval/md-eval.pl:1899-1905, 2459-2464. -/
def cells (rows cols : List Nat) (o : Nat → Nat → Int) (k l : Nat) : Option Int :=
  (rows[k]?).bind (fun r => (cols[l]?).bind (fun s => if 0 < o r s then some (o r s) else none))

/-- The largest overlap. -/
def maxOverlap (rows cols : List Nat) (o : Nat → Nat → Int) : Int :=
  (rows.flatMap (fun r => cols.map (fun s => o r s))).foldl max 0

/-- `map_speakers`: pairs of a speaker of the reference and one of the system, src/md-eval/md-eval.pl:2449-2470, 2685-2717; the smaller
side are the columns, and each side has a name more. -/
def mapSpeakers (K : Int) (rows cols : List Nat) (o : Nat → Nat → Int) (f : Found) : Option (List (Nat × Nat)) :=
  let n := max rows.length cols.length + 1
  let M := maxOverlap rows cols o
  if rows.length < cols.length then
    (bgm K M (cells cols rows (fun s r => o r s)) n f).map (List.filterMap (fun p => (rows[p.2]?).bind (fun r => (cols[p.1]?).map (fun s => (r, s)))))
  else (bgm K M (cells rows cols o) n f).map (List.filterMap (fun p => (rows[p.1]?).bind (fun r => (cols[p.2]?).map (fun s => (r, s)))))

/-- The hash of the mapping. -/
def mapOf (l : List (Nat × Nat)) (r : Nat) : Option Nat := (l.find? (fun p => p.1 == r)).map Prod.snd

/-! ## The search for the matching -/

/-- Assignment to an element of an array. -/
def upd {α : Type} (f : Nat → α) (k : Nat) (v : α) (x : Nat) : α := if x = k then v else f x

/-- The smallest cost of a row, over the real columns only, src/md-eval/md-eval.pl:2740-2745; `B` is `$no_match_cost`. -/
def rowMin (nc : Nat) (B : Int) (c : Nat → Nat → Int) (k : Nat) : Int := (List.range nc).foldl (fun m l => min m (c k l)) B

/-- The loop of the initial stage, src/md-eval/md-eval.pl:2737-2760; `none` is -1 in `@col_mate` and undefined in `@row_mate`. -/
def initial (n nc : Nat) (B : Int) (c : Nat → Nat → Int) : List Nat → Found → Found
  | [], f => f
  | k :: ks, f =>
    let m := rowMin nc B c k
    match (List.range n).find? (fun l => decide (c k l = m) && (f.rowMate l).isNone) with
    | some l => initial n nc B c ks { f with rowDec := upd f.rowDec k m, colMate := upd f.colMate k (some l), rowMate := upd f.rowMate l (some k) }
    | none => initial n nc B c ks { f with rowDec := upd f.rowDec k m, colMate := upd f.colMate k none }

/-- The variables of a stage: `@slack` with `none` for `$INF`, `@parent_row`, `@slack_row`, `@unchosen_row` up to `$t`,
src/md-eval/md-eval.pl:2675.  `$INF`, 1E30, is taken to be larger than all costs. -/
structure Forest where
  slack : Nat → Option Int
  parent : Nat → Nat
  slackRow : Nat → Nat
  queue : List Nat

/-- The costs left by the duals, src/md-eval/md-eval.pl:2781. -/
def left (c : Nat → Nat → Int) (h : Found) (k l : Nat) : Int := c k l - h.rowDec k + h.colInc l

/-- Exploring a row: the columns that are left; the column where the matching can be increased, if there is one,
src/md-eval/md-eval.pl:2773-2795. -/
def explore (c : Nat → Nat → Int) (h : Found) (k : Nat) : List Nat → Forest → Forest × Option Nat
  | [], f => (f, none)
  | l :: ls, f =>
    let del := left c h k l
    if (f.slack l).all (fun v => decide (0 < v)) && (f.slack l).all (fun v => decide (del < v)) then
      if del = 0 then
        match h.rowMate l with
        | none => (f, some l)
        | some r => explore c h k ls { f with slack := upd f.slack l (some 0), parent := upd f.parent l k, queue := f.queue ++ [r] }
      else explore c h k ls { f with slack := upd f.slack l (some del), slackRow := upd f.slackRow l k }
    else explore c h k ls f

/-- The smallest slack that is not zero, src/md-eval/md-eval.pl:2802-2807. -/
def smallest (f : Forest) : List Nat → Option Int → Option Int
  | [], s => s
  | l :: ls, s =>
    if f.slack l ≠ some 0 ∧ (f.slack l).any (fun v => s.all (fun w => decide (v < w))) then smallest f ls (f.slack l) else smallest f ls s

/-- Introducing a zero: the columns that are left, src/md-eval/md-eval.pl:2812-2835. -/
def shift (s : Int) (rowMate : Nat → Option Nat) : List Nat → Forest → (Nat → Int) → Forest × (Nat → Int) × Option Nat
  | [], f, ci => (f, ci, none)
  | l :: ls, f, ci =>
    if f.slack l ≠ some 0 then
      let f1 := { f with slack := upd f.slack l ((f.slack l).map (fun v => v - s)) }
      if f1.slack l = some 0 then
        match rowMate l with
        | none => (f1, ls.foldl (fun ci j => if f1.slack j = some 0 then upd ci j (ci j + s) else ci) ci, some l)
        | some r => shift s rowMate ls { f1 with parent := upd f1.parent l (f1.slackRow l), queue := f1.queue ++ [r] } ci
      else shift s rowMate ls f1 ci
    else shift s rowMate ls f (upd ci l (ci l + s))

/-- A stage up to the row and the column to be paired, src/md-eval/md-eval.pl:2768-2836.  The loops end after a number of rounds that is
given; `none` if they do not. -/
def stage (n : Nat) (c : Nat → Nat → Int) : Nat → Found → Forest → Nat → Option (Found × Forest × Nat × Nat)
  | 0, _, _, _ => none
  | fuel + 1, h, f, q =>
    match f.queue[q]? with
    | some k =>
      match explore c h k (List.range n) f with
      | (f', some l) => some (h, f', k, l)
      | (f', none) => stage n c fuel h f' (q + 1)
    | none =>
      match smallest f (List.range n) none with
      | none => none
      | some s =>
        let rd := f.queue.foldl (fun d k => upd d k (d k + s)) h.rowDec
        match shift s h.rowMate (List.range n) f h.colInc with
        | (f', ci, some l) => some ({ h with rowDec := rd, colInc := ci }, f', f'.slackRow l, l)
        | (f', ci, none) => stage n c fuel { h with rowDec := rd, colInc := ci } f' q

/-- Updating the matching, src/md-eval/md-eval.pl:2838-2847; `none` if it takes more rounds than given. -/
def augment (parent : Nat → Nat) : Nat → Found → Nat → Nat → Option Found
  | 0, _, _, _ => none
  | fuel + 1, h, k, l =>
    let h' := { h with colMate := upd h.colMate k (some l), rowMate := upd h.rowMate l (some k) }
    match h.colMate k with
    | none => some h'
    | some j => augment parent fuel h' (parent j) j

/-- The forest at the begin of a stage, src/md-eval/md-eval.pl:2732-2735, 2758-2759, 2852-2859. -/
def fresh (n : Nat) (h : Found) : Forest :=
  ⟨fun _ => none, fun _ => 0, fun _ => 0, (List.range n).filter (fun k => (h.colMate k).isNone)⟩

/-- The stages, by `$unmatched`, src/md-eval/md-eval.pl:2762-2860. -/
def stages (n : Nat) (c : Nat → Nat → Int) : Nat → Found → Option Found
  | 0, h => some h
  | u + 1, h =>
    (stage n c (2 * n + 1) h (fresh n h) 0).bind (fun r => (augment r.2.1.parent (n + 1) r.1 r.2.2.1 r.2.2.2).bind (stages n c u))

/-- The search, src/md-eval/md-eval.pl:2731-2860. -/
def search (n nc : Nat) (B : Int) (c : Nat → Nat → Int) : Option Found :=
  let h := initial n nc B c (List.range n) ⟨fun _ => none, fun _ => none, fun _ => 0, fun _ => 0⟩
  stages n c (fresh n h).queue.length h

/-- `map_speakers` with the search, src/md-eval/md-eval.pl:2449-2470, 2669-2899. -/
def mapSpeakersFull (K : Int) (rows cols : List Nat) (o : Nat → Nat → Int) : Option (List (Nat × Nat)) :=
  let n := max rows.length cols.length + 1
  let M := maxOverlap rows cols o
  let ov := if rows.length < cols.length then cells cols rows (fun s r => o r s) else cells rows cols o
  (search n (min rows.length cols.length + 1) (K * M + M) (fun k l => cell K M ov k l - colMin K M ov n l)).bind (mapSpeakers K rows cols o)

/-! ## A sort -/

/-- Insertion. -/
def insertEv (le : Ev → Ev → Bool) (a : Ev) : List Ev → List Ev
  | [] => [a]
  | b :: l => if le a b then a :: b :: l else b :: insertEv le a l

/-- A sort, for examples. -/
def isort (le : Ev → Ev → Bool) (l : List Ev) : List Ev := l.foldr (insertEv le) []

/-- Ends first, src/md-eval/md-eval.pl:2086-2088, 2107-2109, 2288-2290. -/
def endFirst (a b : Ev) : Bool := decide (a.time < b.time) || (decide (a.time = b.time) && (b.beg || !a.beg))

/-- Begins first, src/md-eval/md-eval.pl:2052-2054. -/
def begFirst (a b : Ev) : Bool := decide (a.time < b.time) || (decide (a.time = b.time) && (a.beg || !b.beg))

end Verif.Diar
