import Verif.AscGraph.Trace
/-!
# asclite alignment: theorems C06, C07, C08, C09, C51
-/
set_option autoImplicit false
namespace Verif.AscGraph

/-! ### a concrete input: hypothesis `a c`, references `{ a / b } c` and `c` -/

/-- Token with an identity. -/
def mkTok (n : Nat) (opt : Bool) : Tok := ⟨n, opt, -1, -1, 0, 10⟩

/-- Default settings without pruning. -/
def demoCfg : Cfg where
  typeCost := 1
  costTrans := 400
  costIns := 300
  costOpt := 200
  costSpk := 100
  costAdaptive := 50
  optRef := true
  optHyp := false
  indexRef := 1
  prune := false
  word := false
  speaker := false
  adaptive := false
  wordAlign := false
  pruneThr := 0
  wordThr := 0
  maxDur := 10
  safeDivider := 1
  eqv t u := t.id == u.id
  editDist _ _ := 0
  sameSpk _ _ := true

/-- `a c`. -/
def demoHyp : Stream := ⟨[mkTok 1 false, mkTok 3 false], fun i => if i = 2 then [1] else [], [1], [2]⟩
/-- `{ a / b } c`. -/
def demoRef : Stream :=
  ⟨[mkTok 1 true, mkTok 2 false, mkTok 3 false], fun i => if i = 3 then [1, 2] else [], [1, 2], [3]⟩
/-- `c`. -/
def demoRef2 : Stream := ⟨[mkTok 3 false], fun _ => [], [1], [1]⟩
/-- The three streams. -/
def demo : G := ⟨demoCfg, [demoHyp, demoRef, demoRef2]⟩
/-- Token position as rank. -/
def demoRank : Nat → Nat → Nat := fun _ k => k

theorem demo_wf : demo.WF demoRank := by
  refine ⟨by decide, ?_⟩
  intro i s hs
  have hi : i < 3 := (List.getElem?_eq_some_iff.1 hs).1
  match i, hi, hs with
  | 0, _, hs =>
    obtain rfl : demoHyp = s := by simpa [demo] using hs
    refine ⟨by decide, by decide, ?_, ?_, ?_⟩ <;> intro i h1 h2 <;> have h2 : i ≤ 2 := h2 <;>
      (rcases (by omega : i = 1 ∨ i = 2) with rfl | rfl) <;> decide
  | 1, _, hs =>
    obtain rfl : demoRef = s := by simpa [demo] using hs
    refine ⟨by decide, by decide, ?_, ?_, ?_⟩ <;> intro i h1 h2 <;> have h2 : i ≤ 3 := h2 <;>
      (rcases (by omega : i = 1 ∨ i = 2 ∨ i = 3) with rfl | rfl | rfl) <;> decide
  | 2, _, hs =>
    obtain rfl : demoRef2 = s := by simpa [demo] using hs
    refine ⟨by decide, by decide, ?_, ?_, ?_⟩ <;> intro i h1 h2 <;> have h2 : i ≤ 1 := h2 <;>
      (rcases (by omega : i = 1) with rfl) <;> decide

theorem demo_costs : demo.CostsOK := by
  constructor <;> first | decide | (intro h; exact absurd h (by decide))

/-! ### master statement -/

/-- For every well-formed input and every setting with non-negative costs (pruning and word optimisation
on or off), the aligner finishes; the alignment it returns is an alignment of all streams with the
reported cost; and no alignment whose steps pass the pruning tests is cheaper. -/
theorem align_spec {g : G} {rank : Nat → Nat → Nat} (hw : g.WF rank) (hc : g.CostsOK) :
    ∃ need, ∀ fuel, need ≤ fuel → ∃ v cols, align g fuel = some (v, cols) ∧
      IsAlignment g cols ∧ alignmentCost g cols = v ∧
      ∀ a, IsAlignment g a → Accepted g a → v ≤ alignmentCost g a := by
  have bound : ∃ need, ∀ c ∈ startingCoords g, rankFrom rank 0 c < need := by
    generalize startingCoords g = cs
    induction cs with
    | nil => exact ⟨0, by simp⟩
    | cons c cs ih =>
      obtain ⟨n, hn⟩ := ih
      refine ⟨n + rankFrom rank 0 c + 1, fun x hx => ?_⟩
      rcases List.mem_cons.1 hx with rfl | hx
      · omega
      · have := hn x hx; omega
  obtain ⟨need, hneed⟩ := bound
  refine ⟨need, fun fuel hf => ?_⟩
  obtain ⟨m, h1, h2, _, h4⟩ := fillGraph_spec hw hc fuel (startingCoords g) (fun _ => uncalculated)
    (fun c hcm => ⟨start_dom hw hcm, by have := hneed c hcm; omega⟩)
    ⟨fun c h => absurd rfl h, fun c h => absurd rfl h, fun c h => absurd rfl h⟩
  have hnn : ∀ c ∈ [] ++ startingCoords g, 0 ≤ m c := fun c hcm =>
    (h2.min c (h4 c (by simpa using hcm))).1.nonneg (dpok hw hc) (h2.dom c (h4 c (by simpa using hcm)))
  rcases best_spec m (startingCoords g) [] (-1) none hnn (Or.inl ⟨rfl, rfl, rfl⟩) with
    h | ⟨c, hcm, hb, hcost, hmin⟩
  · exact absurd (by simpa using h) (startingCoords_ne_nil g)
  · have hcm' : c ∈ startingCoords g := by simpa using hcm
    obtain ⟨rest, hr, hg⟩ := traceLoop_spec hw hc h2 fuel c [] (by have := hneed c hcm'; omega) (h4 c hcm')
    obtain ⟨ha, hac⟩ := good_complete hg hcm'
    refine ⟨m c, rest.reverse, ?_, ha, hac, ?_⟩
    · unfold align
      simp only [h1]
      unfold retrieve
      simp only [hb, hr, List.nil_append, hcost]
    · intro a haa hacc
      obtain ⟨hp, hst⟩ := alignment_start haa
      have h5 := (h2.min _ (h4 _ hst)).2 _ (pathCost_of_prefix hw hacc hp)
      have h6 := hmin (coordOf g a) (by simpa using hst)
      omega

/-! ### C06 -/

/-- C06.  Without pruning, the reported cost is the minimum cost of an alignment of all streams. -/
theorem best_cost_is_minimum {g : G} {rank : Nat → Nat → Nat} (hw : g.WF rank) (hc : g.CostsOK)
    (hp : g.cfg.prune = false) (hwo : g.cfg.word = false) :
    ∃ need, ∀ fuel, need ≤ fuel → ∃ v cols, align g fuel = some (v, cols) ∧
      (∃ a, IsAlignment g a ∧ alignmentCost g a = v) ∧
      ∀ a, IsAlignment g a → v ≤ alignmentCost g a := by
  obtain ⟨need, h⟩ := align_spec hw hc
  refine ⟨need, fun fuel hf => ?_⟩
  obtain ⟨v, cols, h1, h2, h3, h4⟩ := h fuel hf
  exact ⟨v, cols, h1, ⟨cols, h2, h3⟩, fun a ha => h4 a ha (accepted_of_off hp hwo a)⟩

/-- With word based costs and no extra terms the column costs are the plain ones. -/
theorem plain_colCost (g : G) (ht : g.cfg.typeCost ≠ 2) (hs : g.cfg.speaker = false)
    (ha : g.cfg.adaptive = false) (hwa : g.cfg.wordAlign = false) (col : Column) :
    colCost g col = (PlainCosts.mk g.cfg.costTrans g.cfg.costIns g.cfg.costOpt g.cfg.optRef
      g.cfg.optHyp).col g.cfg.eqv g col := by
  unfold colCost PlainCosts.col
  split
  · rename_i i h
    cases g.tok i ((col.getD i none).getD 0) with
    | none => rfl
    | some t =>
      simp only [costSingle, if_neg ht, costInsertion, deletable, PlainCosts.lone]
      by_cases hr : g.cfg.indexRef ≤ i
      · have hn : ¬ i < g.cfg.indexRef := by omega
        rcases Bool.eq_false_or_eq_true t.optional with h1 | h1 <;>
          rcases Bool.eq_false_or_eq_true g.cfg.optRef with h2 | h2 <;> simp [hr, hn, h1, h2]
      · have hn : i < g.cfg.indexRef := by omega
        rcases Bool.eq_false_or_eq_true t.optional with h1 | h1 <;>
          rcases Bool.eq_false_or_eq_true g.cfg.optHyp with h2 | h2 <;> simp [hr, hn, h1, h2]
  · rename_i i j h
    cases g.tok i ((col.getD i none).getD 0) with
    | none => rfl
    | some t1 =>
      cases g.tok j ((col.getD j none).getD 0) with
      | none => rfl
      | some t2 =>
        simp only [costPair, if_neg ht, costTransWord, costAdaptive, costWordAlign, hs, ha, hwa]
        cases g.cfg.eqv t1 t2 <;> simp
  · rfl

/-- C06 with the costs written out: matches are free, substitutions, insertions/deletions and optional
tokens have their unit costs, and the reported cost is the minimum over all alignments. -/
theorem best_cost_is_minimum_plain {g : G} {rank : Nat → Nat → Nat} (hw : g.WF rank) (hc : g.CostsOK)
    (hp : g.cfg.prune = false) (hwo : g.cfg.word = false) (ht : g.cfg.typeCost ≠ 2)
    (hs : g.cfg.speaker = false) (ha : g.cfg.adaptive = false) (hwa : g.cfg.wordAlign = false) :
    ∃ need, ∀ fuel, need ≤ fuel → ∃ v cols, align g fuel = some (v, cols) ∧
      let cost := fun a : List Column => (a.map ((PlainCosts.mk g.cfg.costTrans g.cfg.costIns
        g.cfg.costOpt g.cfg.optRef g.cfg.optHyp).col g.cfg.eqv g)).sum
      (∃ a, IsAlignment g a ∧ cost a = v) ∧ ∀ a, IsAlignment g a → v ≤ cost a := by
  have e : colCost g = _ := funext (plain_colCost g ht hs ha hwa)
  have := best_cost_is_minimum hw hc hp hwo
  unfold alignmentCost at this
  rw [e] at this
  exact this

example : ∃ need, ∀ fuel, need ≤ fuel → ∃ v cols, align demo fuel = some (v, cols) ∧
    (∃ a, IsAlignment demo a ∧ alignmentCost demo a = v) ∧
    ∀ a, IsAlignment demo a → v ≤ alignmentCost demo a :=
  best_cost_is_minimum demo_wf demo_costs rfl rfl

/-! ### C07, C08 -/

/-- C07.  The retrieved alignment consists of legal steps through all streams, from their starts to their
ends, and its column costs add up to the reported best cost (pruning on or off). -/
theorem retrieved_alignment_has_reported_cost {g : G} {rank : Nat → Nat → Nat} (hw : g.WF rank)
    (hc : g.CostsOK) :
    ∃ need, ∀ fuel, need ≤ fuel → ∃ v cols, align g fuel = some (v, cols) ∧
      IsAlignment g cols ∧ alignmentCost g cols = v := by
  obtain ⟨need, h⟩ := align_spec hw hc
  refine ⟨need, fun fuel hf => ?_⟩
  obtain ⟨v, cols, h1, h2, h3, _⟩ := h fuel hf
  exact ⟨v, cols, h1, h2, h3⟩

/-- C08.  The tokens of one stream in the retrieved alignment, gaps skipped, are one complete path through
that stream's token graph; every column holds a lone token or one hypothesis and one reference token. -/
theorem retrieved_alignment_projects_to_paths {g : G} {rank : Nat → Nat → Nat} (hw : g.WF rank)
    (hc : g.CostsOK) :
    ∃ need, ∀ fuel, need ≤ fuel → ∃ v cols, align g fuel = some (v, cols) ∧
      (∀ (i : Nat) (s : Stream), g.streams[i]? = some s → CompletePath s (proj i cols)) ∧
      ∀ col ∈ cols, LegalColumn g.cfg.indexRef g.dim col := by
  obtain ⟨need, h⟩ := align_spec hw hc
  refine ⟨need, fun fuel hf => ?_⟩
  obtain ⟨v, cols, h1, h2, _, _⟩ := h fuel hf
  exact ⟨v, cols, h1, h2.2, h2.1⟩

/-- A plain word sequence of `n` tokens. -/
def linearStream (toks : List Tok) : Stream where
  toks := toks
  precs i := if i ≤ 1 then [] else [i - 1]
  firsts := if toks = [] then [] else [1]
  lasts := if toks = [] then [] else [toks.length]

theorem linear_walk {toks : List Tok} : ∀ {l : List Nat} {p e : Nat},
    Walk (linearStream toks) p l e → (p = 0 → l ≠ [] → toks ≠ []) →
    l = (List.range l.length).map (fun k => p + 1 + k) ∧ e = p + l.length
  | [], p, e, h, _ => by cases h; simp
  | i :: l, p, e, h, hp => by
    cases h with
    | cons _ _ _ _ he hw =>
      have hi : i = p + 1 := by
        obtain ⟨⟨h1, h2⟩, ⟨h3, h4⟩ | h3⟩ := he
        · have hne := hp h3 (by simp)
          simp [linearStream, hne] at h4
          omega
        · simp only [linearStream] at h3
          split at h3
          · simp at h3
          · simp at h3; omega
      subst hi
      obtain ⟨a, b⟩ := linear_walk hw (by omega)
      refine ⟨?_, by simp only [List.length_cons]; omega⟩
      rw [List.length_cons, List.range_succ_eq_map, List.map_cons, List.map_map, Nat.add_zero]
      congr 1
      rw [a]
      simp only [List.length_map, List.length_range]
      apply List.map_congr_left
      intro k _
      simp; omega

/-- For a plain word sequence, a complete path is all of its words in order: with
`retrieved_alignment_projects_to_paths` nothing is lost, duplicated, reordered or invented. -/
theorem linear_complete_path {toks : List Tok} {l : List Nat}
    (h : CompletePath (linearStream toks) l) : l = (List.range toks.length).map (· + 1) := by
  obtain ⟨e, hw, hl⟩ := h
  cases toks with
  | nil =>
    rcases hl with hl | ⟨_, hl⟩
    · simp [linearStream] at hl
    · simp [hl]
  | cons t ts =>
    obtain ⟨a, b⟩ := linear_walk hw (by simp)
    have he : e = (t :: ts).length := by
      rcases hl with hl | ⟨hl, _⟩
      · simp [linearStream] at hl; simpa using hl
      · simp [linearStream] at hl
    have hlen : l.length = (t :: ts).length := by omega
    rw [hlen] at a
    rw [a]
    apply List.map_congr_left
    intro k _
    omega

theorem linear_wf (toks : List Tok) : (linearStream toks).WF (fun k => k) := by
  constructor
  · intro i hi
    simp only [linearStream] at hi
    split at hi
    · simp at hi
    · rename_i h
      have : 0 < toks.length := by cases toks <;> simp_all
      simp at hi; subst hi; exact ⟨by omega, this⟩
  · intro i hi
    simp only [linearStream] at hi
    split at hi
    · simp at hi
    · rename_i h
      have : 0 < toks.length := by cases toks <;> simp_all
      simp at hi; subst hi; exact ⟨by omega, by simp [linearStream]⟩
  · intro i h1 h2 p hp
    simp only [linearStream] at hp h2 ⊢
    split at hp
    · simp at hp
    · simp at hp; subst hp; omega
  · intro i h1 h2 p hp
    simp only [linearStream] at hp
    split at hp
    · simp at hp
    · simp at hp; subst hp; omega
  · intro i h1 h2 hp
    simp only [linearStream] at hp h2 ⊢
    split at hp
    · rename_i hi
      have : i = 1 := by omega
      have : toks ≠ [] := by intro e; rw [e] at h2; simp at h2; omega
      simp [this]; omega
    · simp at hp

example : ∃ need, ∀ fuel, need ≤ fuel → ∃ v cols, align demo fuel = some (v, cols) ∧
    (∀ (i : Nat) (s : Stream), demo.streams[i]? = some s → CompletePath s (proj i cols)) ∧
    ∀ col ∈ cols, LegalColumn 1 3 col :=
  retrieved_alignment_projects_to_paths demo_wf demo_costs

example : ∃ need, ∀ fuel, need ≤ fuel → ∃ v cols, align demo fuel = some (v, cols) ∧
    IsAlignment demo cols ∧ alignmentCost demo cols = v :=
  retrieved_alignment_has_reported_cost demo_wf demo_costs

/-! ### step costs and ties -/

/-- C52.  Word based cost of putting two tokens side by side, all optional terms included: the substitution
cost (plus edit distance when enabled) for different words, the speaker cost for equal words of
non-matching speakers when enabled, plus, when enabled and all times are known, the adaptive unit
multiplied by the silence between the two tokens and divided by the group duration. -/
theorem pair_cost_breakdown (cfg : Cfg) (t1 t2 : Tok) (ht : cfg.typeCost ≠ 2)
    (h1 : effStart t1 ≤ effStop t1) (h2 : effStart t2 ≤ effStop t2) :
    costPair cfg t1 t2 =
      (if cfg.eqv t1 t2 then (if cfg.speaker ∧ cfg.sameSpk t1 t2 = false then cfg.costSpk else 0)
       else cfg.costTrans + (if cfg.wordAlign then (cfg.editDist t1 t2 : Int) else 0)) +
      (if cfg.adaptive ∧ 0 ≤ effStart t1 ∧ 0 ≤ effStart t2 ∧ 0 ≤ effStop t1 ∧ 0 ≤ effStop t2 then
        (cfg.costAdaptive * silence (effStart t1) (effStop t1) (effStart t2) (effStop t2)).tdiv cfg.maxDur
       else 0) := by
  have hadp : costAdaptive cfg t1 t2 =
      (if cfg.adaptive ∧ 0 ≤ effStart t1 ∧ 0 ≤ effStart t2 ∧ 0 ≤ effStop t1 ∧ 0 ≤ effStop t2 then
        (cfg.costAdaptive * silence (effStart t1) (effStop t1) (effStart t2) (effStop t2)).tdiv cfg.maxDur
       else 0) := by
    unfold costAdaptive silence
    by_cases ha : cfg.adaptive = true
    · by_cases hk : 0 ≤ effStart t1 ∧ 0 ≤ effStart t2 ∧ 0 ≤ effStop t1 ∧ 0 ≤ effStop t2
      · have hk' : ¬ (effStart t1 < 0 ∨ effStart t2 < 0 ∨ effStop t1 < 0 ∨ effStop t2 < 0) := by omega
        rw [if_neg (by simp [ha]), if_neg hk',
          if_pos (c := cfg.adaptive = true ∧ 0 ≤ effStart t1 ∧ 0 ≤ effStart t2 ∧ 0 ≤ effStop t1 ∧
            0 ≤ effStop t2) ⟨ha, hk⟩]
        by_cases h3 : effStop t1 < effStart t2
        · rw [if_pos h3]
          have : max 0 (max (effStart t1) (effStart t2) - min (effStop t1) (effStop t2)) =
            effStart t2 - effStop t1 := by omega
          rw [this]
        · rw [if_neg h3]
          by_cases h4 : effStop t2 < effStart t1
          · rw [if_pos h4]
            have : max 0 (max (effStart t1) (effStart t2) - min (effStop t1) (effStop t2)) =
              effStart t1 - effStop t2 := by omega
            rw [this]
          · rw [if_neg h4]
            have : max 0 (max (effStart t1) (effStart t2) - min (effStop t1) (effStop t2)) = 0 := by omega
            rw [this]; simp
      · have hk' : effStart t1 < 0 ∨ effStart t2 < 0 ∨ effStop t1 < 0 ∨ effStop t2 < 0 := by omega
        rw [if_neg (by simp [ha]), if_pos hk', if_neg (fun h => hk h.2)]
    · rw [if_pos (by simp [ha]), if_neg (fun h => ha h.1)]
  unfold costPair
  rw [if_neg ht]
  unfold costTransWord costWordAlign
  rw [hadp]
  cases cfg.eqv t1 t2 <;> cases cfg.speaker <;> cases cfg.sameSpk t1 t2 <;> cases cfg.wordAlign <;>
    simp <;> omega

example : costPair { demoCfg with adaptive := true } ⟨1, false, 0, 2, 0, 9⟩ ⟨2, false, 6, 8, 0, 9⟩ = 420 := by
  decide

/-- C52.  Time based cost of putting two tokens side by side. -/
theorem pair_cost_time (cfg : Cfg) (t1 t2 : Tok) (ht : cfg.typeCost = 2) :
    costPair cfg t1 t2 =
      (cfg.costTrans * (max (t1.start - t2.start) (t2.start - t1.start) + max (t1.stop - t2.stop) (t2.stop - t1.stop)) +
        (if cfg.speaker ∧ cfg.sameSpk t1 t2 = false then cfg.costSpk else 0)).tdiv cfg.safeDivider := by
  unfold costPair costTransTime
  rw [if_pos ht]
  have e1 : ((t1.start - t2.start).natAbs : Int) = max (t1.start - t2.start) (t2.start - t1.start) := by omega
  have e2 : ((t1.stop - t2.stop).natAbs : Int) = max (t1.stop - t2.stop) (t2.stop - t1.stop) := by omega
  rw [e1, e2]
  cases cfg.speaker <;> cases cfg.sameSpk t1 t2 <;> simp

theorem bestPrevLoop_tie (m : Table) (trans : Coord → Coord → Int) (c : Coord) (all : List Coord)
    (hnn : ∀ p ∈ all, 0 ≤ m p + trans c p) :
    ∀ (todo done : List Coord) (best : Int) (bp : Option Coord) (two : Bool),
      done ++ todo = all →
      ((done = [] ∧ best = -1 ∧ bp = none) ∨
        ∃ p ∈ done, bp = some p ∧ best = m p + trans c p ∧ two = twoChanged c p ∧
          (∀ q ∈ done, best ≤ m q + trans c q) ∧
          ∀ q ∈ done, m q + trans c q = best → twoChanged c q = true → two = true) →
      ∀ r, bestPrevLoop m trans c best bp two todo = some r →
        ∀ q ∈ all, m q + trans c q ≤ m r + trans c r → twoChanged c q = true → twoChanged c r = true
  | [], done, best, bp, two, he, hi => by
    intro r hr q hq hle htw
    simp at he
    subst he
    rw [bestPrevLoop] at hr
    rcases hi with ⟨h1, _, _⟩ | ⟨p, hp, h1, h2, h3, h4, h5⟩
    · rw [h1] at hq; simp at hq
    · rw [h1] at hr
      injection hr with hr
      subst hr
      have := h4 q hq
      rw [← h3]
      exact h5 q hq (by omega) htw
  | p :: todo, done, best, bp, two, he, hi => by
    have hp : p ∈ all := by rw [← he]; simp
    have hp0 := hnn p hp
    have step : ∀ (best' : Int) (bp' : Option Coord) (two' : Bool),
        (∃ r ∈ done ++ [p], bp' = some r ∧ best' = m r + trans c r ∧ two' = twoChanged c r ∧
          (∀ q ∈ done ++ [p], best' ≤ m q + trans c q) ∧
          ∀ q ∈ done ++ [p], m q + trans c q = best' → twoChanged c q = true → two' = true) →
        ∀ r, bestPrevLoop m trans c best' bp' two' todo = some r →
        ∀ q ∈ all, m q + trans c q ≤ m r + trans c r → twoChanged c q = true → twoChanged c r = true :=
      fun best' bp' two' hs =>
        bestPrevLoop_tie m trans c all hnn todo (done ++ [p]) best' bp' two' (by simpa using he) (Or.inr hs)
    rw [bestPrevLoop]
    rcases hi with ⟨h1, h2, h3⟩ | ⟨r0, hr0, h1, h2, h3, h4, h5⟩
    · subst h1; subst h2
      rw [if_pos rfl]
      refine step _ _ _ ⟨p, by simp, rfl, rfl, rfl, by simp, ?_⟩
      intro q hq _ ht
      simp at hq; subst hq; exact ht
    · have hb : ¬ best = -1 := by
        have := hnn r0 (by rw [← he]; simp [hr0]); omega
      rw [if_neg hb]
      split
      · rename_i hlt
        refine step _ _ _ ⟨p, by simp, rfl, rfl, rfl, ?_, ?_⟩
        · intro q hq
          rcases List.mem_append.1 hq with hq | hq
          · have := h4 q hq; omega
          · simp at hq; subst hq; exact Int.le_refl _
        · intro q hq he' ht
          rcases List.mem_append.1 hq with hq | hq
          · have := h4 q hq; omega
          · simp at hq; subst hq; exact ht
      · rename_i hlt
        split
        · rename_i heq
          split
          · rename_i htp
            refine step _ _ _ ⟨p, by simp, rfl, rfl, htp.symm, ?_, fun _ _ _ _ => rfl⟩
            intro q hq
            rcases List.mem_append.1 hq with hq | hq
            · have := h4 q hq; omega
            · simp at hq; subst hq; exact Int.le_refl _
          · rename_i htp
            refine step _ _ _ ⟨r0, by simp [hr0], h1, h2, h3, ?_, ?_⟩
            · intro q hq
              rcases List.mem_append.1 hq with hq | hq
              · exact h4 q hq
              · simp at hq; subst hq; omega
            · intro q hq he' ht
              rcases List.mem_append.1 hq with hq | hq
              · exact h5 q hq he' ht
              · simp at hq; subst hq; exact absurd ht htp
        · rename_i heq
          refine step _ _ _ ⟨r0, by simp [hr0], h1, h2, h3, ?_, ?_⟩
          · intro q hq
            rcases List.mem_append.1 hq with hq | hq
            · exact h4 q hq
            · simp at hq; subst hq; omega
          · intro q hq he' ht
            rcases List.mem_append.1 hq with hq | hq
            · exact h5 q hq he' ht
            · simp at hq; subst hq
              cases two with
              | true => rfl
              | false => exact absurd ⟨he', rfl⟩ heq

/-- C53.  Tie rule of the traceback: among the cheapest ways back from a coordinate, a step that consumes a
token on both sides is chosen whenever there is one. -/
theorem traceback_prefers_pairs (g : G) (m : Table) (c : Coord)
    (hnn : ∀ p ∈ prevCoords g c, 0 ≤ m p + transCost g c p) (r : Coord) (hr : bestPrev g m c = some r)
    (q : Coord) (hq : q ∈ prevCoords g c)
    (hmin : m q + transCost g c q ≤ m r + transCost g c r)
    (h2 : 2 ≤ numberChanged c q) : 2 ≤ numberChanged c r := by
  unfold bestPrev at hr
  split at hr
  · simp at hr
  · have := bestPrevLoop_tie m (transCost g) c (prevCoords g c) hnn (prevCoords g c) [] (-1) none false
      (by simp) (Or.inl ⟨rfl, rfl, rfl⟩) r hr q hq hmin (by simpa [twoChanged] using h2)
    simpa [twoChanged] using this

/-- A table in which a pair step and two single steps tie. -/
example : bestPrev { demo with streams := [demoRef2, demoRef2] } (fun c => if c = [0, 0] then 300 else 0)
    [1, 1] = some [0, 0] := by decide

/-! ### C51 -/

/-- C51.  From any coordinate of the alignment graph (pruning and word optimisation on or off): following
predecessors stops after a bounded number of steps, never leaves the graph, and only the all-zero start
coordinate has no predecessor. -/
theorem predecessors_reach_start {g : G} {rank : Nat → Nat → Nat} (hw : g.WF rank) {c : Coord}
    (hd : Dom g c) :
    (∃ bound, ∀ n e, Back g c n e → n ≤ bound) ∧
    (∀ n e, Back g c n e → Dom g e ∧ ((∀ i, e.getD i 0 = 0) ∨ ∃ p, p ∈ prevCoords g e)) ∧
    (∃ n e, Back g c n e ∧ ∀ i, e.getD i 0 = 0) := by
  have dom : ∀ n c e, Dom g c → Back g c n e → Dom g e := by
    intro n c e hd hb
    induction hb with
    | refl c => exact hd
    | step c p n e hp _ ih => exact ih (step_dom hw hd ((mem_prevCoords g hw.1 c p).1 hp).2)
  have bnd : ∀ n c e, Dom g c → Back g c n e → n + rankFrom rank 0 e ≤ rankFrom rank 0 c := by
    intro n c e hd hb
    induction hb with
    | refl c => omega
    | step c p n e hp _ ih =>
      have hs := ((mem_prevCoords g hw.1 c p).1 hp).2
      have h1 := ih (step_dom hw hd hs)
      have h2 := step_rank hw hd hs
      omega
  have prog : ∀ e, Dom g e → (∀ i, e.getD i 0 = 0) ∨ ∃ p, p ∈ prevCoords g e := by
    intro e hd
    cases he : isEnding e with
    | true => exact Or.inl (isEnding_iff.1 he)
    | false => exact Or.inr (no_dead_end hw hd he)
  refine ⟨⟨rankFrom rank 0 c, fun n e hb => by have := bnd n c e hd hb; omega⟩,
    fun n e hb => ⟨dom n c e hd hb, prog e (dom n c e hd hb)⟩, ?_⟩
  have reach : ∀ r c, Dom g c → rankFrom rank 0 c ≤ r → ∃ n e, Back g c n e ∧ ∀ i, e.getD i 0 = 0 := by
    intro r
    induction r with
    | zero =>
      intro c hd hr
      rcases prog c hd with h | ⟨p, hp⟩
      · exact ⟨0, c, .refl c, h⟩
      · have := step_rank hw hd ((mem_prevCoords g hw.1 c p).1 hp).2; omega
    | succ r ih =>
      intro c hd hr
      rcases prog c hd with h | ⟨p, hp⟩
      · exact ⟨0, c, .refl c, h⟩
      · have hs := ((mem_prevCoords g hw.1 c p).1 hp).2
        have := step_rank hw hd hs
        obtain ⟨n, e, hb, h0⟩ := ih p (step_dom hw hd hs) (by omega)
        exact ⟨n + 1, e, .step c p n e hp hb, h0⟩
  exact reach _ c hd (Nat.le_refl _)

/-- A last-token coordinate of the concrete input satisfies the hypotheses. -/
example : Dom demo [2, 3, 1] := start_dom demo_wf (by decide)
example : (prevCoords demo [2, 3, 1]).length = 11 ∧ [1, 2, 1] ∈ prevCoords demo [2, 3, 1] ∧
    [1, 3, 0] ∈ prevCoords demo [2, 3, 1] := by decide

/-! ### C09 -/

/-- C09 is false for the code: the value "both" does not enable the hypothesis side. -/
theorem optionally_both_misses_hyp : ¬ ∀ s, optFlags s = optMeaning s := by
  intro h
  exact absurd (h "both") (by decide)

/-- Observable effect: with "both" an optional hypothesis word that stands alone still costs a full
insertion, whereas with "hyp" it costs the optional cost. -/
theorem optionally_both_hyp_cost (cfg : Cfg) (t : Tok) (i : Nat) (ho : t.optional = true)
    (hi : i < cfg.indexRef) :
    costSingle (setSegmentsCfg cfg "both" 1) i t = 300 ∧
    costSingle (setSegmentsCfg cfg "hyp" 1) i t = 200 := by
  have h1 : optFlags "both" = (true, false) := by decide
  have h2 : optFlags "hyp" = (false, true) := by decide
  have hn : ¬ cfg.indexRef ≤ i := by omega
  simp [costSingle, setSegmentsCfg, costInsertion, deletable, h1, h2, hi, hn, ho]

example : costSingle (setSegmentsCfg demoCfg "both" 1) 0 (mkTok 1 true) = 300 :=
  (optionally_both_hyp_cost demoCfg (mkTok 1 true) 0 rfl (by decide)).1

/-- C09, the part that holds: every value except "both" means what it says, and "both" enables the
reference side.  Missing: "both" enabling the hypothesis side (false, see above). -/
theorem optionally_meaning_partial (s : String) :
    (s ≠ "both" → optFlags s = optMeaning s) ∧ (optFlags s).1 = (optMeaning s).1 := by
  unfold optFlags optMeaning
  by_cases h1 : s = "both"
  · simp [h1]
  · by_cases h2 : s = "ref"
    · simp [h2]
    · by_cases h3 : s = "hyp"
      · simp [h3]
      · simp [h1, h2, h3]

end Verif.AscGraph
