import Verif.Nway.Compute
/-!
# Aligning several systems with each other: theorems C225 to C231
-/
set_option autoImplicit false
namespace Verif.Nway
open Verif.AscGraph

/-! ### concrete inputs -/

/-- Settings of `demoCfg` with all streams on the same side. -/
def cfg3 : Cfg := { demoCfg with indexRef := 0 }

/-- Systems given by their words, a word with its optional flag. -/
def systems (cfg : Cfg) (ws : List (List (Nat × Bool))) : G :=
  ⟨cfg, ws.map (fun w => linearStream (w.map (fun x => mkTok x.1 x.2)))⟩

theorem systems_wf {cfg : Cfg} (h : cfg.indexRef = 0) (ws : List (List (Nat × Bool))) :
    (systems cfg ws).WF (fun _ k => k) := by
  refine ⟨by show cfg.indexRef ≤ _; omega, ?_⟩
  intro i s hs
  obtain ⟨_, w, _, rfl⟩ : i < _ ∧ ∃ w, w ∈ ws ∧ linearStream (w.map (fun x => mkTok x.1 x.2)) = s := by
    have hm := List.mem_of_getElem? hs
    obtain ⟨w, hw, e⟩ := List.mem_map.1 hm
    exact ⟨(List.getElem?_eq_some_iff.1 hs).1, w, hw, e⟩
  exact linear_wf _

/-- Three systems: `a b c`, `a c`, `a b d`. -/
def three : G := systems cfg3 [[(1, false), (2, false), (3, false)], [(1, false), (3, false)], [(1, false), (2, false), (4, true)]]

theorem three_costs : CostsOK three := by
  constructor <;> first | decide | (intro h; exact absurd h (by decide))

theorem id_equiv : Equiv cfg3.eqv where
  refl a := by simp [cfg3, demoCfg]
  symm a b h := by simp [cfg3, demoCfg] at *; omega
  trans a b c h1 h2 := by simp [cfg3, demoCfg] at *; omega

/-! ### C225 -/

/-- C225.  With word based costs and an equivalence of words, the reported cost is that of the returned alignment, which
aligns all the systems with each other, and no alignment of them is cheaper; the cost of a column is what `Prices.col`
says. -/
theorem nway_optimal {g : G} {rank : Nat → Nat → Nat} (hw : g.WF rank) (hc : CostsOK g) (ht : g.cfg.typeCost ≠ 2)
    (he : Equiv g.cfg.eqv) :
    ∃ need, ∀ fuel, need ≤ fuel → ∃ v cols, alignGen g fuel = some (v, cols) ∧ IsNway g cols ∧
      Prices.total ⟨g.cfg.costIns, g.cfg.costOpt, g.cfg.costTrans⟩ g.cfg.eqv g cols = v ∧
      ∀ a, IsNway g a → v ≤ Prices.total ⟨g.cfg.costIns, g.cfg.costOpt, g.cfg.costTrans⟩ g.cfg.eqv g a := by
  obtain ⟨need, h⟩ := alignGen_spec hw hc
  refine ⟨need, fun fuel hf => ?_⟩
  obtain ⟨v, cols, h1, h2, h3, h4⟩ := h fuel hf
  refine ⟨v, cols, h1, h2, ?_, ?_⟩
  · rw [← h3]; exact (totalG_eq he ht cols).symm
  · intro a ha
    rw [show Prices.total ⟨g.cfg.costIns, g.cfg.costOpt, g.cfg.costTrans⟩ g.cfg.eqv g a = totalG g a from
      (totalG_eq he ht a).symm]
    exact h4 a ha

/-- The three systems meet the hypotheses, and are aligned as expected: `a` three times, `b` twice, then `c c d`. -/
example : three.WF (fun _ k => k) ∧ CostsOK three ∧ three.cfg.typeCost ≠ 2 ∧ Equiv three.cfg.eqv ∧
    alignGen three 20 = some (700, [[some 1, some 1, some 1], [some 2, none, some 2], [some 3, some 2, some 3]]) :=
  ⟨systems_wf rfl _, three_costs, by decide, id_equiv, by rw [align_eq]; decide +kernel⟩

/-- C225.  Whatever the costs (time based or not), the aligner considers before each cell exactly the cells reached by
moving any non-empty set of the systems one token back each, and every such choice of tokens. -/
theorem steps_considered {g : G} {rank : Nat → Nat → Nat} (hw : g.WF rank) {c : Coord} (hd : Dom g c) (p : Coord) :
    p ∈ genPrev g c ↔ p.length = c.length ∧ p ≠ c ∧ ∀ (i : Nat) (s : Stream), g.streams[i]? = some s →
      p.getD i 0 = c.getD i 0 ∨ Edge s (p.getD i 0) (c.getD i 0) :=
  mem_genPrev hw hd p

/-- Three systems at their second words: all seven ways to move back. -/
example : Dom three [2, 2, 2] ∧ genPrev three [2, 2, 2] =
    [[1, 1, 1], [2, 1, 1], [1, 2, 1], [2, 2, 1], [1, 1, 2], [2, 1, 2], [1, 2, 2]] := by
  refine ⟨⟨by decide, ?_⟩, by decide +kernel⟩
  intro i s hs
  have hi : i < 3 := (List.getElem?_eq_some_iff.1 hs).1
  match i, hi, hs with
  | 0, _, hs => rw [← Option.some.inj hs]; decide
  | 1, _, hs => rw [← Option.some.inj hs]; decide
  | 2, _, hs => rw [← Option.some.inj hs]; decide

/-! ### C226 -/

/-- C226.  When the systems are plain sequences of words, with any non-negative costs: the alignment has no empty column,
and reading the entries of a system from first to last column gives all its words, once each, in order. -/
theorem nway_keeps_words {cfg : Cfg} {ws : List (List Tok)} (hi : cfg.indexRef ≤ ws.length)
    (hc : CostsOK ⟨cfg, ws.map linearStream⟩) :
    ∃ need, ∀ fuel, need ≤ fuel → ∃ v cols, alignGen ⟨cfg, ws.map linearStream⟩ fuel = some (v, cols) ∧
      (∀ col ∈ cols, col.length = ws.length ∧ ∃ k, some k ∈ col) ∧
      ∀ (i : Nat) (w : List Tok), ws[i]? = some w →
        (cols.filterMap (fun col => col.getD i none)).filterMap (fun k => w[k - 1]?) = w := by
  have hw : G.WF ⟨cfg, ws.map linearStream⟩ (fun _ k => k) := by
    refine ⟨by simpa [G.dim] using hi, ?_⟩
    intro i s hs
    obtain ⟨w, _, e⟩ := List.mem_map.1 (List.mem_of_getElem? hs)
    rw [← e]; exact linear_wf w
  obtain ⟨need, h⟩ := alignGen_spec hw hc
  refine ⟨need, fun fuel hf => ?_⟩
  obtain ⟨v, cols, h1, h2, _, _⟩ := h fuel hf
  refine ⟨v, cols, h1, ?_, ?_⟩
  · intro col hcol
    have := h2.1 col hcol
    exact ⟨by simpa [G.dim] using this.1, occupied_ne_nil.1 this.2⟩
  · intro i w hwi
    have hp := linear_complete_path (h2.2 i (linearStream w) (by simp [hwi]))
    have : proj i cols = cols.filterMap (fun col => col.getD i none) := rfl
    rw [← this, hp, List.filterMap_map]
    have hr := range_filterMap' w
    conv => rhs; rw [hr]
    apply filterMap_ext
    intro k _
    simp

example : (0 : Nat) ≤ 3 ∧ CostsOK three := ⟨by decide, three_costs⟩

/-! ### C227 -/

/-- C227, partial: if the words are all optional or all not optional, the cost does not depend on the order in which the
systems are listed, and their alignments correspond to each other.  Missing: systems with both kinds of words, for which
the code violates it (`order_matters`). -/
theorem order_of_systems_partial {g : G} {rank rank' : Nat → Nat → Nat} {σ : List Nat} (hσ : σ.Perm (List.range g.dim))
    (hw : g.WF rank) (hw' : (reorder σ g).WF rank') (hc : CostsOK g) (hc' : CostsOK (reorder σ g))
    (ht : g.cfg.typeCost ≠ 2) (he : Equiv g.cfg.eqv) {b : Bool} (hb : ∀ s ∈ g.streams, ∀ t ∈ s.toks, t.optional = b) :
    ∃ need, ∀ fuel, need ≤ fuel → ∃ v cols cols', alignGen g fuel = some (v, cols) ∧
      alignGen (reorder σ g) fuel = some (v, cols') ∧ IsNway (reorder σ g) (cols.map (reorderCol σ)) := by
  obtain ⟨n1, h1⟩ := nway_optimal hw hc ht he
  obtain ⟨n2, h2⟩ := nway_optimal hw' hc' ht he
  refine ⟨max n1 n2, fun fuel hf => ?_⟩
  obtain ⟨v, cols, a1, a2, a3, a4⟩ := h1 fuel (by omega)
  obtain ⟨v', cols', b1, b2, b3, b4⟩ := h2 fuel (by omega)
  have hl : ∀ col ∈ cols, col.length = g.dim := fun col hcol => (a2.1 col hcol).1
  have hn := (nway_reorder hσ hl).2 a2
  have hle : v' ≤ v := by
    have := b4 _ hn
    rw [show (reorder σ g).cfg = g.cfg from rfl, total_reorder hσ _ _ hb cols hl, a3] at this
    exact this
  have hge : v ≤ v' := by
    obtain ⟨back, c1, c2⟩ := cols_surj hσ cols' (fun col hcol => by
      rw [(b2.1 col hcol).1, reorder_dim hσ])
    rw [← c2] at b2 b3
    have := a4 _ ((nway_reorder hσ c1).1 b2)
    rw [show (reorder σ g).cfg = g.cfg from rfl, total_reorder hσ _ _ hb back c1] at b3
    omega
  have : v' = v := by omega
  exact ⟨v, cols, cols', a1, by rw [b1, this], hn⟩

/-- Reversing the order of three systems without optional words. -/
example : [2, 1, 0].Perm (List.range 3) ∧
    (alignGen (systems cfg3 [[(1, false), (2, false)], [(2, false)], [(3, false)]]) 20).map Prod.fst =
      (alignGen (reorder [2, 1, 0] (systems cfg3 [[(1, false), (2, false)], [(2, false)], [(3, false)]])) 20).map Prod.fst := by
  rw [align_eq, align_eq]; decide +kernel

/-- C227, the code violates it: a missing word is charged by whether the *last* system's word of the column is optional.
An optional word, another word and a silent system cost 700 in this order; exchanging the first two, 600. -/
theorem order_matters :
    (alignGen (systems cfg3 [[(1, true)], [(2, false)], []]) 20).map Prod.fst = some 700 ∧
    (alignGen (reorder [1, 0, 2] (systems cfg3 [[(1, true)], [(2, false)], []])) 20).map Prod.fst = some 600 := by
  rw [align_eq, align_eq]; decide +kernel

/-- C227, the code: what `align.optionally` says about which side may be optional is not used. -/
theorem optional_setting_ignored (g : G) (b1 b2 : Bool) (fuel : Nat) :
    alignGen ⟨{ g.cfg with optRef := b1, optHyp := b2 }, g.streams⟩ fuel = alignGen g fuel := by
  have hs : ∀ ts, stepCost { g.cfg with optRef := b1, optHyp := b2 } g.streams.length ts = stepCost g.cfg g.streams.length ts :=
    fun _ => rfl
  have hp : genPrev ⟨{ g.cfg with optRef := b1, optHyp := b2 }, g.streams⟩ = genPrev g := rfl
  have htr : genTrans ⟨{ g.cfg with optRef := b1, optHyp := b2 }, g.streams⟩ = genTrans g := rfl
  have hf : ∀ cs m, fillGen ⟨{ g.cfg with optRef := b1, optHyp := b2 }, g.streams⟩ fuel m cs = fillGen g fuel m cs := by
    intro cs
    induction cs with
    | nil => intro m; rfl
    | cons c cs ih =>
      intro m
      rw [fillGen, fillGen, hp, htr, ih]
      split
      · cases calcCost (genPrev g) (genTrans g) fuel m c with
        | none => rfl
        | some r => exact ih _
      · rfl
  have htc : ∀ n m c acc, traceGen ⟨{ g.cfg with optRef := b1, optHyp := b2 }, g.streams⟩ m n c acc = traceGen g m n c acc := by
    intro n
    induction n with
    | zero => intros; rfl
    | succ n ih =>
      intro m c acc
      rw [traceGen, traceGen]
      have : bestGen ⟨{ g.cfg with optRef := b1, optHyp := b2 }, g.streams⟩ m c = bestGen g m c := rfl
      rw [this]
      cases bestGen g m c with
      | none => rfl
      | some p => exact ih _ _ _
  unfold alignGen retrieveGen
  rw [hf]
  simp only [htc]
  rfl

/-! ### C228 -/

/-- C228, partial: the step taken back from a cell is a cheapest one.  Missing: among equally cheap steps the one with
the most words, which the code does not take (`fuller_column_not_taken`). -/
theorem cheapest_step_partial {g : G} {m : Table} {c p : Coord} (hnn : ∀ q ∈ genPrev g c, 0 ≤ m q + genTrans g c q)
    (h : bestGen g m c = some p) :
    p ∈ genPrev g c ∧ ∀ q ∈ genPrev g c, m p + genTrans g c p ≤ m q + genTrans g c q := by
  unfold bestGen at h
  split at h
  · exact absurd h (by simp)
  · rcases bestGenLoop_spec m (genTrans g) c (genPrev g c) hnn (genPrev g c) [] (-1) none 0 (by simp)
      (Or.inl ⟨rfl, rfl, rfl⟩) with ⟨_, h2⟩ | ⟨r, h1, h2, h3⟩
    · rw [h2] at h; exact absurd h (by simp)
    · rw [h2] at h; injection h with h; subst h; exact ⟨h1, h3⟩

/-- Two systems saying `p q r` and `r s t`. -/
def tied : G := systems cfg3 [[(1, false), (2, false), (3, false)], [(3, false), (4, false), (5, false)]]

/-- C228, the code violates it: three columns of two words cost 1200, and so do five columns with four gaps; the code
takes the latter, although the step with both words comes first and has more words. -/
theorem fuller_column_not_taken :
    alignGen tied 20 = some (1200, [[some 1, none], [some 2, none], [some 3, some 1], [none, some 2], [none, some 3]]) ∧
    IsNway tied [[some 1, some 1], [some 2, some 2], [some 3, some 3]] ∧
    Prices.total ⟨300, 200, 400⟩ cfg3.eqv tied [[some 1, some 1], [some 2, some 2], [some 3, some 3]] = 1200 := by
  refine ⟨by rw [align_eq]; decide +kernel, ⟨by decide, ?_⟩, by decide +kernel⟩
  intro i s hs
  have hi : i < 2 := (List.getElem?_eq_some_iff.1 hs).1
  have path : ∀ toks : List Tok, toks.length = 3 → CompletePath (linearStream toks) [1, 2, 3] := by
    intro toks hl
    have hne : toks ≠ [] := fun e => by subst e; simp at hl
    refine ⟨3, .cons _ _ _ _ ⟨⟨by omega, by simp [linearStream]; omega⟩, Or.inl ⟨rfl, by simp [linearStream, hne]⟩⟩
      (.cons _ _ _ _ ⟨⟨by omega, by simp [linearStream]; omega⟩, Or.inr (by simp [linearStream])⟩
        (.cons _ _ _ _ ⟨⟨by omega, by simp [linearStream]; omega⟩, Or.inr (by simp [linearStream])⟩ (.nil 3))),
      Or.inl (by simp [linearStream, hne, hl])⟩
  match i, hi, hs with
  | 0, _, hs =>
    have e := Option.some.inj hs
    rw [← e]; exact path _ rfl
  | 1, _, hs =>
    have e := Option.some.inj hs
    rw [← e]; exact path _ rfl

/-- C228, the code: of three possible steps (two plain systems have three), if the last two are the cheapest and cost the
same, the last is taken, however many words the other one has. -/
theorem last_of_equal_taken {g : G} {m : Table} {c r p q : Coord} (hc : isEnding c = false) (hl : genPrev g c = [r, p, q])
    (h0 : 0 ≤ m p + genTrans g c p) (hr : m p + genTrans g c p < m r + genTrans g c r)
    (hq : m q + genTrans g c q = m p + genTrans g c p) (hn : 0 < numberChanged c q) : bestGen g m c = some q := by
  unfold bestGen
  rw [if_neg (by simp [hc]), hl]
  rw [bestGenLoop, if_pos rfl, bestGenLoop, if_neg (by omega), if_pos hr, bestGenLoop, if_neg (by omega), if_neg (by omega),
    if_pos hq, if_pos hn, bestGenLoop]

/-- A state of the table in which the first of the three steps is the dearest. -/
example : isEnding [3, 3] = false ∧ genPrev tied [3, 3] = [[2, 2], [3, 2], [2, 3]] ∧
    (fun c : Coord => if c = [2, 2] then (900 : Int) else 600) [3, 2] + genTrans tied [3, 3] [3, 2] <
      (fun c : Coord => if c = [2, 2] then (900 : Int) else 600) [2, 2] + genTrans tied [3, 3] [2, 2] ∧
    genTrans tied [3, 3] [3, 2] = genTrans tied [3, 3] [2, 3] ∧ numberChanged [3, 3] [2, 3] = 1 := by decide +kernel

example : ∀ q ∈ genPrev tied [3, 3], (0 : Int) ≤ (fun _ => 7) q + genTrans tied [3, 3] q := by decide +kernel

/-! ### C229 -/

/-- C229: the time of a missing word is the span of the words of the column.  The time based cost is the price of the
missing words for that span plus that of `shift`, divided. -/
theorem time_cost_span {cfg : Cfg} {dim : Nat} {ts : List Tok} (hne : ts ≠ [])
    (h : ∀ t ∈ ts, 0 ≤ t.start ∧ t.start ≤ t.stop) :
    ∃ lo hi last, Span lo hi ts ∧ ts.getLast? = some last ∧ timeCost cfg dim ts =
      ((if last.optional then cfg.costOpt else cfg.costIns) * (((dim - ts.length : Nat) : Int) * (hi - lo)) +
        cfg.costTrans * ((hi - last.stop) + (last.start - lo))).tdiv cfg.safeDivider := by
  refine ⟨minTime ts, maxTime ts, ts.getLast hne, span_times hne h, List.getLast?_eq_some_getLast hne, ?_⟩
  unfold timeCost
  rw [lastOptional_eq, List.getLast?_eq_some_getLast hne]
  simp only [Option.map_some, Option.getD_some]
  have hsh : shift ts = (maxTime ts - (ts.getLast hne).stop) + ((ts.getLast hne).start - minTime ts) := by
    unfold shift
    rw [foldl_last (fun t => maxTime ts - t.stop + t.start - minTime ts), List.getLast?_eq_some_getLast hne]
    simp only [Option.map_some, Option.getD_some]
    omega
  rw [hsh]
  unfold costInsertion
  rfl

theorem spread_nonneg {lo hi : Int} : ∀ ts : List Tok, (∀ t ∈ ts, lo ≤ t.start ∧ t.stop ≤ hi) → 0 ≤ spread lo hi ts ∧
    (spread lo hi ts = 0 ↔ ∀ t ∈ ts, t.start = lo ∧ t.stop = hi)
  | [], _ => by simp [spread]
  | t :: ts, h => by
    obtain ⟨h1, h2⟩ := spread_nonneg ts (fun u hu => h u (by simp [hu]))
    have ht := h t (by simp)
    have e : spread lo hi (t :: ts) = (hi - t.stop) + (t.start - lo) + spread lo hi ts := by
      simp [spread]
    rw [e]
    refine ⟨by omega, ?_⟩
    constructor
    · intro h0 u hu
      rcases List.mem_cons.1 hu with rfl | hu
      · omega
      · exact h2.1 (by omega) u hu
    · intro hall
      have h3 := hall t (by simp)
      have h4 := h2.2 (fun u hu => hall u (by simp [hu]))
      omega

theorem spread_append (lo hi : Int) (as bs : List Tok) : spread lo hi (as ++ bs) = spread lo hi as + spread lo hi bs := by
  simp [spread]

/-- C229, partial: what is charged for the words' distances from the span of the column is their sum exactly if all
words but the last fill that span.  Missing: all other columns, for which the code charges the last word's distance only
(`only_last_distance`). -/
theorem distances_added_partial {ts : List Tok} (hne : ts ≠ []) (h : ∀ t ∈ ts, 0 ≤ t.start ∧ t.start ≤ t.stop)
    {lo hi : Int} (hsp : Span lo hi ts) :
    shift ts = spread lo hi ts ↔ ∀ t ∈ ts.dropLast, t.start = lo ∧ t.stop = hi := by
  have hs2 := span_times hne h
  have e1 : minTime ts = lo := by
    obtain ⟨⟨t, ht, e⟩, _, hall⟩ := hs2
    obtain ⟨⟨u, hu, e'⟩, _, hall'⟩ := hsp
    have := (hall u hu).1; have := (hall' t ht).1; omega
  have e2 : maxTime ts = hi := by
    obtain ⟨_, ⟨t, ht, e⟩, hall⟩ := hs2
    obtain ⟨_, ⟨u, hu, e'⟩, hall'⟩ := hsp
    have := (hall u hu).2; have := (hall' t ht).2; omega
  have hsh : shift ts = (hi - (ts.getLast hne).stop) + ((ts.getLast hne).start - lo) := by
    unfold shift
    rw [foldl_last (fun t => maxTime ts - t.stop + t.start - minTime ts), List.getLast?_eq_some_getLast hne]
    simp only [Option.map_some, Option.getD_some]
    omega
  have hsplit : spread lo hi ts = spread lo hi ts.dropLast + shift ts := by
    conv => lhs; rw [← List.dropLast_concat_getLast hne]
    rw [spread_append, hsh]
    simp [spread]
  obtain ⟨_, h2⟩ := spread_nonneg (lo := lo) (hi := hi) ts.dropLast
    (fun t ht => hsp.2.2 t (List.dropLast_subset ts ht))
  rw [← h2]
  omega

/-- Token with times. -/
def timed (n : Nat) (b e : Int) : Tok := ⟨n, false, b, e, 0, 10⟩

example : Span 0 20 [timed 1 0 20, timed 2 5 20] ∧ shift [timed 1 0 20, timed 2 5 20] = 5 :=
  ⟨⟨⟨timed 1 0 20, by simp, rfl⟩, ⟨timed 1 0 20, by simp, rfl⟩, by simp [timed]⟩, by decide⟩

/-- C229, the code violates it: of two words the distance of the second only is charged, so that the cost depends on
which system is listed first. -/
theorem only_last_distance :
    spread 0 20 [timed 1 0 10, timed 2 5 20] = 15 ∧
    timeCost { cfg3 with typeCost := 2, costTrans := 1 } 2 [timed 1 0 10, timed 2 5 20] = 5 ∧
    timeCost { cfg3 with typeCost := 2, costTrans := 1 } 2 [timed 2 5 20, timed 1 0 10] = 10 := by decide +kernel

/-! ### C230 -/

/-- C230, partial: when each system has one channel of words in the group, the `k`-th word element of a report entry is
that of system `k`, an empty one if it says nothing there, and there are as many as systems.  Missing: groups in which a
system is silent (`silent_system_shifts`). -/
theorem word_per_system_partial {α : Type} {systems : List (List (List α))}
    (h : ∀ sys ∈ systems, ∃ segs : List α, segs ≠ [] ∧ sys = [segs]) :
    (groupStreams systems).map (fun segs => [segs]) = systems ∧
    ∀ col : List (Option Said), col.length = (groupStreams systems).length → words systems.length col = col.map wordLine := by
  have key : (groupStreams systems).map (fun segs => [segs]) = systems := by
    unfold groupStreams
    induction systems with
    | nil => rfl
    | cons s l ih =>
      obtain ⟨segs, hne, rfl⟩ := h s (by simp)
      have hf : ([segs].filter (fun x => !x.isEmpty)) = [segs] := by
        cases segs with
        | nil => exact absurd rfl hne
        | cons a l => rfl
      rw [List.flatMap_cons, hf, List.map_append, ih (fun s hs => h s (by simp [hs]))]
      rfl
  refine ⟨key, ?_⟩
  intro col hc
  have hl : (groupStreams systems).length = systems.length := by
    have := congrArg List.length key
    simpa using this
  unfold words
  rw [hc, hl]
  simp

example : ∀ sys ∈ [[[1, 2]], [[3]]], ∃ segs : List Nat, segs ≠ [] ∧ sys = [segs] := by
  intro sys hs
  simp at hs
  rcases hs with rfl | rfl
  · exact ⟨[1, 2], by simp, rfl⟩
  · exact ⟨[3], by simp, rfl⟩

/-- C230: a report entry always has one word element per stream and at least one per system. -/
theorem word_count (n : Nat) (col : List (Option Said)) : (words n col).length = max n col.length := by
  simp [words]; omega

/-- C230, the code violates it: when the first system has no segments in a group, the second system's words come first,
where the first one's belong. -/
theorem silent_system_shifts {α : Type} (segs : List α) (h : segs ≠ []) (t : Said) :
    groupStreams [[[]], [segs]] = [segs] ∧ words 2 [some t] = [wordLine (some t), wordLine none] := by
  refine ⟨?_, rfl⟩
  cases segs with
  | nil => exact absurd rfl h
  | cons a l => rfl

/-! ### C231 -/

/-- C231, partial: the report is written to the place asked for, if its file can be opened.  Missing: a file that cannot be
opened, for which the message promises the standard output (`report_lost`). -/
theorem report_written_partial (opened : Bool) : dest true true = .file ∧ dest false opened = .stdout := ⟨rfl, rfl⟩

/-- C231, the code violates it: the report is lost exactly if a file was asked for and could not be opened. -/
theorem report_lost (wantFile opened : Bool) : dest wantFile opened = .lost ↔ wantFile = true ∧ opened = false := by
  cases wantFile <;> cases opened <;> decide

end Verif.Nway
