import Verif.Nway.Odometer
import Verif.AscGraph.Trace
/-! Predecessors, costs, table and traceback of the generic aligner. -/
set_option autoImplicit false
namespace Verif.Nway
open Verif.AscGraph

/-! ### predecessors -/

theorem mem_unique {x : Nat} : ∀ l : List Nat, x ∈ unique l ↔ x ∈ l
  | [] => by simp [unique]
  | [y] => by simp [unique]
  | y :: z :: l => by
    rw [unique]
    split
    · rename_i e; subst e
      rw [mem_unique (y :: l)]; simp
    · rw [List.mem_cons, mem_unique (z :: l), List.mem_cons (a := x) (b := y)]

theorem unique_head : ∀ (a : Nat) (l : List Nat), a ∉ l → unique (a :: l) = a :: unique l
  | _, [], _ => rfl
  | a, b :: l, h => by
    rw [unique, if_neg (fun e => h (by simp [e]))]

theorem options_shape {g : G} {rank : Nat → Nat → Nat} (hw : g.WF rank) {c : Coord} (hd : Dom g c) {i : Nat}
    (hi : i < g.dim) : ∃ t, options g c i = c.getD i 0 :: t ∧ c.getD i 0 ∉ t ∧
      ∀ p, p ∈ t ↔ ∃ s, g.streams[i]? = some s ∧ Edge s p (c.getD i 0) := by
  obtain ⟨s, hs⟩ := stream_of_lt g hi
  unfold options
  rw [prevIdx_eq hs]
  by_cases h0 : c.getD i 0 = 0
  · rw [h0]
    refine ⟨[], by simp [prevIndexes, unique], by simp, ?_⟩
    intro p
    simp only [List.not_mem_nil, false_iff, not_exists, not_and]
    intro s' _ he
    have := he.1.1
    omega
  · have hm : ∀ p, p ∈ prevIndexes s (c.getD i 0) ↔ Edge s p (c.getD i 0) := fun p =>
      mem_prevIndexes (hw.2 i s hs) (by omega) (hd.2 i s hs)
    have hn : c.getD i 0 ∉ prevIndexes s (c.getD i 0) := by
      rw [hm]; exact fun he => (edge_facts (hw.2 i s hs) he).2.1 rfl
    refine ⟨unique (prevIndexes s (c.getD i 0)), unique_head _ _ hn, by rw [mem_unique]; exact hn, ?_⟩
    intro p
    rw [mem_unique, hm]
    constructor
    · exact fun h => ⟨s, hs, h⟩
    · rintro ⟨s', hs', h⟩
      rw [hs] at hs'; injection hs' with e; subst e; exact h

/-- A step back: every stream stays or goes to a legal predecessor, and at least one moves. -/
def Back1 (g : G) (c p : Coord) : Prop :=
  p.length = c.length ∧ p ≠ c ∧ ∀ (i : Nat) (s : Stream), g.streams[i]? = some s →
    p.getD i 0 = c.getD i 0 ∨ Edge s (p.getD i 0) (c.getD i 0)

theorem heads_eq {g : G} {rank : Nat → Nat → Nat} (hw : g.WF rank) {c : Coord} (hd : Dom g c) :
    ((List.range g.dim).map (options g c)).map (fun l => l.headD 0) = c := by
  apply List.ext_getElem
  · simp [hd.1]
  · intro i h1 h2
    have hi : i < g.dim := by rw [hd.1] at h2; exact h2
    obtain ⟨t, e, _⟩ := options_shape hw hd hi
    simp [e, List.getD_eq_getElem?_getD, h2]

theorem mem_genPrev {g : G} {rank : Nat → Nat → Nat} (hw : g.WF rank) {c : Coord} (hd : Dom g c) (p : Coord) :
    p ∈ genPrev g c ↔ Back1 g c p := by
  have hdl := hd.1
  unfold genPrev
  split
  · rename_i he
    rw [isEnding_iff] at he
    simp only [List.not_mem_nil, false_iff]
    rintro ⟨h1, h2, h3⟩
    apply h2
    apply coord_ext h1
    intro i hi
    obtain ⟨s, hs⟩ := stream_of_lt g (by omega : i < g.dim)
    rcases h3 i s hs with h | h
    · exact h
    · have := h.1.1; have := he i; omega
  · rw [List.mem_reverse]
    have hshape : ∀ l ∈ (List.range g.dim).map (options g c), ∃ a t, l = a :: t ∧ a ∉ t := by
      intro l hl
      obtain ⟨i, hi, rfl⟩ := List.mem_map.1 hl
      obtain ⟨t, e, h, _⟩ := options_shape hw hd (List.mem_range.1 hi)
      exact ⟨_, t, e, h⟩
    obtain ⟨hd', hgrid, hhd⟩ := odometer_grid ((List.range g.dim).map (options g c)) (by
      intro l hl e
      obtain ⟨a, t, e', _⟩ := hshape l hl
      rw [e] at e'; exact absurd e' (by simp))
    obtain ⟨E, hE, hnot⟩ := head_once _ hshape
    rw [heads_eq hw hd] at hhd hE hnot
    rw [hE, hhd] at hgrid
    injection hgrid with _ hEq
    rw [← hEq]
    have hgm := mem_grid ((List.range g.dim).map (options g c)) p
    rw [hE] at hgm
    have hopt : ∀ (i : Nat) (xs : List Nat), ((List.range g.dim).map (options g c))[i]? = some xs ↔
        i < g.dim ∧ xs = options g c i := by
      intro i xs
      rw [List.getElem?_map]
      rcases Nat.lt_or_ge i g.dim with hi | hi
      · rw [List.getElem?_range hi]; simp [hi, eq_comm]
      · rw [List.getElem?_eq_none (by simpa using hi)]; simp; omega
    constructor
    · intro hp
      have hne : p ≠ c := fun e => hnot (e ▸ hp)
      obtain ⟨h1, h2⟩ := hgm.1 (by simp [hp])
      refine ⟨by simp at h1; omega, hne, ?_⟩
      intro i s hs
      have hi : i < g.dim := (List.getElem?_eq_some_iff.1 hs).1
      have := h2 i _ ((hopt i _).2 ⟨hi, rfl⟩)
      obtain ⟨t, e, _, hm⟩ := options_shape hw hd hi
      rw [e] at this
      rcases List.mem_cons.1 this with h | h
      · exact Or.inl h
      · obtain ⟨s', hs', h⟩ := (hm _).1 h
        rw [hs] at hs'; injection hs' with e'; subst e'
        exact Or.inr h
    · rintro ⟨h1, h2, h3⟩
      have : p ∈ c :: E := hgm.2 ⟨by simp; omega, by
        intro i xs hx
        obtain ⟨hi, rfl⟩ := (hopt i xs).1 hx
        obtain ⟨s, hs⟩ := stream_of_lt g hi
        obtain ⟨t, e, _, hm⟩ := options_shape hw hd hi
        rw [e]
        rcases h3 i s hs with h | h
        · rw [h]; simp
        · exact List.mem_cons_of_mem _ ((hm _).2 ⟨s, hs, h⟩)⟩
      rcases List.mem_cons.1 this with h | h
      · exact absurd h h2
      · exact h

theorem back_dom {g : G} {rank : Nat → Nat → Nat} (hw : g.WF rank) {c p : Coord} (hd : Dom g c) (hs : Back1 g c p) :
    Dom g p := by
  refine ⟨by rw [hs.1]; exact hd.1, ?_⟩
  intro i s hsi
  rcases hs.2.2 i s hsi with h | h
  · rw [h]; exact hd.2 i s hsi
  · exact (edge_facts (hw.2 i s hsi) h).1

theorem rankFrom_le (rank : Nat → Nat → Nat) : ∀ (c p : Coord) (i0 : Nat), p.length = c.length →
    (∀ i, i < c.length → rk rank (i0 + i) (p.getD i 0) ≤ rk rank (i0 + i) (c.getD i 0)) →
    rankFrom rank i0 p ≤ rankFrom rank i0 c ∧
      ((∃ i, i < c.length ∧ rk rank (i0 + i) (p.getD i 0) < rk rank (i0 + i) (c.getD i 0)) →
        rankFrom rank i0 p < rankFrom rank i0 c)
  | [], [], _, _, _ => ⟨Nat.le_refl _, by rintro ⟨i, hi, _⟩; simp at hi⟩
  | [], _ :: _, _, h, _ => by simp at h
  | _ :: _, [], _, h, _ => by simp at h
  | a :: c, b :: p, i0, hl, h => by
    obtain ⟨h1, h2⟩ := rankFrom_le rank c p (i0 + 1) (by simpa using hl) (fun i hi => by
      have := h (i + 1) (by simp; omega)
      have e : i0 + (i + 1) = i0 + 1 + i := by omega
      rw [e] at this
      simpa using this)
    have h0 := h 0 (by simp)
    simp only [List.getD_cons_zero, Nat.add_zero] at h0
    simp only [rankFrom]
    refine ⟨by omega, ?_⟩
    rintro ⟨i, hi, hlt⟩
    cases i with
    | zero => simp only [List.getD_cons_zero, Nat.add_zero] at hlt; omega
    | succ i =>
      have e : i0 + (i + 1) = i0 + 1 + i := by omega
      rw [e] at hlt
      have := h2 ⟨i, by simpa using hi, by simpa using hlt⟩
      omega

theorem back_rank {g : G} {rank : Nat → Nat → Nat} (hw : g.WF rank) {c p : Coord} (hd : Dom g c) (hs : Back1 g c p) :
    rankFrom rank 0 p < rankFrom rank 0 c := by
  have hdl := hd.1
  have key : ∀ i, i < c.length → p.getD i 0 = c.getD i 0 ∨ rk rank i (p.getD i 0) < rk rank i (c.getD i 0) := by
    intro i hi
    obtain ⟨s, hsi⟩ := stream_of_lt g (by omega : i < g.dim)
    rcases hs.2.2 i s hsi with h | h
    · exact Or.inl h
    · exact Or.inr (rk_lt (hw.2 i s hsi) h)
  apply (rankFrom_le rank c p 0 hs.1 _).2
  · apply Classical.byContradiction
    intro hno
    apply hs.2.1
    apply coord_ext hs.1
    intro i hi
    rw [hs.1] at hi
    rcases key i hi with h | h
    · exact h
    · exact absurd ⟨i, hi, by simpa using h⟩ hno
  · intro i hi
    rw [Nat.zero_add]
    rcases key i hi with h | h
    · rw [h]; exact Nat.le_refl _
    · omega

theorem gen_no_dead_end {g : G} {rank : Nat → Nat → Nat} (hw : g.WF rank) {c : Coord} (hd : Dom g c)
    (he : isEnding c = false) : ∃ p, p ∈ genPrev g c := by
  have hdl := hd.1
  have : ∃ i, c.getD i 0 ≠ 0 := by
    apply Classical.byContradiction
    intro h
    have : isEnding c = true := isEnding_iff.2 (fun i => Classical.byContradiction (fun hi => h ⟨i, hi⟩))
    rw [he] at this; exact absurd this (by simp)
  obtain ⟨i, hi⟩ := this
  have hil : i < c.length := by
    rcases Nat.lt_or_ge i c.length with h | h
    · exact h
    · exact absurd (by simp [List.getD_eq_getElem?_getD, List.getElem?_eq_none h]) hi
  obtain ⟨s, hs⟩ := stream_of_lt g (by omega : i < g.dim)
  obtain ⟨l, hl⟩ := prevIndexes_ne_nil (hw.2 i s hs) (by omega : 1 ≤ c.getD i 0) (hd.2 i s hs)
  have hedge := (mem_prevIndexes (hw.2 i s hs) (by omega) (hd.2 i s hs)).1 hl
  refine ⟨c.set i l, (mem_genPrev hw hd _).2 ⟨by simp, ?_, ?_⟩⟩
  · intro e
    have h1 : (c.set i l).getD i 0 = l := by rw [getD_set, if_pos ⟨rfl, hil⟩]
    rw [e] at h1
    exact (edge_facts (hw.2 i s hs) hedge).2.1 h1.symm
  · intro j s' hs'
    rw [getD_set]
    by_cases e : i = j
    · subst e
      rw [if_pos ⟨rfl, hil⟩]
      rw [hs] at hs'; injection hs' with e'; subst e'
      exact Or.inr hedge
    · rw [if_neg (fun h => e h.1)]; exact Or.inl rfl

/-! ### costs -/

/-- Cost of a column as the code computes it for the tokens of the column. -/
def colCostG (g : G) (col : Column) : Int := stepCost g.cfg g.dim (tokensOf g col)

/-- Cost of an alignment, see `colCostG`. -/
def totalG (g : G) (cols : List Column) : Int := (cols.map (colCostG g)).sum

theorem moved_tokens {g : G} {c p : Coord} (hl : p.length = c.length) : moved g c p = tokensOf g (columnOf c p) := by
  unfold moved tokensOf
  rw [occupied_columnOf c p hl]
  have : ∀ l : List Nat, (∀ i ∈ l, i ∈ changed c p) →
      l.filterMap (fun i => g.tok i (c.getD i 0)) =
        l.filterMap (fun i => g.tok i (((columnOf c p).getD i none).getD 0)) := by
    intro l
    induction l with
    | nil => intro _; rfl
    | cons a l ih =>
      intro h
      rw [List.filterMap_cons, List.filterMap_cons, getD_of_changed hl (h a (by simp)), ih (fun i hi => h i (by simp [hi]))]
  exact this _ (fun _ h => h)

theorem genTrans_col {g : G} {c p : Coord} (hl : p.length = c.length) : genTrans g c p = colCostG g (columnOf c p) := by
  unfold genTrans colCostG
  rw [moved_tokens hl]

theorem tokensOf_mem {g : G} {col : Column} {t : Tok} (h : t ∈ tokensOf g col) : ∃ s ∈ g.streams, t ∈ s.toks := by
  obtain ⟨i, _, hi⟩ := List.mem_filterMap.1 h
  exact tok_mem hi

theorem foldl_last {β : Type} (f : Tok → β) : ∀ (ts : List Tok) (b : β),
    ts.foldl (fun _ t => f t) b = (ts.getLast?.map f).getD b
  | [], b => rfl
  | [t], b => rfl
  | t :: u :: ts, b => by
    rw [List.foldl_cons, foldl_last f (u :: ts), List.getLast?_cons_cons]
    cases h : (u :: ts).getLast? with
    | none => simp at h
    | some x => rfl

theorem minTime_span : ∀ (ts : List Tok) (m : Int), (∀ t ∈ ts, 0 ≤ t.start) → (m = -1 ∨ 0 ≤ m) →
    (∀ t ∈ ts, ts.foldl (fun m t => if m = -1 ∨ t.start < m then t.start else m) m ≤ t.start) ∧
    (ts = [] ∨ 0 ≤ ts.foldl (fun m t => if m = -1 ∨ t.start < m then t.start else m) m) ∧
    (m ≠ -1 → ts.foldl (fun m t => if m = -1 ∨ t.start < m then t.start else m) m ≤ m) ∧
    (ts.foldl (fun m t => if m = -1 ∨ t.start < m then t.start else m) m = m ∨
      ∃ t ∈ ts, ts.foldl (fun m t => if m = -1 ∨ t.start < m then t.start else m) m = t.start)
  | [], m, _, _ => by simp
  | t :: ts, m, h, hm => by
    have ht := h t (by simp)
    rw [List.foldl_cons]
    have hm' : 0 ≤ (if m = -1 ∨ t.start < m then t.start else m) := by
      split
      · exact ht
      · rename_i hn; rcases hm with hm | hm
        · exact absurd (Or.inl hm) hn
        · exact hm
    obtain ⟨h1, h2, h3, h4⟩ := minTime_span ts (if m = -1 ∨ t.start < m then t.start else m)
      (fun u hu => h u (by simp [hu])) (Or.inr hm')
    generalize hgen : (if m = -1 ∨ t.start < m then t.start else m) = m' at h1 h2 h3 h4 hm'
    have h3' := h3 (by omega)
    have hmle : m' ≤ t.start := by
      rw [← hgen]; split
      · exact Int.le_refl _
      · rename_i hn; have := fun h => hn (Or.inr h); omega
    have hmm : m ≠ -1 → m' ≤ m := by
      intro hne; rw [← hgen]; split
      · rename_i hn; rcases hn with hn | hn
        · exact absurd hn hne
        · omega
      · exact Int.le_refl _
    generalize ts.foldl (fun m t => if m = -1 ∨ t.start < m then t.start else m) m' = r at *
    refine ⟨?_, ?_, ?_, ?_⟩
    · intro u hu
      rcases List.mem_cons.1 hu with rfl | hu
      · omega
      · exact h1 u hu
    · right
      rcases h4 with h4 | ⟨u, hu, h4⟩
      · omega
      · have := h u (by simp [hu]); omega
    · intro hne; have := hmm hne; omega
    · rcases h4 with h4 | ⟨u, hu, h4⟩
      · by_cases hc : m = -1 ∨ t.start < m
        · rw [if_pos hc] at hgen; exact Or.inr ⟨t, by simp, by omega⟩
        · rw [if_neg hc] at hgen; exact Or.inl (by omega)
      · exact Or.inr ⟨u, by simp [hu], h4⟩

theorem maxTime_span : ∀ (ts : List Tok) (m : Int), (∀ t ∈ ts, 0 ≤ t.stop) → (m = -1 ∨ 0 ≤ m) →
    (∀ t ∈ ts, t.stop ≤ ts.foldl (fun m t => if m = -1 ∨ t.stop > m then t.stop else m) m) ∧
    (m ≠ -1 → m ≤ ts.foldl (fun m t => if m = -1 ∨ t.stop > m then t.stop else m) m) ∧
    (ts.foldl (fun m t => if m = -1 ∨ t.stop > m then t.stop else m) m = m ∨
      ∃ t ∈ ts, ts.foldl (fun m t => if m = -1 ∨ t.stop > m then t.stop else m) m = t.stop)
  | [], m, _, _ => by simp
  | t :: ts, m, h, hm => by
    have ht := h t (by simp)
    rw [List.foldl_cons]
    have hm' : 0 ≤ (if m = -1 ∨ t.stop > m then t.stop else m) := by
      split
      · exact ht
      · rename_i hn; rcases hm with hm | hm
        · exact absurd (Or.inl hm) hn
        · exact hm
    obtain ⟨h1, h3, h4⟩ := maxTime_span ts (if m = -1 ∨ t.stop > m then t.stop else m)
      (fun u hu => h u (by simp [hu])) (Or.inr hm')
    generalize hgen : (if m = -1 ∨ t.stop > m then t.stop else m) = m' at h1 h3 h4 hm'
    have h3' := h3 (by omega)
    have hmle : t.stop ≤ m' := by
      rw [← hgen]; split
      · exact Int.le_refl _
      · rename_i hn; have := fun h => hn (Or.inr h); omega
    have hmm : m ≠ -1 → m ≤ m' := by
      intro hne; rw [← hgen]; split
      · rename_i hn; rcases hn with hn | hn
        · exact absurd hn hne
        · omega
      · exact Int.le_refl _
    generalize ts.foldl (fun m t => if m = -1 ∨ t.stop > m then t.stop else m) m' = r at *
    refine ⟨?_, ?_, ?_⟩
    · intro u hu
      rcases List.mem_cons.1 hu with rfl | hu
      · omega
      · exact h1 u hu
    · intro hne; have := hmm hne; omega
    · rcases h4 with h4 | ⟨u, hu, h4⟩
      · by_cases hc : m = -1 ∨ t.stop > m
        · rw [if_pos hc] at hgen; exact Or.inr ⟨t, by simp, by omega⟩
        · rw [if_neg hc] at hgen; exact Or.inl (by omega)
      · exact Or.inr ⟨u, by simp [hu], h4⟩

/-- Settings under which every step cost is well defined and not negative. -/
structure CostsOK (g : G) : Prop where
  trans : 0 ≤ g.cfg.costTrans
  ins : 0 ≤ g.cfg.costIns
  opt : 0 ≤ g.cfg.costOpt
  divider : g.cfg.typeCost = 2 → 0 < g.cfg.safeDivider
  times : g.cfg.typeCost = 2 → ∀ s ∈ g.streams, ∀ t ∈ s.toks, 0 ≤ t.start ∧ t.start ≤ t.stop

theorem span_times {ts : List Tok} (hne : ts ≠ []) (h : ∀ t ∈ ts, 0 ≤ t.start ∧ t.start ≤ t.stop) :
    Span (minTime ts) (maxTime ts) ts := by
  obtain ⟨a1, _, _, a4⟩ := minTime_span ts (-1) (fun t ht => (h t ht).1) (Or.inl rfl)
  obtain ⟨b1, _, b4⟩ := maxTime_span ts (-1) (fun t ht => by have := h t ht; omega) (Or.inl rfl)
  have e1 : minTime ts = ts.foldl (fun m t => if m = -1 ∨ t.start < m then t.start else m) (-1) := rfl
  have e2 : maxTime ts = ts.foldl (fun m t => if m = -1 ∨ t.stop > m then t.stop else m) (-1) := rfl
  rw [← e1] at a1 a4
  rw [← e2] at b1 b4
  obtain ⟨t0, ht0⟩ : ∃ t, t ∈ ts := by
    cases ts with
    | nil => exact absurd rfl hne
    | cons t _ => exact ⟨t, by simp⟩
  refine ⟨?_, ?_, fun t ht => ⟨a1 t ht, b1 t ht⟩⟩
  · rcases a4 with a4 | ⟨t, ht, e⟩
    · -- the sentinel is below every start
      obtain ⟨_, h2, _, _⟩ := minTime_span ts (-1) (fun t ht => (h t ht).1) (Or.inl rfl)
      rw [← e1] at h2
      rcases h2 with h2 | h2
      · exact absurd h2 hne
      · omega
    · exact ⟨t, ht, e.symm⟩
  · rcases b4 with b4 | ⟨t, ht, e⟩
    · have := b1 t0 ht0
      have := h t0 ht0
      omega
    · exact ⟨t, ht, e.symm⟩

theorem stepCost_nonneg {g : G} (h : CostsOK g) (ts : List Tok) (hm : ∀ t ∈ ts, ∃ s ∈ g.streams, t ∈ s.toks) :
    0 ≤ stepCost g.cfg g.dim ts := by
  have hins : ∀ b, 0 ≤ costInsertion g.cfg b := by
    intro b; unfold costInsertion; split
    · exact h.opt
    · exact h.ins
  unfold stepCost
  split
  · rename_i ht2
    unfold timeCost
    have hd := h.divider ht2
    apply Int.tdiv_nonneg _ (by omega)
    have htimes : ∀ t ∈ ts, 0 ≤ t.start ∧ t.start ≤ t.stop := by
      intro t ht
      obtain ⟨s, hs, hts⟩ := hm t ht
      exact h.times ht2 s hs t hts
    have hsh : 0 ≤ shift ts ∧ 0 ≤ maxTime ts - minTime ts := by
      cases hts : ts with
      | nil => subst hts; exact ⟨by simp [shift], by simp [maxTime, minTime]⟩
      | cons t0 ts' =>
        rw [← hts]
        obtain ⟨_, _, h3⟩ := span_times (ts := ts) (by rw [hts]; simp) htimes
        refine ⟨?_, ?_⟩
        · unfold shift
          rw [foldl_last (fun t => maxTime ts - t.stop + t.start - minTime ts)]
          cases hl : ts.getLast? with
          | none => simp
          | some t =>
            have := h3 t (List.mem_of_getLast? hl)
            simp only [Option.map_some, Option.getD_some]
            omega
        · have h0 := h3 t0 (by rw [hts]; simp)
          have := htimes t0 (by rw [hts]; simp)
          omega
    have h1 := Int.mul_nonneg (hins (lastOptional ts)) (Int.mul_nonneg (Int.natCast_nonneg (g.dim - ts.length)) hsh.2)
    have h2 := Int.mul_nonneg h.trans hsh.1
    omega
  · unfold wordCost
    have h1 := Int.mul_nonneg (hins (lastOptional ts)) (Int.natCast_nonneg (g.dim - ts.length))
    have h2 := Int.mul_nonneg h.trans (Int.natCast_nonneg (ts.length - maxCount (ts.foldl (countTok g.cfg.eqv) [])))
    omega

theorem gen_dpok {g : G} {rank : Nat → Nat → Nat} (hw : g.WF rank) (hc : CostsOK g) :
    DPOK (genPrev g) (genTrans g) (Dom g) (rankFrom rank 0) where
  closed c p hd hp := back_dom hw hd ((mem_genPrev hw hd p).1 hp)
  dec c p hd hp := back_rank hw hd ((mem_genPrev hw hd p).1 hp)
  nonneg c p hd hp := by
    rw [genTrans_col ((mem_genPrev hw hd p).1 hp).1]
    exact stepCost_nonneg hc _ (fun t ht => tokensOf_mem ht)

/-! ### from paths to alignments and back -/

/-- `cols` reads every stream from its start up to the token named by `c` and costs `v`. -/
structure Good (g : G) (cols : List Column) (c : Coord) (v : Int) : Prop where
  legal : ∀ col ∈ cols, col.length = g.dim ∧ occupied col ≠ []
  walks : ∀ (i : Nat) (s : Stream), g.streams[i]? = some s → Walk s 0 (proj i cols) (c.getD i 0)
  cost : totalG g cols = v

theorem good_nil (g : G) (c : Coord) (h : isEnding c = true) : Good g [] c 0 where
  legal := by simp
  walks i s _ := by rw [isEnding_iff.1 h i]; exact .nil 0
  cost := rfl

theorem good_snoc {g : G} {c p : Coord} (hd : Dom g c)
    (hs : Back1 g c p) {cols : List Column} {v : Int} (h : Good g cols p v) :
    Good g (cols ++ [columnOf c p]) c (v + genTrans g c p) where
  legal col hc := by
    rcases List.mem_append.1 hc with hc | hc
    · exact h.legal col hc
    · rw [List.mem_singleton] at hc; subst hc
      refine ⟨by rw [columnOf_length c p hs.1]; exact hd.1, ?_⟩
      rw [occupied_columnOf c p hs.1, changed_eq c p hs.1]
      intro e
      apply hs.2.1
      apply coord_ext hs.1
      intro i hi
      rw [List.filter_eq_nil_iff] at e
      have := e i (by rw [List.mem_range]; rw [← hs.1]; exact hi)
      exact Classical.byContradiction (fun h => this (by simpa using fun e' => h e'.symm))
  walks i s hsi := by
    rw [proj_snoc, columnOf_getD c p i hs.1]
    by_cases e : c.getD i 0 = p.getD i 0
    · rw [if_pos e, e]; simpa using h.walks i s hsi
    · rw [if_neg e]
      rcases hs.2.2 i s hsi with h' | h'
      · exact absurd h'.symm e
      · exact (h.walks i s hsi).snoc h'
  cost := by
    unfold totalG
    rw [List.map_append, List.sum_append, genTrans_col hs.1]
    have := h.cost
    unfold totalG at this
    rw [this]; simp

/-- Non-empty columns whose projections can be read from the start. -/
def PrefixG (g : G) (cols : List Column) : Prop :=
  (∀ col ∈ cols, col.length = g.dim ∧ occupied col ≠ []) ∧
  ∀ (i : Nat) (s : Stream), g.streams[i]? = some s → ∃ e, Walk s 0 (proj i cols) e

theorem PrefixG.dom {g : G} {cols : List Column} (h : PrefixG g cols) : Dom g (coordOf g cols) := by
  refine ⟨coordOf_length g cols, ?_⟩
  intro i s hs
  have hi : i < g.dim := (List.getElem?_eq_some_iff.1 hs).1
  rw [coordOf_getD g cols i hi]
  obtain ⟨e, he⟩ := h.2 i s hs
  rw [he.last]
  exact he.range (Nat.zero_le _)

theorem PrefixG.init {g : G} {cols : List Column} {col : Column} (h : PrefixG g (cols ++ [col])) :
    PrefixG g cols := by
  refine ⟨fun c hc => h.1 c (by simp [hc]), ?_⟩
  intro i s hs
  obtain ⟨e, he⟩ := h.2 i s hs
  rw [proj_snoc] at he
  cases hk : col.getD i none with
  | none => rw [hk] at he; exact ⟨e, by simpa using he⟩
  | some k =>
    rw [hk] at he
    obtain ⟨_, q, hq, _⟩ := Walk.unsnoc he
    exact ⟨q, hq⟩

theorem prefixG_step {g : G} {rank : Nat → Nat → Nat} (hw : g.WF rank) {cols : List Column} {col : Column}
    (h : PrefixG g (cols ++ [col])) :
    Back1 g (coordOf g (cols ++ [col])) (coordOf g cols) ∧
      columnOf (coordOf g (cols ++ [col])) (coordOf g cols) = col := by
  obtain ⟨hlen, hoc⟩ := h.1 col (by simp)
  have hocc : ∀ i k, i < g.dim → col.getD i none = some k → ∀ s, g.streams[i]? = some s →
      (coordOf g (cols ++ [col])).getD i 0 = k ∧ Edge s ((coordOf g cols).getD i 0) k := by
    intro i k hi hk s hs
    have e1 : (coordOf g (cols ++ [col])).getD i 0 = k := by
      rw [coordOf_snoc_getD g cols col i hi, hk]
    obtain ⟨e, he⟩ := h.2 i s hs
    rw [proj_snoc, hk] at he
    obtain ⟨_, q, hq, hedge⟩ := Walk.unsnoc he
    have e2 : (coordOf g cols).getD i 0 = q := by rw [coordOf_getD g cols i hi, hq.last]
    exact ⟨e1, by rw [e2]; exact hedge⟩
  have hun : ∀ i, i < g.dim → col.getD i none = none →
      (coordOf g (cols ++ [col])).getD i 0 = (coordOf g cols).getD i 0 := by
    intro i hi hk
    rw [coordOf_snoc_getD g cols col i hi, hk]
  have hl : (coordOf g cols).length = (coordOf g (cols ++ [col])).length := by
    rw [coordOf_length, coordOf_length]
  refine ⟨⟨hl, ?_, ?_⟩, ?_⟩
  · obtain ⟨i, hi⟩ : ∃ i, i ∈ occupied col := by
      cases ho : occupied col with
      | nil => exact absurd ho hoc
      | cons i l => exact ⟨i, by simp⟩
    obtain ⟨k, hk⟩ := mem_occupied.1 hi
    have hid : i < g.dim := by
      have := (List.mem_filter.1 hi).1
      rw [List.mem_range] at this; omega
    obtain ⟨s, hs⟩ := stream_of_lt g hid
    obtain ⟨h1, h2⟩ := hocc i k hid hk s hs
    intro e
    have h3 := (edge_facts (hw.2 i s hs) h2).2.1
    rw [e, h1] at h3
    exact h3 rfl
  · intro i s hs
    have hi : i < g.dim := (List.getElem?_eq_some_iff.1 hs).1
    cases hk : col.getD i none with
    | none => exact Or.inl (hun i hi hk).symm
    | some k =>
      obtain ⟨h1, h2⟩ := hocc i k hi hk s hs
      rw [h1]; exact Or.inr h2
  · apply List.ext_getElem
    · rw [columnOf_length _ _ hl, coordOf_length, hlen]
    · intro i h1 h2
      have hi : i < g.dim := by rw [hlen] at h2; exact h2
      have hc := columnOf_getD (coordOf g (cols ++ [col])) (coordOf g cols) i hl
      have e1 : (columnOf (coordOf g (cols ++ [col])) (coordOf g cols)).getD i none =
          (columnOf (coordOf g (cols ++ [col])) (coordOf g cols))[i] := by
        simp [List.getD_eq_getElem?_getD, h1]
      have e2 : col.getD i none = col[i] := by simp [List.getD_eq_getElem?_getD, h2]
      rw [← e1, ← e2, hc]
      cases hk : col.getD i none with
      | none => rw [if_pos (hun i hi hk)]
      | some k =>
        obtain ⟨s, hs⟩ := stream_of_lt g hi
        obtain ⟨a, b⟩ := hocc i k hi hk s hs
        rw [a, if_neg (fun e => (edge_facts (hw.2 i s hs) b).2.1 e.symm)]

theorem pathCost_of_prefixG {g : G} {rank : Nat → Nat → Nat} (hw : g.WF rank) : ∀ (n : Nat) (cols : List Column),
    cols.length = n → PrefixG g cols → PathCost (genPrev g) (genTrans g) (coordOf g cols) (totalG g cols)
  | 0, cols, hn, _ => by
    rw [List.length_eq_zero_iff.1 hn]
    apply PathCost.base
    have : isEnding (coordOf g []) = true := by
      rw [isEnding_iff]
      intro i
      rcases Nat.lt_or_ge i g.dim with hi | hi
      · rw [coordOf_getD g _ i hi]; rfl
      · have := coordOf_length g []
        simp [List.getD_eq_getElem?_getD, List.getElem?_eq_none (by omega : (coordOf g []).length ≤ i)]
    unfold genPrev
    rw [if_pos this]
  | n + 1, cols, hn, hp => by
    rcases List.eq_nil_or_concat cols with rfl | ⟨l, col, rfl⟩
    · simp at hn
    · rw [List.concat_eq_append] at hp ⊢
      obtain ⟨hs, hc⟩ := prefixG_step hw hp
      have hcost := genTrans_col (g := g) hs.1
      rw [hc] at hcost
      have e : totalG g (l ++ [col]) = totalG g l + genTrans g (coordOf g (l ++ [col])) (coordOf g l) := by
        rw [hcost]; simp [totalG]
      rw [e]
      exact .step _ _ _ ((mem_genPrev hw hp.dom _).2 hs) (pathCost_of_prefixG hw n l (by simpa using hn) hp.init)

/-! ### filling the table, tracing back -/

theorem fillGen_spec {g : G} {rank : Nat → Nat → Nat} (hw : g.WF rank) (hc : CostsOK g) (fuel : Nat) :
    ∀ (cs : List Coord) (m : Table), (∀ c ∈ cs, Dom g c ∧ rankFrom rank 0 c < fuel) →
      TableOK (genPrev g) (genTrans g) (Dom g) m →
      ∃ m', fillGen g fuel m cs = some m' ∧ TableOK (genPrev g) (genTrans g) (Dom g) m' ∧
        Extends m m' ∧ ∀ c ∈ cs, m' c ≠ -1
  | [], m, _, hm => ⟨m, by rw [fillGen], hm, Extends.refl m, by simp⟩
  | c :: cs, m, h, hm => by
    rw [fillGen]
    have ok := gen_dpok hw hc
    obtain ⟨hd, hr⟩ := h c (by simp)
    by_cases e : m c = uncalculated
    · rw [if_pos e]
      obtain ⟨v, m1, h1, h2, h3, h4, h5⟩ := calcCost_spec ok fuel m c hr hd hm
      rw [h1]
      obtain ⟨k1, k2, k3, k4, k5⟩ := tableOK_put ok h2 hd h4 h5
      obtain ⟨m', a1, a2, a3, a4⟩ := fillGen_spec hw hc fuel cs (m1.put c v)
        (fun x hx => h x (by simp [hx])) k1
      refine ⟨m', a1, a2, ?_, ?_⟩
      · intro x hx
        have hx1 : m1 x = m x := h3 x hx
        have hxc : x ≠ c := fun e' => by subst e'; exact hx e
        have : m1.put c v x = m x := by unfold Table.put; rw [if_neg hxc, hx1]
        rw [a3 x (by rw [this]; exact hx), this]
      · intro x hx
        rcases List.mem_cons.1 hx with rfl | hx
        · rw [a3 x k4]; exact k4
        · exact a4 x hx
    · rw [if_neg e]
      obtain ⟨m', a1, a2, a3, a4⟩ := fillGen_spec hw hc fuel cs m (fun x hx => h x (by simp [hx])) hm
      refine ⟨m', a1, a2, a3, ?_⟩
      intro x hx
      rcases List.mem_cons.1 hx with rfl | hx
      · rw [a3 x e]; exact e
      · exact a4 x hx

theorem bestGenLoop_spec (m : Table) (trans : Coord → Coord → Int) (c : Coord) (all : List Coord)
    (hnn : ∀ p ∈ all, 0 ≤ m p + trans c p) :
    ∀ (todo done : List Coord) (best : Int) (bp : Option Coord) (num : Nat),
      done ++ todo = all →
      ((done = [] ∧ best = -1 ∧ bp = none) ∨
        ∃ p ∈ done, bp = some p ∧ best = m p + trans c p ∧ ∀ q ∈ done, best ≤ m q + trans c q) →
      (all = [] ∧ bestGenLoop m trans c best bp num todo = none) ∨
      ∃ p ∈ all, bestGenLoop m trans c best bp num todo = some p ∧
        ∀ q ∈ all, m p + trans c p ≤ m q + trans c q
  | [], done, best, bp, num, he, hi => by
    simp at he
    subst he
    rw [bestGenLoop]
    rcases hi with ⟨h1, _, h3⟩ | ⟨p, hp, h1, h2, h3⟩
    · exact Or.inl ⟨h1, h3⟩
    · exact Or.inr ⟨p, hp, h1, fun q hq => h2 ▸ h3 q hq⟩
  | p :: todo, done, best, bp, num, he, hi => by
    have hp : p ∈ all := by rw [← he]; simp
    have hp0 := hnn p hp
    have step : ∀ (best' : Int) (bp' : Option Coord) (num' : Nat),
        (∃ r ∈ done ++ [p], bp' = some r ∧ best' = m r + trans c r ∧
          ∀ q ∈ done ++ [p], best' ≤ m q + trans c q) →
        (all = [] ∧ bestGenLoop m trans c best' bp' num' todo = none) ∨
        ∃ r ∈ all, bestGenLoop m trans c best' bp' num' todo = some r ∧
          ∀ q ∈ all, m r + trans c r ≤ m q + trans c q := fun best' bp' num' hs =>
      bestGenLoop_spec m trans c all hnn todo (done ++ [p]) best' bp' num' (by simpa using he) (Or.inr hs)
    have takeP : (∀ q ∈ done, m p + trans c p ≤ m q + trans c q) →
        ∃ r ∈ done ++ [p], some p = some r ∧ m p + trans c p = m r + trans c r ∧
          ∀ q ∈ done ++ [p], m p + trans c p ≤ m q + trans c q := by
      intro hall
      refine ⟨p, by simp, rfl, rfl, ?_⟩
      intro q hq
      rcases List.mem_append.1 hq with hq | hq
      · exact hall q hq
      · simp at hq; subst hq; exact Int.le_refl _
    rw [bestGenLoop]
    rcases hi with ⟨h1, h2, h3⟩ | ⟨r, hr, h1, h2, h3⟩
    · subst h1; subst h2
      rw [if_pos rfl]
      exact step _ _ _ (takeP (by simp))
    · have hr' : r ∈ all := by rw [← he]; simp [hr]
      have hr0 := hnn r hr'
      rw [if_neg (by omega)]
      have keep : m p + trans c p ≥ best → ∃ r' ∈ done ++ [p], bp = some r' ∧
          best = m r' + trans c r' ∧ ∀ q ∈ done ++ [p], best ≤ m q + trans c q := by
        intro hge
        refine ⟨r, by simp [hr], h1, h2, ?_⟩
        intro q hq
        rcases List.mem_append.1 hq with hq | hq
        · exact h3 q hq
        · simp at hq; subst hq; exact hge
      split
      · exact step _ _ _ (takeP (fun q hq => by have := h3 q hq; omega))
      · split
        · rename_i hlt heq
          split
          · exact step _ _ _ (takeP (fun q hq => by have := h3 q hq; omega))
          · exact step _ _ _ (keep (by omega))
        · exact step _ _ _ (keep (by omega))

theorem traceGen_spec {g : G} {rank : Nat → Nat → Nat} (hw : g.WF rank) (hc : CostsOK g) {m : Table}
    (hm : TableOK (genPrev g) (genTrans g) (Dom g) m) :
    ∀ (fuel : Nat) (c : Coord) (acc : List Column), rankFrom rank 0 c < fuel → m c ≠ -1 →
      ∃ rest, traceGen g m fuel c acc = some (acc ++ rest) ∧ Good g rest.reverse c (m c)
  | 0, _, _, h, _ => by omega
  | fuel + 1, c, acc, hr, hcm => by
    have ok := gen_dpok hw hc
    have hd := hm.dom c hcm
    rw [traceGen]
    cases he : isEnding c with
    | true =>
      have hbp : bestGen g m c = none := by unfold bestGen; rw [if_pos he]
      rw [hbp]
      refine ⟨[], by simp, ?_⟩
      have hp : genPrev g c = [] := by unfold genPrev; rw [if_pos he]
      have h0 : m c = 0 := MinCost.unique _ _ (hm.min c hcm)
        ⟨.base c hp, fun w hw' => hw'.nonneg ok hd⟩
      rw [h0]
      exact good_nil g c he
    | false =>
      have hnn : ∀ p ∈ genPrev g c, 0 ≤ m p + genTrans g c p := by
        intro p hp
        have h1 := (hm.min p (hm.closed c hcm p hp)).1.nonneg ok (ok.closed c p hd hp)
        have h2 := ok.nonneg c p hd hp
        omega
      have hbp : bestGen g m c = bestGenLoop m (genTrans g) c (-1) none 0 (genPrev g c) := by
        unfold bestGen; rw [if_neg (by simp [he])]
      rcases bestGenLoop_spec m (genTrans g) c (genPrev g c) hnn (genPrev g c) [] (-1) none 0
        (by simp) (Or.inl ⟨rfl, rfl, rfl⟩) with ⟨h, _⟩ | ⟨p, hp, hpb, hmin⟩
      · obtain ⟨p, hp⟩ := gen_no_dead_end hw hd he
        rw [h] at hp; simp at hp
      · rw [hbp, hpb]
        have hs := (mem_genPrev hw hd p).1 hp
        have hpm := hm.closed c hcm p hp
        obtain ⟨rest, h1, h2⟩ := traceGen_spec hw hc hm fuel p (acc ++ [columnOf c p])
          (by have := ok.dec c p hd hp; omega) hpm
        refine ⟨columnOf c p :: rest, by simp only [h1]; simp, ?_⟩
        rw [List.reverse_cons]
        have hg := good_snoc hd hs h2
        have hge : m c ≤ m p + genTrans g c p :=
          (hm.min c hcm).2 _ (.step c p _ hp (hm.min p hpm).1)
        have hcost : m c = m p + genTrans g c p := by
          apply Int.le_antisymm hge
          have hmc := (hm.min c hcm).1
          cases hmc' : genPrev g c with
          | nil => rw [hmc'] at hp; simp at hp
          | cons _ _ =>
            generalize hv : m c = v at hmc
            cases hmc with
            | base _ h => rw [hmc'] at h; simp at h
            | step _ q w hq hqw =>
              have h3 := hmin q hq
              have h4 := (hm.min q (hm.closed c hcm q hq)).2 w hqw
              omega
        rw [hcost]; exact hg

theorem good_complete {g : G} {cols : List Column} {c : Coord} {v : Int} (h : Good g cols c v)
    (hc : c ∈ startingCoords g) : IsNway g cols ∧ totalG g cols = v := by
  refine ⟨⟨h.legal, fun i s hs => ⟨_, h.walks i s hs, ?_⟩⟩, h.cost⟩
  rcases ((mem_startingCoords g c).1 hc).2 i s hs with h1 | ⟨h1, h2⟩
  · exact Or.inl h1
  · refine Or.inr ⟨h1, ?_⟩
    have hwk := h.walks i s hs
    rw [h2] at hwk
    cases hp : proj i cols with
    | nil => rfl
    | cons a l => rw [hp] at hwk; exact absurd rfl hwk.ne_zero

theorem nway_start {g : G} {cols : List Column} (h : IsNway g cols) :
    PrefixG g cols ∧ coordOf g cols ∈ startingCoords g := by
  refine ⟨⟨h.1, fun i s hs => ?_⟩, (mem_startingCoords g _).2 ⟨coordOf_length g cols, fun i s hs => ?_⟩⟩
  · obtain ⟨e, he, _⟩ := h.2 i s hs; exact ⟨e, he⟩
  · obtain ⟨e, he, hl⟩ := h.2 i s hs
    have hi : i < g.dim := (List.getElem?_eq_some_iff.1 hs).1
    rw [coordOf_getD g cols i hi, he.last]
    rcases hl with hl | ⟨h1, h2⟩
    · exact Or.inl hl
    · rw [h2] at he; cases he; exact Or.inr ⟨h1, rfl⟩

/-- The aligner finishes, its alignment is an n-way alignment of the reported cost, and none is cheaper (costs as the
code computes them from the tokens of a column). -/
theorem alignGen_spec {g : G} {rank : Nat → Nat → Nat} (hw : g.WF rank) (hc : CostsOK g) :
    ∃ need, ∀ fuel, need ≤ fuel → ∃ v cols, alignGen g fuel = some (v, cols) ∧
      IsNway g cols ∧ totalG g cols = v ∧ ∀ a, IsNway g a → v ≤ totalG g a := by
  have bound : ∃ need, ∀ c ∈ startingCoords g, rankFrom rank 0 c < need := by
    generalize startingCoords g = cs
    induction cs with
    | nil => exact ⟨0, by simp⟩
    | cons c cs ih =>
      obtain ⟨n, hn⟩ := ih
      refine ⟨n + rankFrom rank 0 c + 1, fun x hx => ?_⟩
      rcases List.mem_cons.1 hx with rfl | hx
      · omega
      · have := hn x hx; omega
  obtain ⟨need, hneed⟩ := bound
  refine ⟨need, fun fuel hf => ?_⟩
  obtain ⟨m, h1, h2, _, h4⟩ := fillGen_spec hw hc fuel (startingCoords g) (fun _ => uncalculated)
    (fun c hcm => ⟨start_dom hw hcm, by have := hneed c hcm; omega⟩)
    ⟨fun c h => absurd rfl h, fun c h => absurd rfl h, fun c h => absurd rfl h⟩
  have hnn : ∀ c ∈ [] ++ startingCoords g, 0 ≤ m c := fun c hcm =>
    (h2.min c (h4 c (by simpa using hcm))).1.nonneg (gen_dpok hw hc) (h2.dom c (h4 c (by simpa using hcm)))
  rcases best_spec m (startingCoords g) [] (-1) none hnn (Or.inl ⟨rfl, rfl, rfl⟩) with
    h | ⟨c, hcm, hb, hcost, hmin⟩
  · exact absurd (by simpa using h) (startingCoords_ne_nil g)
  · have hcm' : c ∈ startingCoords g := by simpa using hcm
    obtain ⟨rest, hr, hg⟩ := traceGen_spec hw hc h2 fuel c [] (by have := hneed c hcm'; omega) (h4 c hcm')
    obtain ⟨ha, hac⟩ := good_complete hg hcm'
    refine ⟨m c, rest.reverse, ?_, ha, hac, ?_⟩
    · unfold alignGen
      simp only [h1]
      unfold retrieveGen
      simp only [hb, hr, List.nil_append, hcost]
    · intro a haa
      obtain ⟨hp, hst⟩ := nway_start haa
      have h5 := (h2.min _ (h4 _ hst)).2 _ (pathCost_of_prefixG hw _ a rfl hp)
      have h6 := hmin (coordOf g a) (by simpa using hst)
      omega

end Verif.Nway
