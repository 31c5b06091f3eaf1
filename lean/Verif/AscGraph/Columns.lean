import Verif.AscGraph.Lemmas
/-! Columns versus steps between coordinates; no dead ends; traceback. -/
set_option autoImplicit false
namespace Verif.AscGraph

theorem filter_range_none (P : Nat → Bool) : ∀ n, (∀ k < n, P k = false) → (List.range n).filter P = []
  | 0, _ => by simp
  | n + 1, h => by
    rw [List.range_succ, List.filter_append, filter_range_none P n (fun k hk => h k (by omega))]
    simp [h n (by omega)]

theorem filter_range_single (P : Nat → Bool) (i : Nat) : ∀ n, i < n → (∀ k < n, P k = true ↔ k = i) →
    (List.range n).filter P = [i]
  | 0, h, _ => by omega
  | n + 1, hi, h => by
    rw [List.range_succ, List.filter_append]
    by_cases e : i = n
    · subst e
      rw [filter_range_none P i (fun k hk => by
        cases hp : P k with
        | false => rfl
        | true => have := (h k (by omega)).1 hp; omega)]
      simp [(h i (by omega)).2 rfl]
    · rw [filter_range_single P i n (by omega) (fun k hk => h k (by omega))]
      have : P n = false := by
        cases hp : P n with
        | false => rfl
        | true => exact absurd ((h n (by omega)).1 hp).symm e
      simp [this]

theorem filter_range_pair (P : Nat → Bool) (j i : Nat) (hji : j < i) : ∀ n, i < n →
    (∀ k < n, P k = true ↔ (k = j ∨ k = i)) → (List.range n).filter P = [j, i]
  | 0, h, _ => by omega
  | n + 1, hi, h => by
    rw [List.range_succ, List.filter_append]
    by_cases e : i = n
    · subst e
      rw [filter_range_single P j i hji (fun k hk => by
        rw [h k (by omega)]
        constructor
        · intro h; omega
        · intro h; exact Or.inl h)]
      simp [(h i (by omega)).2 (Or.inr rfl)]
    · rw [filter_range_pair P j i hji n (by omega) (fun k hk => h k (by omega))]
      have : P n = false := by
        cases hp : P n with
        | false => rfl
        | true => have := (h n (by omega)).1 hp; omega
      simp [this]

theorem changedFrom_eq : ∀ (c p : Coord) (i0 : Nat), p.length = c.length →
    changedFrom i0 c p =
      ((List.range c.length).filter (fun k => decide (c.getD k 0 ≠ p.getD k 0))).map (i0 + ·)
  | [], [], _, _ => by simp [changedFrom]
  | [], _ :: _, _, h => by simp at h
  | _ :: _, [], _, h => by simp at h
  | a :: as, b :: bs, i0, h => by
    have ih := changedFrom_eq as bs (i0 + 1) (by simpa using h)
    rw [changedFrom, ih, List.length_cons, List.range_succ_eq_map, List.filter_cons, List.filter_map]
    have hf : (fun k => decide ((a :: as).getD k 0 ≠ (b :: bs).getD k 0)) ∘ Nat.succ =
        (fun k => decide (as.getD k 0 ≠ bs.getD k 0)) := by
      funext k; simp
    rw [hf]
    have hm : (fun x => i0 + 1 + x) = (fun x => i0 + x) ∘ Nat.succ := by
      funext x; simp; omega
    by_cases e : a = b
    · simp [e, hm]
    · simp [e, hm]

theorem changed_eq (c p : Coord) (h : p.length = c.length) :
    changed c p = (List.range c.length).filter (fun k => decide (c.getD k 0 ≠ p.getD k 0)) := by
  unfold changed
  rw [changedFrom_eq c p 0 h]
  simp

theorem numberChanged_eq : ∀ (c p : Coord) (i0 : Nat), numberChanged c p = (changedFrom i0 c p).length
  | [], [], _ => by simp [numberChanged, changedFrom]
  | [], _ :: _, _ => by simp [numberChanged, changedFrom]
  | _ :: _, [], _ => by simp [numberChanged, changedFrom]
  | a :: as, b :: bs, i0 => by
    rw [numberChanged, changedFrom, numberChanged_eq as bs (i0 + 1)]
    split
    · simp
    · simp; omega

theorem columnOf_length : ∀ (c p : Coord), p.length = c.length → (columnOf c p).length = c.length
  | [], [], _ => rfl
  | [], _ :: _, h => by simp at h
  | _ :: _, [], h => by simp at h
  | a :: as, b :: bs, h => by
    simp [columnOf, columnOf_length as bs (by simpa using h)]

theorem columnOf_getD : ∀ (c p : Coord) (i : Nat), p.length = c.length →
    (columnOf c p).getD i none = if c.getD i 0 = p.getD i 0 then none else some (c.getD i 0)
  | [], [], i, _ => by simp [columnOf]
  | [], _ :: _, _, h => by simp at h
  | _ :: _, [], _, h => by simp at h
  | a :: as, b :: bs, 0, h => by simp [columnOf]
  | a :: as, b :: bs, i + 1, h => by
    have := columnOf_getD as bs i (by simpa using h)
    simp only [columnOf, List.getD_cons_succ]
    exact this

theorem occupied_columnOf (c p : Coord) (h : p.length = c.length) :
    occupied (columnOf c p) = changed c p := by
  rw [changed_eq c p h]
  unfold occupied
  rw [columnOf_length c p h]
  congr 1
  funext k
  rw [columnOf_getD c p k h]
  by_cases e : c.getD k 0 = p.getD k 0
  · rw [if_pos e, decide_eq_false (fun h => h e)]; rfl
  · simp only [if_neg e, Option.isSome_some]
    exact (decide_eq_true e).symm

theorem step_changed {g : G} {rank : Nat → Nat → Nat} (hw : g.WF rank) {c p : Coord} (hd : Dom g c)
    (hs : Step g c p) :
    (∃ i, i < g.dim ∧ changed c p = [i]) ∨
    ∃ j i, j < g.cfg.indexRef ∧ g.cfg.indexRef ≤ i ∧ i < g.dim ∧ changed c p = [j, i] := by
  obtain ⟨hl, _, h⟩ := step_pointwise hw hd hs
  have hdl := hd.1
  rw [changed_eq c p hl]
  rcases h with ⟨i, hi, hk⟩ | ⟨j, i, hj, hri, hi, hk⟩
  · left
    refine ⟨i, hi, filter_range_single _ i _ (by omega) (fun k _ => ?_)⟩
    rw [decide_eq_true_eq]; exact hk k
  · right
    refine ⟨j, i, hj, hri, hi, filter_range_pair _ j i (by omega) _ (by omega) (fun k _ => ?_)⟩
    rw [decide_eq_true_eq]; exact hk k

theorem step_legal {g : G} {rank : Nat → Nat → Nat} (hw : g.WF rank) {c p : Coord} (hd : Dom g c)
    (hs : Step g c p) : LegalColumn g.cfg.indexRef g.dim (columnOf c p) := by
  have hl := (step_pointwise hw hd hs).1
  refine ⟨by rw [columnOf_length c p hl]; exact hd.1, ?_⟩
  rw [occupied_columnOf c p hl]
  rcases step_changed hw hd hs with ⟨i, _, h⟩ | ⟨j, i, hj, hri, _, h⟩
  · exact Or.inl ⟨i, h⟩
  · exact Or.inr ⟨j, i, h, hj, hri⟩

theorem getD_of_changed {c p : Coord} (hl : p.length = c.length) {i : Nat} (h : i ∈ changed c p) :
    ((columnOf c p).getD i none).getD 0 = c.getD i 0 := by
  rw [changed_eq c p hl, List.mem_filter, decide_eq_true_eq] at h
  rw [columnOf_getD c p i hl, if_neg h.2]
  rfl

theorem step_cost {g : G} {rank : Nat → Nat → Nat} (hw : g.WF rank) {c p : Coord} (hd : Dom g c)
    (hs : Step g c p) : transCost g c p = colCost g (columnOf c p) := by
  have hl := (step_pointwise hw hd hs).1
  unfold transCost colCost
  rw [occupied_columnOf c p hl]
  rcases step_changed hw hd hs with ⟨i, _, h⟩ | ⟨j, i, hj, hri, _, h⟩
  · have e : ((columnOf c p).getD i none).getD 0 = c.getD i 0 := getD_of_changed hl (by rw [h]; simp)
    simp only [h, e]
    cases g.tok i (c.getD i 0) <;> rfl
  · have e : ((columnOf c p).getD i none).getD 0 = c.getD i 0 := getD_of_changed hl (by rw [h]; simp)
    have e' : ((columnOf c p).getD j none).getD 0 = c.getD j 0 := getD_of_changed hl (by rw [h]; simp)
    simp only [h, e, e']
    cases g.tok i (c.getD i 0) <;> cases g.tok j (c.getD j 0) <;> rfl

/-! ### costs are not negative -/

theorem costInsertion_nonneg {g : G} (h : g.CostsOK) (b : Bool) : 0 ≤ costInsertion g.cfg b := by
  unfold costInsertion
  split
  · exact h.opt
  · exact h.ins

theorem costAdaptive_nonneg {g : G} (h : g.CostsOK) (t1 t2 : Tok) : 0 ≤ costAdaptive g.cfg t1 t2 := by
  unfold costAdaptive
  split
  · exact Int.le_refl _
  · rename_i ha
    have hm := h.maxDur (by simpa using ha)
    split
    · exact Int.le_refl _
    · split
      · exact Int.tdiv_nonneg (Int.mul_nonneg h.adaptive (by omega)) (by omega)
      · split
        · exact Int.tdiv_nonneg (Int.mul_nonneg h.adaptive (by omega)) (by omega)
        · exact Int.le_refl _

theorem costPair_nonneg {g : G} (h : g.CostsOK) (t1 t2 : Tok) : 0 ≤ costPair g.cfg t1 t2 := by
  have hA := costAdaptive_nonneg h t1 t2
  have hW : 0 ≤ costWordAlign g.cfg t1 t2 := by
    unfold costWordAlign
    split <;> omega
  have hT := h.trans
  have hS := h.spk
  unfold costPair
  split
  · rename_i ht
    have := h.divider ht
    apply Int.tdiv_nonneg _ (by omega)
    have hm : 0 ≤ g.cfg.costTrans * ((t1.start - t2.start).natAbs + (t1.stop - t2.stop).natAbs : Int) :=
      Int.mul_nonneg h.trans (by omega)
    unfold costTransTime
    simp only
    split <;> omega
  · unfold costTransWord
    split
    · omega
    · split
      · exact hA
      · split
        · exact hA
        · omega

theorem tok_mem {g : G} {i k : Nat} {t : Tok} (h : g.tok i k = some t) : ∃ s ∈ g.streams, t ∈ s.toks := by
  unfold G.tok at h
  split at h
  · simp at h
  · rename_i s hs
    split at h
    · simp at h
    · exact ⟨s, List.mem_of_getElem? hs, List.mem_of_getElem? h⟩

theorem costSingle_nonneg {g : G} (h : g.CostsOK) {i k : Nat} {t : Tok} (ht : g.tok i k = some t) :
    0 ≤ costSingle g.cfg i t := by
  unfold costSingle
  split
  · rename_i hc
    have := h.divider hc
    obtain ⟨s, hs, hts⟩ := tok_mem ht
    have := h.times hc s hs t hts
    exact Int.tdiv_nonneg (Int.mul_nonneg (costInsertion_nonneg h _) (by omega)) (by omega)
  · exact costInsertion_nonneg h _

theorem transCost_nonneg {g : G} (h : g.CostsOK) (c p : Coord) : 0 ≤ transCost g c p := by
  unfold transCost
  split
  · exact Int.le_refl _
  · split
    · rename_i t ht; exact costSingle_nonneg h ht
    · exact Int.le_refl _
  · split
    · exact costPair_nonneg h _ _
    · exact Int.le_refl _

theorem dpok {g : G} {rank : Nat → Nat → Nat} (hw : g.WF rank) (hc : g.CostsOK) :
    DPOK (prevCoords g) (transCost g) (Dom g) (rankFrom rank 0) where
  closed c p hd hp := step_dom hw hd ((mem_prevCoords g hw.1 c p).1 hp).2
  dec c p hd hp := step_rank hw hd ((mem_prevCoords g hw.1 c p).1 hp).2
  nonneg c p _ _ := transCost_nonneg hc c p

/-! ### no dead ends -/

theorem tok_some {g : G} {c : Coord} (hd : Dom g c) {i : Nat} (hi : i < g.dim) (h0 : c.getD i 0 ≠ 0) :
    ∃ t, g.tok i (c.getD i 0) = some t := by
  obtain ⟨s, hs⟩ := stream_of_lt g hi
  have := hd.2 i s hs
  refine ⟨s.toks[c.getD i 0 - 1], ?_⟩
  unfold G.tok
  rw [hs]
  simp only
  rw [if_neg h0]
  exact List.getElem?_eq_getElem (by omega)

theorem pruneLoop_of_max {g : G} {thr cb ce : Int} {chg : Nat} (c : Coord)
    (h : ∀ i t, g.tok i (c.getD i 0) = some t → effStart t ≤ cb) :
    ∀ (ks pre : Coord), pre ++ ks = c → pruneLoop g thr cb ce chg pre.length ks = true
  | [], _, _ => by rw [pruneLoop]
  | k :: ks, pre, e => by
    have next : pruneLoop g thr cb ce chg (pre.length + 1) ks = true := by
      have := pruneLoop_of_max (thr := thr) (ce := ce) (chg := chg) c h ks (pre ++ [k]) (by simpa using e)
      simpa using this
    rw [pruneLoop]
    split
    · exact next
    · split
      · rfl
      · rename_i t ht
        have hk : c.getD pre.length 0 = k := by rw [← e]; simp
        have := h pre.length t (by rw [hk]; exact ht)
        split
        · rfl
        · split
          · rfl
          · rw [if_neg (by omega)]; exact next

/-- A dimension satisfying `P` whose value is maximal. -/
theorem exists_max (P : Nat → Prop) (f : Nat → Int) : ∀ n, (∃ i < n, P i) →
    ∃ i < n, P i ∧ ∀ j < n, P j → f j ≤ f i
  | 0, h => by obtain ⟨i, hi, _⟩ := h; omega
  | n + 1, h => by
    by_cases hn : ∃ i < n, P i
    · obtain ⟨i, hi, hp, hm⟩ := exists_max P f n hn
      by_cases hpn : P n ∧ f i < f n
      · refine ⟨n, by omega, hpn.1, fun j hj hpj => ?_⟩
        by_cases e : j = n
        · subst e; exact Int.le_refl _
        · have := hm j (by omega) hpj; omega
      · refine ⟨i, by omega, hp, fun j hj hpj => ?_⟩
        by_cases e : j = n
        · subst e
          have : ¬ f i < f j := fun h => hpn ⟨hpj, h⟩
          omega
        · exact hm j (by omega) hpj
    · obtain ⟨i, hi, hp⟩ := h
      have e : i = n := by
        rcases Nat.lt_or_ge i n with h | h
        · exact absurd ⟨i, h, hp⟩ hn
        · omega
      subst e
      refine ⟨i, by omega, hp, fun j hj hpj => ?_⟩
      have : j = i := by
        rcases Nat.lt_or_ge j i with h | h
        · exact absurd ⟨j, h, hpj⟩ hn
        · omega
      subst this; exact Int.le_refl _

theorem no_dead_end {g : G} {rank : Nat → Nat → Nat} (hw : g.WF rank) {c : Coord} (hd : Dom g c)
    (hne : isEnding c = false) : ∃ p, p ∈ prevCoords g c := by
  have hex : ∃ i < g.dim, c.getD i 0 ≠ 0 := by
    rcases Classical.em (∃ i < g.dim, c.getD i 0 ≠ 0) with h | h
    · exact h
    · have : isEnding c = true := isEnding_iff.2 (fun i => by
        rcases Nat.lt_or_ge i g.dim with hi | hi
        · rcases Classical.em (c.getD i 0 = 0) with h0 | h0
          · exact h0
          · exact absurd ⟨i, hi, h0⟩ h
        · have := hd.1
          simp [List.getD_eq_getElem?_getD, List.getElem?_eq_none (by omega : c.length ≤ i)])
      rw [this] at hne; simp at hne
  obtain ⟨i, hi, h0, hmax⟩ := exists_max (fun i => c.getD i 0 ≠ 0)
    (fun i => match g.tok i (c.getD i 0) with | some t => effStart t | none => 0) g.dim hex
  obtain ⟨s, hs⟩ := stream_of_lt g hi
  obtain ⟨l, hl⟩ := prevIndexes_ne_nil (hw.2 i s hs) (i := c.getD i 0) (by omega) (hd.2 i s hs)
  rw [← prevIdx_eq hs] at hl
  have hstep : Step g c (c.set i l) := .single i l hi h0 hl
  refine ⟨c.set i l, (mem_prevCoords g hw.1 c _).2 ⟨?_, hstep⟩⟩
  have hlen := (step_pointwise hw hd hstep).1
  have hchg : changed c (c.set i l) = [i] := by
    have hdl := hd.1
    rw [changed_eq c _ hlen]
    refine filter_range_single _ i _ (by omega) (fun k _ => ?_)
    rw [decide_eq_true_eq, getD_set]
    have hne : l ≠ c.getD i 0 := by
      rw [prevIdx_eq hs] at hl
      exact (edge_facts (hw.2 i s hs)
        ((mem_prevIndexes (hw.2 i s hs) (by omega) (hd.2 i s hs)).1 hl)).2.1
    by_cases e : i = k
    · subst e; rw [if_pos ⟨rfl, by omega⟩]; exact ⟨fun _ => rfl, fun _ => hne.symm⟩
    · rw [if_neg (fun h => e h.1)]
      exact ⟨fun h => absurd rfl h, fun h => absurd h.symm e⟩
  have hnum : numberChanged c (c.set i l) = 1 := by
    rw [numberChanged_eq c _ 0]
    have : changedFrom 0 c (c.set i l) = [i] := hchg
    rw [this]; rfl
  obtain ⟨t, ht⟩ := tok_some hd hi h0
  unfold validate
  split
  · rfl
  · split
    · simp only [hchg, ht]
      split
      · rename_i hts
        split
        · rfl
        · split
          · split
            · rfl
            · apply pruneLoop_of_max c _ c [] rfl
              intro j u hu
              have hj : j < g.dim := by
                unfold G.tok at hu
                split at hu
                · simp at hu
                · rename_i s' hs'
                  exact (List.getElem?_eq_some_iff.1 hs').1
              have hj0 : c.getD j 0 ≠ 0 := by
                intro e
                rw [e] at hu
                unfold G.tok at hu
                split at hu <;> simp at hu
              have := hmax j hj hj0
              simp only [hu, ht] at this
              have e : effStart t = t.segStart := by unfold effStart; rw [if_pos hts]
              rw [← e]; exact this
          · rfl
      · rfl
    · rw [hnum]; simp

end Verif.AscGraph
