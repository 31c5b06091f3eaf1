import Verif.Mapsswe.Model
/-!
# Lemmas about the segmentation
-/
set_option autoImplicit false
namespace Verif.Mapsswe

variable {W : Type} [DecidableEq W]

/-- Errors among the first entries. -/
def E (p : List (Entry W)) (k : Nat) : Nat := (p.take k).countP (fun e => e.ev ≠ Ev.corr)

omit [DecidableEq W] in
theorem E_seg (p : List (Entry W)) (b f : Nat) (h : b ≤ f) : E p b + segErr p b f = E p f := by
  unfold E segErr
  have : p.take f = p.take b ++ (p.take f).drop b := by
    conv => lhs; rw [← List.take_append_drop b (p.take f)]
    rw [List.take_take, Nat.min_eq_left h]
  conv => rhs; rw [this]
  rw [List.countP_append]

omit [DecidableEq W] in
theorem E_mono (p : List (Entry W)) (b f : Nat) (h : b ≤ f) : E p b ≤ E p f := by
  have := E_seg p b f h; omega

omit [DecidableEq W] in
theorem E_all (p : List (Entry W)) : E p p.length = errors p := by
  unfold E errors; rw [List.take_length]

omit [DecidableEq W] in
theorem E_zero (p : List (Entry W)) : E p 0 = 0 := by simp [E]

omit [DecidableEq W] in
theorem isCorr_lt (p : List (Entry W)) (i : Nat) (h : isCorr p i = true) : i < p.length := by
  unfold isCorr at h
  apply Nat.lt_of_not_le
  intro h2
  rw [List.getElem?_eq_none h2] at h
  simp at h

omit [DecidableEq W] in
theorem E_corr (p : List (Entry W)) (i : Nat) (h : isCorr p i = true) : E p (i + 1) = E p i := by
  have hl := isCorr_lt p i h
  unfold isCorr at h
  rw [List.getElem?_eq_getElem hl] at h
  simp only [Option.map_some, beq_iff_eq, Option.some.injEq] at h
  unfold E
  rw [List.take_add_one, List.countP_append, List.getElem?_eq_getElem hl]
  simp [h]

omit [DecidableEq W] in
theorem skipIns_le (p : List (Entry W)) : ∀ (f i : Nat), i ≤ skipIns p f i ∧ (i ≤ p.length → skipIns p f i ≤ p.length)
  | 0, i => ⟨Nat.le_refl _, fun h => h⟩
  | f + 1, i => by
    unfold skipIns
    by_cases h : ((p[i]?.map (·.ev)) == some Ev.ins) = true
    · rw [if_pos h]
      have hl : i < p.length := by
        apply Nat.lt_of_not_le
        intro h2
        rw [List.getElem?_eq_none h2] at h
        simp at h
      have := skipIns_le p f (i + 1)
      exact ⟨by omega, fun _ => this.2 (by omega)⟩
    · rw [if_neg h]; exact ⟨Nat.le_refl _, fun h => h⟩

omit [DecidableEq W] in
theorem skipIns_not (p : List (Entry W)) : ∀ (f i : Nat), p.length ≤ f + i →
    (p[skipIns p f i]?.map (·.ev)) ≠ some Ev.ins
  | 0, i, h => by
    unfold skipIns
    rw [List.getElem?_eq_none (by omega)]
    simp
  | f + 1, i, h => by
    unfold skipIns
    by_cases h1 : ((p[i]?.map (·.ev)) == some Ev.ins) = true
    · rw [if_pos h1]; exact skipIns_not p f (i + 1) (by omega)
    · rw [if_neg h1]
      intro h2
      rw [h2] at h1
      exact h1 rfl

theorem resync_spec (p q : List (Entry W)) (hp : WellFormed p) (hq : WellFormed q) (s : S)
    (h1 : (p[s.ind1]?.map (·.ev)) ≠ some Ev.ins) (h2 : (q[s.ind2]?.map (·.ev)) ≠ some Ev.ins) :
    ∃ t, resync p q s = some { s with st := t } ∧
      (t = s.st ∨ (t = St.e ∧ (isCorr p s.ind1 && isCorr q s.ind2) = false)) := by
  unfold resync
  cases ha : p[s.ind1]? with
  | none =>
    have : outOfSync p q s.ind1 s.ind2 = some false := by
      unfold outOfSync
      rw [ha]
      cases hb : q[s.ind2]? with
      | none => rfl
      | some c =>
        have hc := hq c (List.mem_of_getElem? hb)
        rw [hb] at h2
        simp only [Option.map_some, ne_eq, Option.some.injEq] at h2
        have : c.ref.isNone = false := by
          cases hr : c.ref with
          | none => exact absurd (hc.mp hr) h2
          | some _ => rfl
        simp [this]
    rw [this]
    exact ⟨s.st, rfl, Or.inl rfl⟩
  | some a =>
    rw [ha] at h1
    simp only [Option.map_some, ne_eq, Option.some.injEq] at h1
    have hra : a.ref.isNone = false ∧ ∃ x, a.ref = some x := by
      cases hr : a.ref with
      | none => exact absurd ((hp a (List.mem_of_getElem? ha)).mp hr) h1
      | some x => exact ⟨rfl, x, rfl⟩
    obtain ⟨hra, x, hx⟩ := hra
    cases hb : q[s.ind2]? with
    | none =>
      have : outOfSync p q s.ind1 s.ind2 = some false := by
        unfold outOfSync
        rw [ha, hb]
        simp [hra]
      rw [this]
      exact ⟨s.st, rfl, Or.inl rfl⟩
    | some c =>
      rw [hb] at h2
      simp only [Option.map_some, ne_eq, Option.some.injEq] at h2
      have hrc : c.ref.isNone = false ∧ ∃ x, c.ref = some x := by
        cases hr : c.ref with
        | none => exact absurd ((hq c (List.mem_of_getElem? hb)).mp hr) h2
        | some x => exact ⟨rfl, x, rfl⟩
      obtain ⟨hrc, y, hy⟩ := hrc
      have hd : refsDiffer p q s.ind1 s.ind2 = some (decide (x ≠ y)) := by
        unfold refsDiffer
        rw [ha, hb]
        simp only
        rw [hx, hy]
      have : outOfSync p q s.ind1 s.ind2 = some (decide (x ≠ y) && decide (a.ev ≠ c.ev)) := by
        unfold outOfSync
        rw [hd, ha, hb]
        simp [hra, hrc]
      rw [this]
      by_cases hc : (decide (x ≠ y) && decide (a.ev ≠ c.ev)) = true
      · rw [hc]
        simp only [Bool.and_eq_true, decide_eq_true_eq] at hc
        have hl1 : s.ind1 < p.length := (List.getElem?_eq_some_iff.mp ha).1
        have hl2 : s.ind2 < q.length := (List.getElem?_eq_some_iff.mp hb).1
        have hin : syncInner p q s.ind1 (s.ind2 + 1 + (s.ind1 - s.ind1)) (q.length + 1) s.ind2 = some (s.ind2, true) := by
          unfold syncInner
          rw [if_pos ⟨hl2, by omega⟩, hd]
          simp [hc.1]
        have hout : syncOuter p q s.ind1 s.ind2 (p.length + 1) s.ind1 s.ind2 = some (some (s.ind1, s.ind2)) := by
          unfold syncOuter
          rw [if_pos hl1, hin]
        simp only
        rw [hout]
        refine ⟨St.e, ?_, Or.inr ⟨rfl, ?_⟩⟩
        · have hany : (anyError p s.ind1 s.ind1 || anyError q s.ind2 s.ind2) = true := by
            unfold anyError
            have e1 : (p.take (s.ind1 + 1)).drop s.ind1 = [a] := by
              rw [List.take_add_one, List.drop_append_of_le_length (by rw [List.length_take]; omega), ha]
              simp
            have e2 : (q.take (s.ind2 + 1)).drop s.ind2 = [c] := by
              rw [List.take_add_one, List.drop_append_of_le_length (by rw [List.length_take]; omega), hb]
              simp
            rw [e1, e2]
            simp only [List.any_cons, List.any_nil, Bool.or_false, Bool.or_eq_true, decide_eq_true_eq]
            by_cases h5 : a.ev = Ev.corr
            · right; intro h6; exact hc.2 (by rw [h5, h6])
            · exact Or.inl h5
          simp only [hany, if_true]
        · unfold isCorr
          rw [ha, hb]
          simp only [Option.map_some, Bool.and_eq_false_iff, beq_eq_false_iff_ne, ne_eq, Option.some.injEq]
          by_cases h5 : a.ev = Ev.corr
          · right; intro h6; exact hc.2 (by rw [h5, h6])
          · exact Or.inl h5
      · rw [Bool.not_eq_true] at hc
        rw [hc]
        exact ⟨s.st, rfl, Or.inl rfl⟩

omit [DecidableEq W] in
theorem switch_e (p q : List (Entry W)) (mg : Nat) (s : S) (h : (isCorr p s.ind1 && isCorr q s.ind2) = false) :
    switch p q mg { s with st := St.e } = switch p q mg s := by
  unfold switch
  simp only [h]
  cases hs : s.st with
  | b => simp
  | e => simp; cases s; simp_all
  | g => simp

/-- Advancing (mtchprs.c:560-561). -/
def adv (p q : List (Entry W)) (s : S) : S :=
  { s with
    ind1 := if s.ind1 < p.length then s.ind1 + 1 else s.ind1
    ind2 := if s.ind2 < q.length then s.ind2 + 1 else s.ind2 }

theorem body_eq (p q : List (Entry W)) (hp : WellFormed p) (hq : WellFormed q) (mg : Nat) (s : S) :
    body p q mg s = some (adv p q (switch p q mg (skipBoth p q s))) := by
  unfold body
  obtain ⟨t, h1, h2⟩ := resync_spec p q hp hq (skipBoth p q s)
    (by unfold skipBoth; exact skipIns_not p p.length s.ind1 (by omega))
    (by unfold skipBoth; exact skipIns_not q q.length s.ind2 (by omega))
  rw [h1]
  simp only
  have : switch p q mg { skipBoth p q s with st := t } = switch p q mg (skipBoth p q s) := by
    rcases h2 with h2 | ⟨h2, h3⟩
    · rw [h2]
    · rw [h2]; exact switch_e p q mg _ h3
  rw [this]
  rfl

/-- What holds for one of the two sentences. -/
structure Side (p : List (Entry W)) (mg ind eog : Nat) (st : St) (good acc : Nat) : Prop where
  total : acc = E p (eog + 1 - mg)
  eog_le : eog ≤ ind
  le : ind ≤ p.length
  inB : st = St.b → E p ind = E p (eog + 1 - mg)
  inG : st = St.g → good ≤ ind ∧ E p (ind - good) = E p ind ∧ good < mg

variable {p : List (Entry W)} {mg ind eog good acc : Nat} {st : St}

omit [DecidableEq W] in
theorem Side.skip (h : Side p mg ind eog st good acc) (j : Nat) (h1 : ind ≤ j) (h2 : j ≤ p.length) :
    Side p mg j eog St.e good acc :=
  ⟨h.total, by have := h.eog_le; omega, h2, (by intro hh; cases hh), by intro hh; cases hh⟩

omit [DecidableEq W] in
theorem Side.both_b (h : Side p mg ind eog St.b good acc) (hmg : 1 ≤ mg) (hc : isCorr p ind = true) :
    Side p mg (ind + 1) ind St.b good acc := by
  have hl := isCorr_lt p ind hc
  have e1 := E_corr p ind hc
  have e2 := h.inB rfl
  have e3 := h.eog_le
  have e4 := E_mono p (eog + 1 - mg) (ind + 1 - mg) (by omega)
  have e5 := E_mono p (ind + 1 - mg) (ind + 1) (by omega)
  have e6 := h.total
  exact ⟨by omega, by omega, by omega, by intro _; omega, by intro hh; cases hh⟩

omit [DecidableEq W] in
theorem Side.both_g (h : Side p mg ind eog st good acc) (hc : isCorr p ind = true) (hmg : 1 < mg) :
    Side p mg (ind + 1) eog St.g 1 acc := by
  have hl := isCorr_lt p ind hc
  have e1 := E_corr p ind hc
  have e3 := h.eog_le
  exact ⟨h.total, by omega, by omega, (by intro hh; cases hh), by intro _; exact ⟨by omega, by simpa using e1.symm, hmg⟩⟩

omit [DecidableEq W] in
theorem Side.both_gg (h : Side p mg ind eog St.g good acc) (hc : isCorr p ind = true) (hmg : good + 1 ≠ mg) :
    Side p mg (ind + 1) eog St.g (good + 1) acc := by
  have hl := isCorr_lt p ind hc
  have e1 := E_corr p ind hc
  have e3 := h.eog_le
  obtain ⟨g1, g2, g3⟩ := h.inG rfl
  have e5 : E p (ind + 1 - (good + 1)) = E p (ind + 1) := by
    rw [show ind + 1 - (good + 1) = ind - good by omega]; omega
  exact ⟨h.total, by omega, by omega, (by intro hh; cases hh), by intro _; exact ⟨by omega, e5, by omega⟩⟩

omit [DecidableEq W] in
/-- Closing a segment after `k` good words before. -/
theorem Side.close (h : Side p mg ind eog st good acc) (hc : isCorr p ind = true) (k : Nat) (hk : k ≤ ind)
    (he : E p (ind - k) = E p ind) (hmg : k + 1 = mg) (g' : Nat) :
    Side p mg (ind + 1) ind St.b g' (acc + segErr p (eog + 1 - mg) (ind + 1)) := by
  have hl := isCorr_lt p ind hc
  have e1 := E_corr p ind hc
  have e3 := h.eog_le
  have e4 := E_seg p (eog + 1 - mg) (ind + 1) (by omega)
  have e5 := h.total
  have e6 : ind + 1 - mg = ind - k := by omega
  exact ⟨by rw [e6]; omega, by omega, by omega, by intro _; rw [e6]; omega, by intro hh; cases hh⟩

/-- Sums over the segments. -/
def sum1 (l : List Seg) : Nat := (l.map (·.err1)).sum
def sum2 (l : List Seg) : Nat := (l.map (·.err2)).sum

theorem clip (eog mg : Nat) : (if (eog : Int) - ((mg : Int) - 1) < 0 then 0 else (eog : Int) - ((mg : Int) - 1)).toNat
    = eog + 1 - mg := by
  by_cases h : (eog : Int) - ((mg : Int) - 1) < 0
  · rw [if_pos h]; omega
  · rw [if_neg h]; omega

omit [DecidableEq W] in
theorem countSeg_spec (p q : List (Entry W)) (e1 e2 mg f1 f2 : Nat) (segs : List Seg) :
    ∃ new, countSeg p q ((e1 : Int) - ((mg : Int) - 1)) ((e2 : Int) - ((mg : Int) - 1)) f1 f2 segs = segs ++ new ∧
      sum1 new = segErr p (e1 + 1 - mg) f1 ∧ sum2 new = segErr q (e2 + 1 - mg) f2 ∧ ∀ s ∈ new, 0 < s.err1 + s.err2 := by
  unfold countSeg
  simp only [clip]
  by_cases h : segErr p (e1 + 1 - mg) f1 = 0 ∧ segErr q (e2 + 1 - mg) f2 = 0
  · rw [if_pos h]
    exact ⟨[], by simp, by simp [sum1, h.1], by simp [sum2, h.2], by simp⟩
  · rw [if_neg h]
    refine ⟨[⟨_, _, _⟩], rfl, by simp [sum1], by simp [sum2], ?_⟩
    intro s hs
    simp only [List.mem_singleton] at hs
    rw [hs]
    simp only
    omega

/-- The invariant of the loop. -/
structure Inv (p q : List (Entry W)) (mg : Nat) (base : List Seg) (s : S) : Prop where
  ex : ∃ new, s.segs = base ++ new ∧ (∀ x ∈ new, 0 < x.err1 + x.err2) ∧
    Side p mg s.ind1 s.eog1 s.st s.good (sum1 new) ∧ Side q mg s.ind2 s.eog2 s.st s.good (sum2 new)

omit [DecidableEq W] in
theorem inv_skip (p q : List (Entry W)) (mg : Nat) (base : List Seg) (s : S) (h : Inv p q mg base s) :
    Inv p q mg base (skipBoth p q s) := by
  obtain ⟨new, h1, h2, a, b⟩ := h.ex
  have l1 := skipIns_le p p.length s.ind1
  have l2 := skipIns_le q q.length s.ind2
  refine ⟨new, h1, h2, ?_, ?_⟩
  · unfold skipBoth
    by_cases hc : skipIns p p.length s.ind1 ≠ s.ind1 ∨ skipIns q q.length s.ind2 ≠ s.ind2
    · simp only [if_pos hc]; exact a.skip _ l1.1 (l1.2 a.le)
    · simp only [if_neg hc]
      rw [show skipIns p p.length s.ind1 = s.ind1 by omega]; exact a
  · unfold skipBoth
    by_cases hc : skipIns p p.length s.ind1 ≠ s.ind1 ∨ skipIns q q.length s.ind2 ≠ s.ind2
    · simp only [if_pos hc]; exact b.skip _ l2.1 (l2.2 b.le)
    · simp only [if_neg hc]
      rw [show skipIns q q.length s.ind2 = s.ind2 by omega]; exact b

theorem sum1_append (a b : List Seg) : sum1 (a ++ b) = sum1 a + sum1 b := by simp [sum1]
theorem sum2_append (a b : List Seg) : sum2 (a ++ b) = sum2 a + sum2 b := by simp [sum2]

omit [DecidableEq W] in
theorem inv_close (p q : List (Entry W)) (mg : Nat) (base : List Seg) (s : S) (h : Inv p q mg base s)
    (c1 : isCorr p s.ind1 = true) (c2 : isCorr q s.ind2 = true) (k : Nat) (hk1 : k ≤ s.ind1) (hk2 : k ≤ s.ind2)
    (he1 : E p (s.ind1 - k) = E p s.ind1) (he2 : E q (s.ind2 - k) = E q s.ind2) (hmg : k + 1 = mg) (g' : Nat) :
    Inv p q mg base (adv p q (endSeg p q mg { s with good := g' })) := by
  obtain ⟨new, h1, h2, a, b⟩ := h.ex
  obtain ⟨n2, e1, e2, e3, e4⟩ := countSeg_spec p q s.eog1 s.eog2 mg (s.ind1 + 1) (s.ind2 + 1) s.segs
  have l1 := isCorr_lt p _ c1
  have l2 := isCorr_lt q _ c2
  refine ⟨new ++ n2, ?_, ?_, ?_, ?_⟩
  · show (adv p q (endSeg p q mg { s with good := g' })).segs = _
    unfold adv endSeg
    simp only
    rw [e1, h1, List.append_assoc]
  · intro x hx
    rcases List.mem_append.mp hx with hx | hx
    · exact h2 x hx
    · exact e4 x hx
  · have := a.close c1 k hk1 he1 hmg g'
    rw [sum1_append, e2]
    unfold adv endSeg
    simp only [if_pos l1]
    exact this
  · have := b.close c2 k hk2 he2 hmg g'
    rw [sum2_append, e3]
    unfold adv endSeg
    simp only [if_pos l2]
    exact this

omit [DecidableEq W] in
theorem inv_switch (p q : List (Entry W)) (mg : Nat) (hmg : 1 ≤ mg) (base : List Seg) (s : S) (h : Inv p q mg base s) :
    Inv p q mg base (adv p q (switch p q mg s)) := by
  obtain ⟨new, h1, h2, a, b⟩ := h.ex
  by_cases hb : (isCorr p s.ind1 && isCorr q s.ind2) = true
  · have hc := Bool.and_eq_true_iff.mp hb
    have l1 := isCorr_lt p _ hc.1
    have l2 := isCorr_lt q _ hc.2
    unfold switch
    simp only [hb, if_true]
    cases hs : s.st with
    | b =>
      rw [hs] at a b
      refine ⟨new, h1, h2, ?_, ?_⟩
      · unfold adv; simp only [if_pos l1]; exact a.both_b hmg hc.1
      · unfold adv; simp only [if_pos l2]; exact b.both_b hmg hc.2
    | e =>
      simp only
      by_cases hm : 1 = mg
      · rw [if_pos hm]
        exact inv_close p q mg base s h hc.1 hc.2 0 (Nat.zero_le _) (Nat.zero_le _) rfl rfl (by omega) 1
      · rw [if_neg hm]
        refine ⟨new, h1, h2, ?_, ?_⟩
        · unfold adv; simp only [if_pos l1]; exact a.both_g hc.1 (by omega)
        · unfold adv; simp only [if_pos l2]; exact b.both_g hc.2 (by omega)
    | g =>
      rw [hs] at a b
      simp only
      by_cases hm : s.good + 1 = mg
      · rw [if_pos hm]
        exact inv_close p q mg base s h hc.1 hc.2 s.good (a.inG rfl).1 (b.inG rfl).1 (a.inG rfl).2.1 (b.inG rfl).2.1 hm _
      · rw [if_neg hm]
        refine ⟨new, h1, h2, ?_, ?_⟩
        · unfold adv; simp only [if_pos l1]; exact a.both_gg hc.1 hm
        · unfold adv; simp only [if_pos l2]; exact b.both_gg hc.2 hm
  · rw [Bool.not_eq_true] at hb
    have : switch p q mg s = { s with st := St.e } := by
      unfold switch
      simp only [hb]
      cases hs : s.st with
      | b => simp
      | e => simp; cases s; simp_all
      | g => simp
    rw [this]
    refine ⟨new, h1, h2, ?_, ?_⟩
    · unfold adv
      have := a.le
      by_cases hl : s.ind1 < p.length
      · simp only [if_pos hl]; exact a.skip _ (by omega) (by omega)
      · simp only [if_neg hl]; exact a.skip _ (by omega) (by omega)
    · unfold adv
      have := b.le
      by_cases hl : s.ind2 < q.length
      · simp only [if_pos hl]; exact b.skip _ (by omega) (by omega)
      · simp only [if_neg hl]; exact b.skip _ (by omega) (by omega)

omit [DecidableEq W] in
theorem switch_ind (p q : List (Entry W)) (mg : Nat) (s : S) :
    (switch p q mg s).ind1 = s.ind1 ∧ (switch p q mg s).ind2 = s.ind2 := by
  unfold switch endSeg
  simp only
  by_cases hb : (isCorr p s.ind1 && isCorr q s.ind2) = true
  · simp only [hb, if_true]
    cases hs : s.st with
    | b => exact ⟨rfl, rfl⟩
    | e =>
      simp only
      by_cases hm : 1 = mg
      · rw [if_pos hm]; exact ⟨rfl, rfl⟩
      · rw [if_neg hm]; exact ⟨rfl, rfl⟩
    | g =>
      simp only
      by_cases hm : s.good + 1 = mg
      · rw [if_pos hm]; exact ⟨rfl, rfl⟩
      · rw [if_neg hm]; exact ⟨rfl, rfl⟩
  · simp only [hb]
    cases hs : s.st <;> exact ⟨rfl, rfl⟩

theorem loop_spec (p q : List (Entry W)) (hp : WellFormed p) (hq : WellFormed q) (mg : Nat) (hmg : 1 ≤ mg)
    (base : List Seg) : ∀ (f : Nat) (s : S), p.length ≤ f + s.ind1 → Inv p q mg base s →
    ∃ s', loop p q mg f s = some s' ∧ Inv p q mg base s' ∧ p.length ≤ s'.ind1
  | 0, s, hf, hi => by
    unfold loop
    rw [if_neg (by omega)]
    exact ⟨s, rfl, hi, by omega⟩
  | f + 1, s, hf, hi => by
    unfold loop
    by_cases h : s.ind1 < p.length
    · rw [if_pos h, body_eq p q hp hq]
      simp only
      have h1 := inv_switch p q mg hmg base _ (inv_skip p q mg base s hi)
      apply loop_spec p q hp hq mg hmg base f _ _ h1
      have h2 := (switch_ind p q mg (skipBoth p q s)).1
      have h3 : (skipBoth p q s).ind1 = skipIns p p.length s.ind1 := rfl
      have h4 := skipIns_le p p.length s.ind1
      have h5 := h4.2 (by omega)
      unfold adv
      simp only [h2, h3]
      by_cases hl : skipIns p p.length s.ind1 < p.length
      · rw [if_pos hl]; omega
      · rw [if_neg hl]; omega
    · rw [if_neg h]
      exact ⟨s, rfl, hi, by omega⟩

theorem compSents_spec (p q : List (Entry W)) (hp : WellFormed p) (hq : WellFormed q) (mg : Nat) (hmg : 1 ≤ mg)
    (base : List Seg) : ∃ new, compSents p q mg base = some (base ++ new) ∧ sum1 new = errors p ∧ sum2 new = errors q ∧
      ∀ s ∈ new, 0 < s.err1 + s.err2 := by
  have e0 : ∀ r : List (Entry W), Side r mg 0 0 St.b 0 0 := by
    intro r
    refine ⟨?_, Nat.le_refl _, Nat.zero_le _, ?_, by intro hh; cases hh⟩
    · rw [show 0 + 1 - mg = 0 by omega, E_zero]
    · intro _; rw [show 0 + 1 - mg = 0 by omega]
  have hinit : Inv p q mg base ⟨0, 0, 0, 0, St.b, 0, base⟩ :=
    ⟨[], by simp, by simp, e0 p, e0 q⟩
  obtain ⟨s, h1, h2, h3⟩ := loop_spec p q hp hq mg hmg base p.length _ (by simp) hinit
  obtain ⟨new, n1, n2, a, b⟩ := h2.ex
  unfold compSents
  rw [h1]
  simp only [Option.map_some]
  unfold finish
  have al := a.le
  have bl := b.le
  by_cases hf : s.st ≠ St.b ∨ (s.st = St.b ∧ q.length > s.ind2)
  · rw [if_pos hf]
    obtain ⟨m, e1, e2, e3, e4⟩ := countSeg_spec p q s.eog1 s.eog2 mg p.length q.length s.segs
    have a1 := E_seg p (s.eog1 + 1 - mg) p.length (by have := a.eog_le; omega)
    have b1 := E_seg q (s.eog2 + 1 - mg) q.length (by have := b.eog_le; omega)
    rw [E_all] at a1 b1
    have at' := a.total
    have bt := b.total
    refine ⟨new ++ m, by rw [e1, n1, List.append_assoc], by rw [sum1_append, e2]; omega,
      by rw [sum2_append, e3]; omega, ?_⟩
    intro x hx
    rcases List.mem_append.mp hx with hx | hx
    · exact n2 x hx
    · exact e4 x hx
  · rw [if_neg hf]
    have hb : s.st = St.b := by
      apply Classical.byContradiction
      intro hh; exact hf (Or.inl hh)
    have hq2 : q.length ≤ s.ind2 := by
      apply Nat.le_of_not_lt
      intro hh; exact hf (Or.inr ⟨hb, hh⟩)
    refine ⟨new, by rw [n1], ?_, ?_, n2⟩
    · have := a.inB hb
      rw [show s.ind1 = p.length by omega, E_all] at this
      rw [this]; exact a.total
    · have := b.inB hb
      rw [show s.ind2 = q.length by omega, E_all] at this
      rw [this]; exact b.total

end Verif.Mapsswe
