import Verif.Mapsswe.Lemmas
/-!
# Swapping the systems, and the segments found before
-/
set_option autoImplicit false
namespace Verif.Mapsswe

variable {W : Type}

/-- The state with the two sentences swapped. -/
def sw (s : S) : S := ⟨s.ind2, s.ind1, s.eog2, s.eog1, s.st, s.good, s.segs.map Seg.swap⟩

/-- The state with segments put before. -/
def pre (b : List Seg) (s : S) : S := { s with segs := b ++ s.segs }

theorem countSeg_swap (p q : List (Entry W)) (b1 b2 : Int) (f1 f2 : Nat) (segs : List Seg) :
    countSeg q p b2 b1 f2 f1 (segs.map Seg.swap) = (countSeg p q b1 b2 f1 f2 segs).map Seg.swap := by
  unfold countSeg
  simp only
  by_cases h : segErr p (if b1 < 0 then 0 else b1).toNat f1 = 0 ∧ segErr q (if b2 < 0 then 0 else b2).toNat f2 = 0
  · rw [if_pos h, if_pos ⟨h.2, h.1⟩]
  · rw [if_neg h, if_neg (fun hh => h ⟨hh.2, hh.1⟩), List.map_append, Nat.add_comm (segRef q _ _)]
    rfl

theorem countSeg_pre (p q : List (Entry W)) (b1 b2 : Int) (f1 f2 : Nat) (b segs : List Seg) :
    countSeg p q b1 b2 f1 f2 (b ++ segs) = b ++ countSeg p q b1 b2 f1 f2 segs := by
  unfold countSeg
  simp only
  by_cases h : segErr p (if b1 < 0 then 0 else b1).toNat f1 = 0 ∧ segErr q (if b2 < 0 then 0 else b2).toNat f2 = 0
  · rw [if_pos h, if_pos h]
  · rw [if_neg h, if_neg h, List.append_assoc]

theorem endSeg_swap (p q : List (Entry W)) (mg : Nat) (s : S) : endSeg q p mg (sw s) = sw (endSeg p q mg s) := by
  unfold endSeg sw
  simp only [countSeg_swap]

theorem endSeg_pre (p q : List (Entry W)) (mg : Nat) (b : List Seg) (s : S) :
    endSeg p q mg (pre b s) = pre b (endSeg p q mg s) := by
  unfold endSeg pre
  simp only [countSeg_pre]

theorem switch_swap (p q : List (Entry W)) (mg : Nat) (s : S) : switch q p mg (sw s) = sw (switch p q mg s) := by
  have hc : (isCorr q (sw s).ind1 && isCorr p (sw s).ind2) = (isCorr p s.ind1 && isCorr q s.ind2) := Bool.and_comm _ _
  unfold switch
  simp only [hc]
  rw [show (sw s).st = s.st from rfl, show (sw s).good = s.good from rfl]
  generalize (isCorr p s.ind1 && isCorr q s.ind2) = b
  cases b <;> cases s.st
  · rfl
  · rfl
  · rfl
  · rfl
  · simp only [if_true]
    by_cases hm : 1 = mg
    · rw [if_pos hm, if_pos hm]; exact endSeg_swap p q mg { s with good := 1 }
    · rw [if_neg hm, if_neg hm]; rfl
  · simp only [if_true]
    by_cases hm : s.good + 1 = mg
    · rw [if_pos hm, if_pos hm]; exact endSeg_swap p q mg { s with good := s.good + 1 }
    · rw [if_neg hm, if_neg hm]; rfl

theorem switch_pre (p q : List (Entry W)) (mg : Nat) (b : List Seg) (s : S) :
    switch p q mg (pre b s) = pre b (switch p q mg s) := by
  have hc : (isCorr p (pre b s).ind1 && isCorr q (pre b s).ind2) = (isCorr p s.ind1 && isCorr q s.ind2) := rfl
  unfold switch
  simp only [hc]
  rw [show (pre b s).st = s.st from rfl, show (pre b s).good = s.good from rfl]
  generalize (isCorr p s.ind1 && isCorr q s.ind2) = c
  cases c <;> cases s.st
  · rfl
  · rfl
  · rfl
  · rfl
  · simp only [if_true]
    by_cases hm : 1 = mg
    · rw [if_pos hm, if_pos hm]; exact endSeg_pre p q mg b { s with good := 1 }
    · rw [if_neg hm, if_neg hm]; rfl
  · simp only [if_true]
    by_cases hm : s.good + 1 = mg
    · rw [if_pos hm, if_pos hm]; exact endSeg_pre p q mg b { s with good := s.good + 1 }
    · rw [if_neg hm, if_neg hm]; rfl

theorem skipBoth_swap (p q : List (Entry W)) (s : S) : skipBoth q p (sw s) = sw (skipBoth p q s) := by
  unfold skipBoth sw
  simp only
  by_cases h : skipIns p p.length s.ind1 ≠ s.ind1 ∨ skipIns q q.length s.ind2 ≠ s.ind2
  · rw [if_pos h, if_pos (Or.comm.mp h)]
  · rw [if_neg h, if_neg (fun hh => h (Or.comm.mp hh))]

theorem adv_swap (p q : List (Entry W)) (s : S) : adv q p (sw s) = sw (adv p q s) := rfl

variable [DecidableEq W]

theorem body_swap (p q : List (Entry W)) (hp : WellFormed p) (hq : WellFormed q) (mg : Nat) (s : S) :
    body q p mg (sw s) = (body p q mg s).map sw := by
  rw [body_eq p q hp hq, body_eq q p hq hp, skipBoth_swap, switch_swap, adv_swap]
  rfl

theorem body_pre (p q : List (Entry W)) (hp : WellFormed p) (hq : WellFormed q) (mg : Nat) (b : List Seg) (s : S) :
    body p q mg (pre b s) = (body p q mg s).map (pre b) := by
  rw [body_eq p q hp hq, body_eq p q hp hq]
  rw [show skipBoth p q (pre b s) = pre b (skipBoth p q s) from rfl, switch_pre]
  rfl

theorem loop_pre (p q : List (Entry W)) (hp : WellFormed p) (hq : WellFormed q) (mg : Nat) (b : List Seg) :
    ∀ (f : Nat) (s : S), loop p q mg f (pre b s) = (loop p q mg f s).map (pre b)
  | 0, s => by
    unfold loop
    rw [show (pre b s).ind1 = s.ind1 from rfl]
    split <;> rfl
  | f + 1, s => by
    unfold loop
    rw [show (pre b s).ind1 = s.ind1 from rfl, body_pre p q hp hq]
    split
    · cases h : body p q mg s with
      | none => rfl
      | some s' => exact loop_pre p q hp hq mg b f s'
    · rfl

theorem finish_pre (p q : List (Entry W)) (mg : Nat) (b : List Seg) (s : S) :
    finish p q mg (pre b s) = b ++ finish p q mg s := by
  unfold finish
  rw [show (pre b s).ind2 = s.ind2 from rfl, show (pre b s).st = s.st from rfl, show (pre b s).eog1 = s.eog1 from rfl,
    show (pre b s).eog2 = s.eog2 from rfl, show (pre b s).segs = b ++ s.segs from rfl, countSeg_pre]
  split <;> rfl

theorem compSents_pre (p q : List (Entry W)) (hp : WellFormed p) (hq : WellFormed q) (mg : Nat) (b : List Seg) :
    compSents p q mg b = (compSents p q mg []).map (b ++ ·) := by
  unfold compSents
  have : (⟨0, 0, 0, 0, St.b, 0, b⟩ : S) = pre b ⟨0, 0, 0, 0, St.b, 0, []⟩ := by simp [pre]
  rw [this, loop_pre p q hp hq]
  cases loop p q mg p.length ⟨0, 0, 0, 0, St.b, 0, []⟩ with
  | none => rfl
  | some s => simp [finish_pre]

/-- Reference words still to come. -/
def left (p : List (Entry W)) (i : Nat) : Nat := refWords (p.drop i)

omit [DecidableEq W] in
theorem left_end (p : List (Entry W)) (i : Nat) (h : p.length ≤ i) : left p i = 0 := by
  unfold left; rw [List.drop_eq_nil_of_le h]; rfl

omit [DecidableEq W] in
theorem left_step (p : List (Entry W)) (i : Nat) (h : i < p.length) :
    left p i = left p (i + 1) + (if p[i].ev ≠ Ev.ins then 1 else 0) := by
  unfold left refWords
  rw [List.drop_eq_getElem_cons h, List.countP_cons]
  simp only [decide_eq_true_eq]

omit [DecidableEq W] in
theorem left_skip (p : List (Entry W)) : ∀ (f i : Nat), left p (skipIns p f i) = left p i
  | 0, i => rfl
  | f + 1, i => by
    unfold skipIns
    by_cases h : ((p[i]?.map (·.ev)) == some Ev.ins) = true
    · rw [if_pos h, left_skip p f (i + 1)]
      have hl : i < p.length := by
        apply Nat.lt_of_not_le
        intro h2
        rw [List.getElem?_eq_none h2] at h
        simp at h
      rw [left_step p i hl]
      rw [List.getElem?_eq_getElem hl] at h
      simp only [Option.map_some, beq_iff_eq, Option.some.injEq] at h
      simp [h]
    · rw [if_neg h]

omit [DecidableEq W] in
theorem left_skipped (p : List (Entry W)) (i : Nat) (h : skipIns p p.length i < p.length) :
    left p (skipIns p p.length i) = left p (skipIns p p.length i + 1) + 1 := by
  have h1 := skipIns_not p p.length i (by omega)
  rw [left_step p _ h]
  rw [List.getElem?_eq_getElem h] at h1
  simp only [Option.map_some, ne_eq, Option.some.injEq] at h1
  rw [if_pos h1]

omit [DecidableEq W] in
theorem loop_stop [DecidableEq W] (p q : List (Entry W)) (mg f : Nat) (s : S) (h : ¬ s.ind1 < p.length) :
    loop p q mg f s = some s := by
  cases f <;> (unfold loop; rw [if_neg h])

/-- When one sentence is finished and only insertions remain in the other, the remainder is one segment. -/
theorem run_tail (p q : List (Entry W)) (hp : WellFormed p) (hq : WellFormed q) (mg f : Nat) (s : S)
    (h1 : s.ind1 < p.length) (h2 : ¬ s.ind2 < q.length) (hf : p.length ≤ f + s.ind1) (h3 : left p s.ind1 = left q s.ind2) :
    (loop p q mg f s).map (finish p q mg) =
      some (countSeg p q ((s.eog1 : Int) - ((mg : Int) - 1)) ((s.eog2 : Int) - ((mg : Int) - 1)) p.length q.length s.segs) := by
  have l0 : left p s.ind1 = 0 := by rw [h3]; exact left_end q _ (by omega)
  have hle := skipIns_le p p.length s.ind1
  have hend : skipIns p p.length s.ind1 = p.length := by
    apply Nat.le_antisymm (hle.2 (by omega))
    apply Nat.le_of_not_lt
    intro hh
    have := left_skipped p s.ind1 hh
    rw [left_skip p p.length s.ind1] at this
    omega
  have hq2 := (skipIns_le q q.length s.ind2).1
  cases f with
  | zero => omega
  | succ f =>
    have hb : body p q mg s = some (adv p q (switch p q mg (skipBoth p q s))) := body_eq p q hp hq mg s
    have hst : (skipBoth p q s).st = St.e := by
      unfold skipBoth; simp only; rw [if_pos (Or.inl (by omega))]
    have hi : (skipBoth p q s).ind1 = p.length := hend
    have hsw : switch p q mg (skipBoth p q s) = skipBoth p q s := by
      have hc : isCorr p (skipBoth p q s).ind1 = false := by
        unfold isCorr; rw [hi, List.getElem?_eq_none (Nat.le_refl _)]; rfl
      unfold switch
      simp only [hc, hst]
      simp
    have e1 : loop p q mg (f + 1) s = some (adv p q (skipBoth p q s)) := by
      unfold loop
      rw [if_pos h1, hb, hsw]
      apply loop_stop
      unfold adv
      simp only [hi]
      simp
    rw [e1]
    simp only [Option.map_some]
    unfold finish
    rw [if_pos (Or.inl (by show (skipBoth p q s).st ≠ St.b; rw [hst]; simp))]
    rfl

omit [DecidableEq W] in
theorem sw_sw (s : S) : sw (sw s) = s := by
  unfold sw
  simp only [List.map_map]
  rw [show (Seg.swap ∘ Seg.swap) = id from rfl, List.map_id]

omit [DecidableEq W] in
theorem map_swap_swap (l : List Seg) : (l.map Seg.swap).map Seg.swap = l := by
  rw [List.map_map, show (Seg.swap ∘ Seg.swap) = id from rfl, List.map_id]

theorem loop_swap_half (p q : List (Entry W)) (hp : WellFormed p) (hq : WellFormed q) (mg f f' : Nat) (s : S)
    (h1 : s.ind1 < p.length) (h2 : ¬ s.ind2 < q.length) (hf : p.length ≤ f + s.ind1) (h3 : left p s.ind1 = left q s.ind2) :
    (loop q p mg f' (sw s)).map (finish q p mg) = ((loop p q mg f s).map (finish p q mg)).map (List.map Seg.swap) := by
  rw [run_tail p q hp hq mg f s h1 h2 hf h3, loop_stop q p mg f' (sw s) h2]
  simp only [Option.map_some]
  unfold finish
  have : (sw s).st ≠ St.b ∨ ((sw s).st = St.b ∧ p.length > (sw s).ind2) := by
    by_cases hb : (sw s).st = St.b
    · exact Or.inr ⟨hb, h1⟩
    · exact Or.inl hb
  rw [if_pos this]
  show some (countSeg q p _ _ _ _ (s.segs.map Seg.swap)) = _
  rw [countSeg_swap]
  rfl

theorem loop_swap_end (p q : List (Entry W)) (hp : WellFormed p) (hq : WellFormed q) (mg f f' : Nat) (s : S)
    (h1 : ¬ s.ind1 < p.length) (hf : q.length ≤ f' + s.ind2) (h3 : left p s.ind1 = left q s.ind2) :
    (loop q p mg f' (sw s)).map (finish q p mg) = ((loop p q mg f s).map (finish p q mg)).map (List.map Seg.swap) := by
  by_cases h2 : s.ind2 < q.length
  · have := loop_swap_half q p hq hp mg f' f (sw s) h2 h1 hf h3.symm
    rw [sw_sw] at this
    rw [this]
    cases (loop q p mg f' (sw s)).map (finish q p mg) with
    | none => rfl
    | some l => simp only [Option.map_some, map_swap_swap]
  · rw [loop_stop p q mg f s h1, loop_stop q p mg f' (sw s) h2]
    simp only [Option.map_some]
    unfold finish
    rw [show (sw s).st = s.st from rfl]
    by_cases hb : s.st = St.b
    · rw [if_neg (by rintro (h | h); exact h hb; exact h1 h.2), if_neg (by rintro (h | h); exact h hb; exact h2 h.2)]
      rfl
    · rw [if_pos (Or.inl hb), if_pos (Or.inl hb)]
      show some (countSeg q p _ _ _ _ (s.segs.map Seg.swap)) = _
      rw [countSeg_swap]
      rfl

theorem loop_swap (p q : List (Entry W)) (hp : WellFormed p) (hq : WellFormed q) (mg : Nat) :
    ∀ (f f' : Nat) (s : S), p.length ≤ f + s.ind1 → q.length ≤ f' + s.ind2 → left p s.ind1 = left q s.ind2 →
      (loop q p mg f' (sw s)).map (finish q p mg) = ((loop p q mg f s).map (finish p q mg)).map (List.map Seg.swap) := by
  intro f
  induction f with
  | zero =>
    intro f' s h1 h2 h3
    exact loop_swap_end p q hp hq mg 0 f' s (by omega) h2 h3
  | succ f ih =>
    intro f' s h1 h2 h3
    by_cases hl : s.ind1 < p.length
    · by_cases hl2 : s.ind2 < q.length
      · cases f' with
        | zero => omega
        | succ f' =>
          unfold loop
          rw [if_pos hl, if_pos (show (sw s).ind1 < q.length from hl2), body_swap p q hp hq]
          rw [body_eq p q hp hq]
          simp only [Option.map_some]
          have k1 := skipIns_le p p.length s.ind1
          have k2 := skipIns_le q q.length s.ind2
          have k3 := k1.2 (by omega)
          have k4 := k2.2 (by omega)
          have w := switch_ind p q mg (skipBoth p q s)
          have l1 := left_skip p p.length s.ind1
          have l2 := left_skip q q.length s.ind2
          have i1 : (adv p q (switch p q mg (skipBoth p q s))).ind1 =
              if skipIns p p.length s.ind1 < p.length then skipIns p p.length s.ind1 + 1 else skipIns p p.length s.ind1 := by
            unfold adv; simp only; rw [w.1]; rfl
          have i2 : (adv p q (switch p q mg (skipBoth p q s))).ind2 =
              if skipIns q q.length s.ind2 < q.length then skipIns q q.length s.ind2 + 1 else skipIns q q.length s.ind2 := by
            unfold adv; simp only; rw [w.2]; rfl
          by_cases a : skipIns p p.length s.ind1 < p.length
          · have a1 := left_skipped p s.ind1 a
            by_cases b : skipIns q q.length s.ind2 < q.length
            · have b1 := left_skipped q s.ind2 b
              rw [if_pos a] at i1
              rw [if_pos b] at i2
              apply ih
              · rw [i1]; omega
              · rw [i2]; omega
              · rw [i1, i2]; omega
            · have b1 := left_end q (skipIns q q.length s.ind2) (by omega)
              omega
          · have a1 := left_end p (skipIns p p.length s.ind1) (by omega)
            by_cases b : skipIns q q.length s.ind2 < q.length
            · have b1 := left_skipped q s.ind2 b
              omega
            · rw [if_neg a] at i1
              rw [if_neg b] at i2
              apply ih
              · rw [i1]; omega
              · rw [i2]; omega
              · rw [i1, i2]; omega
      · exact loop_swap_half p q hp hq mg (f + 1) f' s hl hl2 h1 h3
    · exact loop_swap_end p q hp hq mg (f + 1) f' s hl h2 h3

theorem compSents_swap (p q : List (Entry W)) (hp : WellFormed p) (hq : WellFormed q) (hr : refWords p = refWords q)
    (mg : Nat) (segs : List Seg) :
    compSents q p mg (segs.map Seg.swap) = (compSents p q mg segs).map (List.map Seg.swap) := by
  unfold compSents
  exact loop_swap p q hp hq mg p.length q.length ⟨0, 0, 0, 0, St.b, 0, segs⟩ (by simp) (by simp)
    (by simpa [left] using hr)

end Verif.Mapsswe
