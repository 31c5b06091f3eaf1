import Verif.Slm.Merge
/-!
# Theorems on tables and files of language models
-/
set_option autoImplicit false
namespace Verif.Slm

/-! ## C311: indices in two bytes -/

/-- If the positions grow, the first index is below 65000 and each is at most 65000 above the one before, then every index is got back from its position and
its short index. Missing: the claim for indices that grow by more. -/
theorem short_partial (p f : Nat) (ps : List (Nat × Nat)) (hf : f < 65000) (hs : Steps 65000 ((p, f) :: ps)) (i q g : Nat)
    (hi : ((p, f) :: ps)[i]? = some (q, g)) :
    ∃ s, (store [] ((p, f) :: ps)).2[i]? = some s ∧ s < 65000 ∧ fullIndex (store [] ((p, f) :: ps)).1 s q = some g := by
  have h0 : f / key = 0 := Nat.div_eq_of_lt hf
  obtain ⟨h1, h2⟩ := store_right (tab := []) (by simp) (by rw [h0]; exact Nat.zero_le _) (fun x hx => by cases hx) hs i q g hi
  exact ⟨_, h1, Nat.mod_lt _ (by decide), fullIndex_spec h2.1 h2.2⟩

/-- Indices that grow by at most 65535, the most successors of a word, are not all got back. -/
theorem short_witness : ¬ ∀ (ps : List (Nat × Nat)) (i q g : Nat), Steps 65535 ((0, 0) :: ps) → ((0, 0) :: ps)[i]? = some (q, g) →
    ∃ s, (store [] ((0, 0) :: ps)).2[i]? = some s ∧ fullIndex (store [] ((0, 0) :: ps)).1 s q = some g := by
  intro h
  obtain ⟨s, h1, h2⟩ := h [(1, 64999), (2, 130000)] 2 2 130000 ⟨by decide, by decide, by decide, by decide, by decide, by decide, trivial⟩ rfl
  have e : (store [] [(0, 0), (1, 64999), (2, 130000)]) = ([0, 2], [0, 64999, 0]) := by decide +kernel
  rw [e] at h1 h2
  injection h1 with h1
  subst h1
  exact absurd h2 (by decide +kernel)

example : Steps 65000 [(0, 0), (1, 64999), (2, 65000), (3, 65001), (4, 130001)] ∧
    store [] [(0, 0), (1, 64999), (2, 65000), (3, 65001), (4, 130001)] = ([0, 2, 4], [0, 64999, 0, 1, 1]) ∧ fullIndex [0, 2, 4] 1 3 = some 65001 :=
  ⟨⟨by decide, by decide, by decide, by decide, by decide, by decide, by decide, by decide, by decide, by decide, by decide, by decide, trivial⟩,
    by decide +kernel, by decide +kernel⟩

/-! ## C312: the table of counts -/

/-- Counts other than zero are kept: at the end of any calls each index holds its count, equal counts have equal indices, and a further call gives the index
again and changes nothing. Missing: the count zero. -/
theorem counts_partial (vs tab tab' : List Int) (is : List Nat) (h : indices tab vs = some (tab', is)) (hv : ∀ v ∈ vs, v ≠ 0) :
    is.length = vs.length ∧ tab'.length = tab.length ∧ (∀ (k : Nat) (w : Int), tab[k]? = some w → w ≠ 0 → tab'[k]? = some w) ∧
      ∀ (j i : Nat) (v : Int), vs[j]? = some v → is[j]? = some i → tab'[i]? = some v ∧ indexOf tab' v = some (tab', i) := by
  have hk := indices_keeps h
  refine ⟨?_, hk.1, hk.2, ?_⟩
  · clear hk hv
    induction vs generalizing tab tab' is with
    | nil =>
      injection h with h
      injection h with _ h
      subst h
      rfl
    | cons v vs ih =>
      unfold indices at h
      cases e : indexOf tab v with
      | none => rw [e] at h; cases h
      | some r =>
        obtain ⟨t1, i⟩ := r
        rw [e] at h
        dsimp only at h
        cases e2 : indices t1 vs with
        | none => rw [e2] at h; cases h
        | some r2 =>
          obtain ⟨t2, js⟩ := r2
          rw [e2] at h
          injection h with h
          injection h with h3 h4
          rw [← h4, List.length_cons, List.length_cons, ih t1 t2 js e2]
  · clear hk
    induction vs generalizing tab tab' is with
    | nil => intro j i v hj; cases hj
    | cons v vs ih =>
      unfold indices at h
      cases e : indexOf tab v with
      | none => rw [e] at h; cases h
      | some r =>
        obtain ⟨t1, i0⟩ := r
        rw [e] at h
        dsimp only at h
        cases e2 : indices t1 vs with
        | none => rw [e2] at h; cases h
        | some r2 =>
          obtain ⟨t2, js⟩ := r2
          rw [e2] at h
          injection h with h
          injection h with h3 h4
          dsimp only at h3
          subst h3
          subst h4
          intro j i w hj hij
          cases j with
          | zero =>
            injection hj with hj
            injection hij with hij
            subst hj
            subst hij
            have hv0 := hv v List.mem_cons_self
            have hk := indices_keeps e2
            exact ⟨hk.2 _ _ (indexOf_keeps e).1 hv0, indexOf_again hv0 e hk⟩
          | succ j => exact ih t1 t2 js e2 (fun x hx => hv x (List.mem_cons_of_mem _ hx)) j i w hj hij

/-- The program ends only if all entries are taken by other counts. -/
theorem counts_full (tab : List Int) (v : Int) : indexOf tab v = none ↔ ∀ w ∈ tab, w ≠ v ∧ w ≠ 0 := by
  have hm : (∀ k, k < tab.length → tab[k]? ≠ some v ∧ tab[k]? ≠ some 0) ↔ ∀ w ∈ tab, w ≠ v ∧ w ≠ 0 := by
    constructor
    · intro h w hw
      obtain ⟨k, hk, rfl⟩ := List.getElem_of_mem hw
      have := h k hk
      rw [List.getElem?_eq_getElem hk] at this
      exact ⟨fun e => this.1 (by rw [e]), fun e => this.2 (by rw [e])⟩
    · intro h k hk
      have := h _ (List.getElem_mem hk)
      rw [List.getElem?_eq_getElem hk]
      exact ⟨fun e => this.1 (by injection e), fun e => this.2 (by injection e)⟩
  rw [← hm]
  unfold indexOf
  split
  · rename_i e
    simp only [Bool.and_eq_true, decide_eq_true_eq, beq_iff_eq] at e
    exact ⟨(fun h => by cases h), fun h => absurd e.2 (h v.toNat (by omega)).1⟩
  · split
    · rename_i e
      simp only [Bool.and_eq_true, decide_eq_true_eq, beq_iff_eq] at e
      exact ⟨(fun h => by cases h), fun h => absurd e.2 (h v.toNat (by omega)).2⟩
    · exact scan_none

/-- A count below the size of the table has itself as its index in a table with no other counts there. -/
theorem counts_small (tab : List Int) (v : Nat) (h0 : 0 < v) (h : tab[v]? = some (v : Int) ∨ tab[v]? = some 0) :
    ∃ tab', indexOf tab (v : Int) = some (tab', v) := by
  have hl : v < tab.length := by
    rcases h with h | h <;> exact (List.getElem?_eq_some_iff.1 h).1
  have c1 : (decide (0 < (v : Int)) && decide ((v : Int) < (tab.length : Int))) = true := by
    rw [Bool.and_eq_true, decide_eq_true_eq, decide_eq_true_eq]
    omega
  unfold indexOf
  rw [c1, Bool.true_and, Bool.true_and, Int.toNat_natCast]
  rcases h with h | h
  · exact ⟨tab, by rw [h, if_pos (by simp)]⟩
  · have hne : ¬ (some (0 : Int) == some (v : Int)) = true := by
      rw [beq_iff_eq]
      intro e
      injection e with e
      omega
    exact ⟨tab.set v (v : Int), by rw [h, if_neg hne, if_pos (by simp)]⟩

/-- The count zero is not kept: its index is that of the next count that has to look for one. -/
theorem counts_witness : ¬ ∀ (vs tab tab' : List Int) (is : List Nat), indices tab vs = some (tab', is) →
    ∀ (j i : Nat) (v : Int), vs[j]? = some v → is[j]? = some i → tab'[i]? = some v := by
  intro h
  have := h [0, 7] [0, 0, 0] [0, 0, 7] [2, 2] (by decide +kernel) 0 2 0 rfl rfl
  exact absurd this (by decide)

example : indices [0, 0, 0, 0] [2, 9, 3, 2, 9] = some ([0, 3, 2, 9], [2, 3, 1, 2, 3]) ∧ indexOf [1, 2, 3] 4 = none := by decide +kernel

/-! ## C313: alphas in two bytes -/

/-- The logarithm of an alpha in the range is got back to within the range over the number of elements, never too large. -/
theorem alpha_near (els : Nat) (lo hi x : Int) (arr : List Int) (h1 : lo ≤ x) (h2 : x ≤ hi) (hr : lo < hi) :
    ∃ s y, shortAlpha els lo hi arr x = some (arr, s) ∧ s ≤ els ∧ (∀ later, longAlpha els lo hi later s = .number y) ∧
      y ≤ (els : Int) * x ∧ (els : Int) * x < y + (hi - lo) := by
  have hR : 0 < hi - lo := by omega
  have hnn : 0 ≤ (els : Int) * (x - lo) := Int.mul_nonneg (by omega) (by omega)
  have hq : 0 ≤ (els : Int) * (x - lo) / (hi - lo) := Int.ediv_nonneg hnn (by omega)
  have hle : (els : Int) * (x - lo) / (hi - lo) ≤ els := by
    have a : (els : Int) * (x - lo) ≤ (els : Int) * (hi - lo) := Int.mul_le_mul_of_nonneg_left (by omega) (by omega)
    have b := Int.ediv_le_ediv hR a
    rwa [Int.mul_ediv_cancel _ (by omega)] at b
  have hs : ((((els : Int) * (x - lo) / (hi - lo)).toNat : Nat) : Int) = (els : Int) * (x - lo) / (hi - lo) := Int.toNat_of_nonneg hq
  refine ⟨((els : Int) * (x - lo) / (hi - lo)).toNat,
    (els : Int) * lo + ((((els : Int) * (x - lo) / (hi - lo)).toNat : Nat) : Int) * (hi - lo), ?_, by omega, fun later => ?_, ?_, ?_⟩
  · unfold shortAlpha
    rw [if_pos (by simp [h1, h2])]
  · unfold longAlpha
    rw [if_neg (by simp; omega), if_neg (by simp; omega)]
  · rw [hs]
    have := Int.ediv_mul_le ((els : Int) * (x - lo)) (b := hi - lo) (by omega)
    have e : (els : Int) * x = (els : Int) * lo + (els : Int) * (x - lo) := by rw [← Int.mul_add]; congr 1; omega
    omega
  · rw [hs]
    have := Int.lt_ediv_add_one_mul_self ((els : Int) * (x - lo)) hR
    have e : (els : Int) * x = (els : Int) * lo + (els : Int) * (x - lo) := by rw [← Int.mul_add]; congr 1; omega
    rw [Int.add_mul] at this
    omega

/-- An alpha outside the range that has not been met is never got back: what is got is the one stored next, or an element that is not set. -/
theorem alpha_lost (els : Nat) (lo hi x : Int) (arr arr' : List Int) (s : Nat) (hx : ¬ (lo ≤ x ∧ x ≤ hi)) (hn : x ∉ arr)
    (h : shortAlpha els lo hi arr x = some (arr', s)) :
    arr' = arr ++ [x] ∧ longAlpha els lo hi arr' s = .unset ∧ ∀ y later, longAlpha els lo hi (arr' ++ y :: later) s = .kept y := by
  unfold shortAlpha at h
  rw [if_neg (by simpa using hx)] at h
  have hf : arr.findIdx? (fun y => y == x) = none := by
    rw [List.findIdx?_eq_none_iff]
    intro y hy
    simp only [beq_eq_false_iff_ne]
    rintro rfl
    exact hn hy
  rw [hf] at h
  dsimp only at h
  split at h
  · cases h
  · injection h with h
    injection h with h1 h2
    subst h1
    subst h2
    refine ⟨rfl, ?_, fun y later => ?_⟩
    · unfold longAlpha
      rw [if_neg (by simp), if_pos (by simp)]
      rw [List.getElem?_eq_none (by simp)]
    · unfold longAlpha
      rw [if_neg (by simp), if_pos (by simp)]
      have e : els + (arr.length + 1) - els = (arr ++ [x]).length := by simp
      rw [e, List.getElem?_append_right (Nat.le_refl _), Nat.sub_self]
      rfl

/-- An alpha outside the range that has been met is got back, but for the first of the array. Missing: that one, which is taken for the end of the range. -/
theorem alpha_met_partial (els : Nat) (lo hi x : Int) (a : Int) (arr : List Int) (hx : ¬ (lo ≤ x ∧ x ≤ hi)) (ha : a ≠ x) (hm : x ∈ arr) :
    ∃ s, shortAlpha els lo hi (a :: arr) x = some (a :: arr, s) ∧ ∀ later, longAlpha els lo hi (a :: arr ++ later) s = .kept x := by
  have hsome : ∃ i, (a :: arr).findIdx? (fun y => y == x) = some i := by
    cases e : (a :: arr).findIdx? (fun y => y == x) with
    | some i => exact ⟨i, rfl⟩
    | none =>
      rw [List.findIdx?_eq_none_iff] at e
      have := e x (List.mem_cons_of_mem _ hm)
      simp at this
  obtain ⟨i, hi'⟩ := hsome
  have hspec := List.findIdx?_eq_some_iff_getElem.1 hi'
  obtain ⟨hl, hget, _⟩ := hspec
  have hgx : (a :: arr)[i] = x := by simpa using hget
  have hpos : 0 < i := by
    cases i with
    | zero => exact absurd hgx ha
    | succ i => omega
  refine ⟨els + i, ?_, fun later => ?_⟩
  · unfold shortAlpha
    rw [if_neg (by simpa using hx), hi']
  · unfold longAlpha
    have hl' : i < (a :: arr ++ later).length := by rw [List.length_append]; omega
    rw [if_neg (by rw [decide_eq_true_eq]; omega), if_pos (by rw [decide_eq_true_eq]; omega)]
    have e : els + i - els = i := by omega
    rw [e, List.getElem?_append_left hl, List.getElem?_eq_getElem hl, hgx]

/-- The first of the array is taken for the end of the range. -/
theorem alpha_first (els : Nat) (lo hi x : Int) (arr later : List Int) (hx : ¬ (lo ≤ x ∧ x ≤ hi)) :
    shortAlpha els lo hi (x :: arr) x = some (x :: arr, els) ∧ longAlpha els lo hi later els = .number ((els : Int) * hi) := by
  constructor
  · unfold shortAlpha
    rw [if_neg (by simpa using hx)]
    have : (x :: arr).findIdx? (fun y => y == x) = some 0 := by simp [List.findIdx?_cons]
    rw [this]
    rfl
  · unfold longAlpha
    rw [if_neg (by simp), if_neg (by simp)]
    congr 1
    rw [← Int.mul_add]
    congr 1
    omega

example : shortAlpha 10 (-3) 3 [] (-99) = some ([-99], 11) ∧ longAlpha 10 (-3) 3 [-99] 11 = .unset ∧ shortAlpha 10 (-3) 3 [-99, 7] 7 = some ([-99, 7], 11) ∧
    longAlpha 10 (-3) 3 [-99, 7] 11 = .kept 7 ∧ shortAlpha 10 (-3) 3 [] 1 = some ([], 6) ∧ longAlpha 10 (-3) 3 [] 6 = .number 6 := by decide +kernel

/-! ## C314: merging of files -/

/-- Files of n-grams, not all of them empty, are merged: each n-gram has the sum of its counts, there are no others, and from files in order comes a file in
order, with each n-gram once. Missing: no n-grams at all. -/
theorem merge_partial (n : Nat) (fs : List File) (hv : ∀ f ∈ fs, Valid n f) (hne : ∃ f ∈ fs, f ≠ []) :
    ∃ k out, merge n k fs = some out ∧ (∀ g, total g out = totals g fs) ∧
      (∀ g, (∃ c, (g, c) ∈ out) ↔ ∃ f ∈ fs, ∃ c, (g, c) ∈ f) ∧ ((∀ f ∈ fs, Sorted f) → Sorted out) := by
  obtain ⟨out, e, h1, h2, h3, h4⟩ := merge_spec (size fs) fs hv hne (Nat.le_refl _)
  exact ⟨size fs, out, e, h1, fun g => ⟨fun ⟨c, hc⟩ => h2 (g, c) hc, fun ⟨f, hf, c, hc⟩ => h3 f hf (g, c) hc⟩, h4⟩

/-- More rounds give the same. -/
theorem merge_more (n k j : Nat) (fs : List File) (out : File) (h : merge n k fs = some out) : merge n (k + j) fs = some out := by
  induction k generalizing fs out with
  | zero => cases h
  | succ k ih =>
    rw [Nat.succ_add]
    unfold merge at h ⊢
    dsimp only at h ⊢
    split
    · rename_i e
      rw [if_pos e] at h
      exact h
    · rename_i e
      rw [if_neg e] at h
      cases e2 : merge n k (fs.map (pop (smallest (largest n) fs))) with
      | none => rw [e2] at h; cases h
      | some r =>
        rw [e2] at h
        rw [ih _ _ e2]
        exact h

/-- If all files are empty the program never ends. -/
theorem merge_forever (n k : Nat) (fs : List File) (h : ∀ f ∈ fs, f = []) : merge n k fs = none := by
  induction k generalizing fs with
  | zero => rfl
  | succ k ih =>
    unfold merge
    dsimp only
    have hn : ¬ (fs.any (ended (smallest (largest n) fs)) && (fs.map (pop (smallest (largest n) fs))).all List.isEmpty) = true := by
      rw [Bool.and_eq_true, List.any_eq_true]
      rintro ⟨⟨f, hf, he⟩, _⟩
      rw [h f hf] at he
      cases he
    rw [if_neg hn, ih]
    · rfl
    · intro f hf
      obtain ⟨f1, hf1, rfl⟩ := List.mem_map.1 hf
      rw [h f1 hf1]
      rfl

example : merge 2 4 [[([1, 2], 3), ([4, 0], 1)], [], [([1, 2], 5), ([3, 9], 2)]] = some [([1, 2], 8), ([3, 9], 2), ([4, 0], 1)] := by decide +kernel

end Verif.Slm
