import Verif.Stats.Model
import Verif.Stats.Spec
/-!
# Lemmas about the ranking loop
-/
set_option autoImplicit false
namespace Verif.Stats

theorem countP_range_interval (a b : Nat) : ∀ n : Nat,
    (List.range n).countP (fun k => decide (a ≤ k ∧ k < b)) = min b n - a
  | 0 => by simp
  | n + 1 => by
    rw [List.range_succ, List.countP_append, countP_range_interval a b n]
    by_cases h : a ≤ n ∧ n < b
    · simp [h]; omega
    · simp [h]; omega

theorem placeSum_double (j : Nat) : ∀ m : Nat, (List.range' j m).sum * 2 = m * (2 * j) + m * m - m
  | 0 => by simp
  | m + 1 => by
    have ih := placeSum_double j m
    rw [List.range'_concat, List.sum_append, Nat.add_mul, ih]
    simp only [List.sum_cons, List.sum_nil]
    have : m ≤ m * m := Nat.le_mul_self m
    have e : (m + 1) * (m + 1) = m * m + m + m + 1 := by rw [Nat.add_mul, Nat.mul_add]; omega
    have e2 : (m + 1) * (2 * j) = m * (2 * j) + 2 * j := by rw [Nat.add_mul]; omega
    rw [e, e2]
    omega

theorem mean_place (j m : Nat) (hm : 0 < m) :
    ((List.range' j m).sum : Rat) / ((m : Nat) : Rat) + 1 = averagePlace j m := by
  have h := placeSum_double j m
  have hmm : m ≤ m * m := Nat.le_mul_self m
  have h' : (List.range' j m).sum * 2 + m = m * (2 * j) + m * m := by omega
  have hq : (((List.range' j m).sum : Nat) : Rat) * 2 + (m : Rat) = (m : Rat) * (2 * (j : Rat)) + (m : Rat) * (m : Rat) := by
    exact_mod_cast congrArg (fun (x : Nat) => (x : Rat)) h'
  have hpos : (0 : Rat) < (m : Rat) := by
    have := Rat.natCast_lt_natCast.mpr hm
    simpa using this
  have hne : (m : Rat) ≠ 0 := by grind
  unfold averagePlace
  have key : (((List.range' j m).sum : Nat) : Rat) = ((j : Rat) + ((m : Rat) - 1) / 2) * (m : Rat) := by grind
  rw [key, Rat.mul_div_cancel hne]
  grind

variable (arr : List Rat) (ptr : List Nat)

theorem runEnd_spec : ∀ (f c : Nat), ptr.length - c ≤ f → c < ptr.length →
    c ≤ runEnd arr ptr f c ∧ runEnd arr ptr f c < ptr.length ∧
    (∀ k, c ≤ k → k ≤ runEnd arr ptr f c → at' arr ptr k = at' arr ptr c) ∧
    (runEnd arr ptr f c + 1 = ptr.length ∨
      at' arr ptr (runEnd arr ptr f c) ≠ at' arr ptr (runEnd arr ptr f c + 1))
  | 0, c, hf, hc => by omega
  | f + 1, c, hf, hc => by
    unfold runEnd
    by_cases h : c < ptr.length - 1 ∧ at' arr ptr c = at' arr ptr (c + 1)
    · rw [if_pos h]
      obtain ⟨a, b, d, e⟩ := runEnd_spec f (c + 1) (by omega) (by omega)
      refine ⟨by omega, b, ?_, e⟩
      intro k h1 h2
      by_cases hk : k = c
      · rw [hk]
      · rw [d k (by omega) h2]; exact h.2.symm
    · rw [if_neg h]
      refine ⟨Nat.le_refl _, hc, ?_, ?_⟩
      · intro k h1 h2
        rw [show k = c by omega]
      · by_cases h3 : c + 1 = ptr.length
        · exact Or.inl h3
        · right
          intro h4
          exact h ⟨by omega, h4⟩

theorem fill_length (r : Rat) : ∀ (is : List Nat) (out : List (Option Rat)), (fill ptr r is out).length = out.length
  | [], out => rfl
  | i :: is, out => by unfold fill; rw [fill_length r is]; simp

theorem fill_not (r : Rat) (p : Nat) : ∀ (is : List Nat) (out : List (Option Rat)), (∀ i ∈ is, ptr.getD i 0 ≠ p) →
    (fill ptr r is out)[p]? = out[p]?
  | [], out, _ => rfl
  | i :: is, out, h => by
    unfold fill
    rw [fill_not r p is _ (fun k hk => h k (List.mem_cons_of_mem _ hk))]
    exact List.getElem?_set_ne (h i List.mem_cons_self)

theorem fill_mem (r : Rat) (p : Nat) : ∀ (is : List Nat) (out : List (Option Rat)), p < out.length →
    (∃ i ∈ is, ptr.getD i 0 = p) → (fill ptr r is out)[p]? = some (some r)
  | [], out, _, ⟨_, h, _⟩ => by cases h
  | i :: is, out, hl, ⟨k, hk, e⟩ => by
    unfold fill
    by_cases hm : ∃ i ∈ is, ptr.getD i 0 = p
    · exact fill_mem r p is _ (by simpa using hl) hm
    · rw [fill_not ptr r p is _ (fun q hq hh => hm ⟨q, hq, hh⟩)]
      have : ptr.getD i 0 = p := by
        rcases List.mem_cons.mp hk with h1 | h1
        · rw [← h1]; exact e
        · exact absurd ⟨k, h1, e⟩ hm
      rw [this]
      simp [hl]

theorem vs_eq : ptr.map (fun i => arr.getD i 0) = (List.range ptr.length).map (at' arr ptr) := by
  apply List.ext_getElem
  · simp
  · intro i h1 h2
    simp only [List.getElem_map, List.getElem_range]
    unfold at'
    congr 1
    simp at h1
    simp [List.getD, h1]

theorem arr_eq : arr = (List.range arr.length).map (fun i => arr.getD i 0) := by
  apply List.ext_getElem
  · simp
  · intro i h1 h2
    simp [List.getD, h1]

theorem countP_arr (hp : ptr.Perm (List.range arr.length)) (p : Rat → Bool) :
    arr.countP p = (List.range ptr.length).countP (fun k => p (at' arr ptr k)) := by
  have h1 : arr.Perm ((List.range ptr.length).map (at' arr ptr)) := by
    have h2 := (hp.map (fun i => arr.getD i 0)).symm
    rw [← arr_eq, vs_eq] at h2
    exact h2
  rw [h1.countP_eq, List.countP_map]
  rfl

theorem sorted_at (ha : Ascending arr ptr) (i j : Nat) (hij : i ≤ j) (hj : j < ptr.length) :
    at' arr ptr i ≤ at' arr ptr j := by
  by_cases h : i = j
  · rw [h]; exact Rat.le_refl
  · have := (List.pairwise_iff_getElem.mp ha.2) i j (by omega) hj (by omega)
    unfold at'
    simpa [List.getD, hj, show i < ptr.length by omega] using this

/-- Counting in a run. -/
theorem run_counts (ha : Ascending arr ptr) (j c : Nat) (hjc : j ≤ c) (hc : c < ptr.length)
    (heq : ∀ k, j ≤ k → k ≤ c → at' arr ptr k = at' arr ptr j)
    (hb : j = 0 ∨ at' arr ptr (j - 1) ≠ at' arr ptr j)
    (he : c + 1 = ptr.length ∨ at' arr ptr c ≠ at' arr ptr (c + 1)) :
    below arr (at' arr ptr j) = j ∧ same arr (at' arr ptr j) = c + 1 - j := by
  have lo : ∀ k, k < j → at' arr ptr k < at' arr ptr j := by
    intro k hk
    rcases hb with hb | hb
    · omega
    · have h1 := sorted_at arr ptr ha k (j - 1) (by omega) (by omega)
      have h2 := sorted_at arr ptr ha (j - 1) j (by omega) (by omega)
      have h3 : at' arr ptr (j - 1) < at' arr ptr j := Rat.lt_of_le_of_ne h2 hb
      grind
  have hi : ∀ k, c < k → k < ptr.length → at' arr ptr j < at' arr ptr k := by
    intro k hk hkn
    rcases he with he | he
    · omega
    · have h1 := sorted_at arr ptr ha (c + 1) k (by omega) hkn
      have h2 := sorted_at arr ptr ha c (c + 1) (by omega) (by omega)
      have h3 : at' arr ptr c < at' arr ptr (c + 1) := Rat.lt_of_le_of_ne h2 he
      have h4 := heq c hjc (Nat.le_refl _)
      grind
  constructor
  · unfold below
    rw [countP_arr arr ptr ha.1]
    have h := countP_range_interval 0 j ptr.length
    rw [show min j ptr.length - 0 = j by omega] at h
    refine Eq.trans (List.countP_congr ?_) h
    intro k hk
    rw [List.mem_range] at hk
    simp only [decide_eq_true_eq]
    constructor
    · intro h5
      refine ⟨Nat.zero_le _, ?_⟩
      by_cases h6 : k < j
      · exact h6
      · exfalso
        by_cases h7 : k ≤ c
        · have := heq k (by omega) h7; grind
        · have := hi k (by omega) hk; grind
    · intro h5; exact lo k h5.2
  · unfold same
    rw [countP_arr arr ptr ha.1]
    have h := countP_range_interval j (c + 1) ptr.length
    rw [show min (c + 1) ptr.length - j = c + 1 - j by omega] at h
    refine Eq.trans (List.countP_congr ?_) h
    intro k hk
    rw [List.mem_range] at hk
    simp only [decide_eq_true_eq]
    constructor
    · intro h5
      refine ⟨?_, ?_⟩
      · by_cases h6 : k < j
        · have := lo k h6; grind
        · omega
      · by_cases h6 : k ≤ c
        · omega
        · have := hi k (by omega) hk; grind
    · intro h5; exact heq k h5.1 (by omega)

theorem ptr_inj (hn : ptr.Nodup) (i j : Nat) (hi : i < ptr.length) (hj : j < ptr.length)
    (h : ptr.getD i 0 = ptr.getD j 0) : i = j := by
  simp only [List.getD, hi, hj, List.getElem?_eq_getElem, Option.getD_some] at h
  exact (List.getElem_inj hn).mp h

theorem rankLoop_spec (ha : Ascending arr ptr) : ∀ (f j : Nat) (out : List (Option Rat)),
    ptr.length - j ≤ f → j ≤ ptr.length → out.length = ptr.length →
    (j = 0 ∨ j = ptr.length ∨ at' arr ptr (j - 1) ≠ at' arr ptr j) →
    (∀ k, k < j → out[ptr.getD k 0]? =
      some (some (averagePlace (below arr (at' arr ptr k)) (same arr (at' arr ptr k))))) →
    (rankLoop arr ptr f j out).length = ptr.length ∧
    ∀ k, k < ptr.length → (rankLoop arr ptr f j out)[ptr.getD k 0]? =
      some (some (averagePlace (below arr (at' arr ptr k)) (same arr (at' arr ptr k))))
  | 0, j, out, hf, hj, hl, _, hd => by
    unfold rankLoop
    exact ⟨hl, fun k hk => hd k (by omega)⟩
  | f + 1, j, out, hf, hj, hl, hb, hd => by
    have hnd : ptr.Nodup := ha.1.nodup_iff.mpr List.nodup_range
    have hlt : ∀ k, k < ptr.length → ptr.getD k 0 < ptr.length := by
      intro k hk
      have h1 : ptr.getD k 0 ∈ ptr := by simp [List.getD, hk]
      have h2 := ha.1.mem_iff.mp h1
      rw [List.mem_range] at h2
      have := ha.1.length_eq
      simp at this
      omega
    unfold rankLoop
    by_cases h : j < ptr.length
    · rw [if_pos h]
      have hb' : j = 0 ∨ at' arr ptr (j - 1) ≠ at' arr ptr j := by
        rcases hb with hb | hb | hb
        · exact Or.inl hb
        · omega
        · exact Or.inr hb
      by_cases h1 : j < ptr.length - 1 ∧ at' arr ptr j = at' arr ptr (j + 1)
      · rw [if_pos h1]
        simp only
        obtain ⟨r1, r2, r3, r4⟩ := runEnd_spec arr ptr ptr.length j (by omega) h
        generalize runEnd arr ptr ptr.length j = c at r1 r2 r3 r4
        obtain ⟨q1, q2⟩ := run_counts arr ptr ha j c r1 r2 r3 hb' r4
        have hm := mean_place j (c + 1 - j) (by omega)
        apply rankLoop_spec ha f (c + 1) _ (by omega) (by omega) (by rw [fill_length]; exact hl)
        · by_cases h2 : c + 1 = ptr.length
          · exact Or.inr (Or.inl h2)
          · rcases r4 with r4 | r4
            · exact absurd r4 h2
            · exact Or.inr (Or.inr r4)
        · intro k hk
          by_cases hkj : k < j
          · rw [fill_not]
            · exact hd k hkj
            · intro i hi he
              rw [List.mem_range'_1] at hi
              have := ptr_inj ptr hnd i k (by omega) (by omega) he
              omega
          · rw [fill_mem]
            · unfold placeSum
              rw [hm, r3 k (by omega) (by omega), q1, q2]
            · rw [hl]; exact hlt k (by omega)
            · exact ⟨k, by rw [List.mem_range'_1]; omega, rfl⟩
      · rw [if_neg h1]
        have hne : j + 1 = ptr.length ∨ at' arr ptr j ≠ at' arr ptr (j + 1) := by
          by_cases h2 : j + 1 = ptr.length
          · exact Or.inl h2
          · right; intro h3; exact h1 ⟨by omega, h3⟩
        obtain ⟨q1, q2⟩ := run_counts arr ptr ha j j (Nat.le_refl _) h
          (fun k a b => by rw [show k = j by omega]) hb' hne
        apply rankLoop_spec ha f (j + 1) _ (by omega) (by omega) (by simpa using hl)
        · rcases hne with h2 | h2
          · exact Or.inr (Or.inl h2)
          · exact Or.inr (Or.inr h2)
        · intro k hk
          by_cases hkj : k < j
          · rw [List.getElem?_set_ne]
            · exact hd k hkj
            · intro he
              have := ptr_inj ptr hnd j k h (by omega) he
              omega
          · have hkj' : k = j := by omega
            subst hkj'
            rw [q1, q2, List.getElem?_set_self (by rw [hl]; exact hlt k h)]
            unfold averagePlace
            rw [show k + 1 - k = 1 by omega]
            congr 2
            have : ((1 : Nat) : Rat) = 1 := rfl
            rw [this]
            grind
    · rw [if_neg h]
      exact ⟨hl, fun k hk => hd k (by omega)⟩

theorem rankArr_spec (ha : Ascending arr ptr) :
    rankArr arr ptr = arr.map (fun x => some (averagePlace (below arr x) (same arr x))) := by
  have hlen : ptr.length = arr.length := by simpa using ha.1.length_eq
  obtain ⟨h1, h2⟩ := rankLoop_spec arr ptr ha ptr.length 0 (List.replicate ptr.length none) (by omega) (by omega)
    (by simp) (Or.inl rfl) (by intro k hk; omega)
  apply List.ext_getElem?
  intro i
  by_cases hi : i < arr.length
  · have hmem : i ∈ ptr := ha.1.mem_iff.mpr (List.mem_range.mpr hi)
    obtain ⟨k, hk, he⟩ := List.getElem_of_mem hmem
    have h3 := h2 k hk
    have h4 : ptr.getD k 0 = i := by simp [List.getD, hk, he]
    rw [h4] at h3
    unfold rankArr
    rw [h3]
    have h5 : at' arr ptr k = arr[i] := by unfold at'; rw [h4]; simp [List.getD, hi]
    rw [h5]
    simp [hi]
  · unfold rankArr
    rw [List.getElem?_eq_none (by omega), List.getElem?_eq_none (by simp; omega)]

theorem at'_neg (j : Nat) : at' (arr.map (fun x => -x)) ptr j = -(at' arr ptr j) := by
  unfold at'
  generalize ptr.getD j 0 = i
  by_cases h : i < arr.length
  · simp [List.getD, h]
  · simp [List.getD, h]

theorem runEnd_neg : ∀ (f c : Nat), runEnd (arr.map (fun x => -x)) ptr f c = runEnd arr ptr f c
  | 0, c => rfl
  | f + 1, c => by
    unfold runEnd
    rw [at'_neg, at'_neg, runEnd_neg f (c + 1)]
    have : (-at' arr ptr c = -at' arr ptr (c + 1)) ↔ (at' arr ptr c = at' arr ptr (c + 1)) := by
      constructor
      · intro h; grind
      · intro h; rw [h]
    simp only [this]

theorem rankLoop_neg : ∀ (f j : Nat) (out : List (Option Rat)),
    rankLoop (arr.map (fun x => -x)) ptr f j out = rankLoop arr ptr f j out
  | 0, _, _ => rfl
  | f + 1, j, out => by
    unfold rankLoop
    have : (-at' arr ptr j = -at' arr ptr (j + 1)) ↔ (at' arr ptr j = at' arr ptr (j + 1)) := by
      constructor
      · intro h; grind
      · intro h; rw [h]
    simp only [at'_neg, runEnd_neg, rankLoop_neg f, this]

theorem rankArr_desc (ha : Descending arr ptr) :
    rankArr arr ptr = arr.map (fun x => some (averagePlace (above arr x) (same arr x))) := by
  have h1 : Ascending (arr.map (fun x => -x)) ptr := by
    refine ⟨by simpa using ha.1, ?_⟩
    refine ha.2.imp ?_
    intro i j hij
    have e : ∀ k, (arr.map (fun x => -x)).getD k 0 = -(arr.getD k 0) := by
      intro k
      by_cases h : k < arr.length
      · simp [List.getD, h]
      · simp [List.getD, h]
    rw [e, e]
    grind
  have h2 := rankArr_spec _ _ h1
  unfold rankArr at h2
  rw [rankLoop_neg] at h2
  unfold rankArr
  rw [h2, List.map_map]
  apply List.map_congr_left
  intro x _
  simp only [Function.comp]
  unfold below above same
  rw [List.countP_map, List.countP_map]
  congr 2
  · apply List.countP_congr
    intro y _
    simp only [Function.comp, decide_eq_true_eq]
    constructor
    · intro h; grind
    · intro h; grind
  · apply List.countP_congr
    intro y _
    simp only [Function.comp, decide_eq_true_eq]
    constructor
    · intro h; grind
    · intro h; rw [h]

/-- Twice the smaller plus the equal, summed over the values. -/
theorem sum_pairs : ∀ l : List Rat,
    (l.map (fun x => 2 * below l x + same l x)).sum = l.length * l.length := by
  have aux : ∀ (a : Rat) (l : List Rat),
      (l.map (fun x => 2 * (if a < x then 1 else 0) + (if a = x then 1 else 0))).sum + 2 * below l a + same l a
        = 2 * l.length := by
    intro a l
    induction l with
    | nil => simp [below, same]
    | cons b l ih =>
      unfold below same at ih ⊢
      simp only [List.map_cons, List.sum_cons, List.countP_cons, List.length_cons]
      by_cases h1 : a < b
      · have h2 : ¬ b < a := by grind
        have h3 : ¬ b = a := by grind
        have h4 : ¬ a = b := by grind
        simp only [h1, h2, h3, h4, decide_true, decide_false, if_true, if_false, Bool.false_eq_true]
        omega
      · by_cases h5 : a = b
        · have h2 : ¬ b < a := by grind
          have h3 : b = a := by grind
          have h6 : ¬ a < a := by grind
          subst h3
          simp only [h6, decide_true, decide_false, if_true, if_false, Bool.false_eq_true]
          omega
        · have h2 : b < a := by grind
          have h3 : ¬ b = a := by grind
          simp only [h1, h2, h3, h5, decide_true, decide_false, if_true, if_false, Bool.false_eq_true]
          omega
  have add : ∀ (f g : Rat → Nat) (l : List Rat),
      (l.map (fun x => f x + g x)).sum = (l.map f).sum + (l.map g).sum := by
    intro f g l
    induction l with
    | nil => rfl
    | cons b l ih => simp only [List.map_cons, List.sum_cons, ih]; omega
  intro l
  induction l with
  | nil => rfl
  | cons a l ih =>
    have e : ∀ x, 2 * below (a :: l) x + same (a :: l) x =
        (2 * below l x + same l x) + (2 * (if a < x then 1 else 0) + (if a = x then 1 else 0)) := by
      intro x
      unfold below same
      simp only [List.countP_cons, decide_eq_true_eq]
      omega
    have h := aux a l
    have hself : 2 * below (a :: l) a + same (a :: l) a = 2 * below l a + same l a + 1 := by
      rw [e a]
      have : ¬ a < a := by grind
      simp [this]
    rw [List.map_cons, List.sum_cons, hself]
    have h2 : l.map (fun x => 2 * below (a :: l) x + same (a :: l) x) =
        l.map (fun x => (2 * below l x + same l x) + (2 * (if a < x then 1 else 0) + (if a = x then 1 else 0))) :=
      List.map_congr_left (fun x _ => e x)
    rw [h2, add, ih]
    simp only [List.length_cons]
    have e3 : (l.length + 1) * (l.length + 1) = l.length * l.length + l.length + l.length + 1 := by
      rw [Nat.add_mul, Nat.mul_add]; omega
    omega

theorem sum_ranks (l : List Rat) :
    (l.map (fun x => averagePlace (below l x) (same l x))).sum = (l.length : Rat) * ((l.length : Rat) + 1) / 2 := by
  have key : ∀ (f g : Rat → Nat) (m : List Rat),
      (m.map (fun x => averagePlace (f x) (g x))).sum * 2 =
        (((m.map (fun x => 2 * f x + g x)).sum : Nat) : Rat) + (m.length : Rat) := by
    intro f g m
    induction m with
    | nil => show (0 : Rat) * 2 = ((0 : Nat) : Rat) + ((0 : Nat) : Rat); decide +kernel
    | cons b m ih =>
      simp only [List.map_cons, List.sum_cons, List.length_cons, Rat.natCast_add, Rat.natCast_mul]
      rw [Rat.add_mul, ih]
      unfold averagePlace
      have : ((1 : Nat) : Rat) = 1 := rfl
      have : ((2 : Nat) : Rat) = 2 := rfl
      grind
  have h := key (below l) (same l) l
  rw [sum_pairs, Rat.natCast_mul] at h
  grind

end Verif.Stats
