import Verif.Range.Model
import Verif.Anovar.Lemmas
/-!
# Lemmas about tables of percentages and ranges
-/
set_option autoImplicit false
namespace Verif.Range
open Verif.Stats Verif.Anovar

theorem pct_spec (x n : Nat) : pct x n = per x n := by
  unfold pct per
  by_cases h : n = 0
  · subst h
    rw [if_pos rfl, Rat.div_def]
    show (0 : Rat) = 100 * (x : Rat) * (0 : Rat)⁻¹
    rw [show (0 : Rat)⁻¹ = 0 from by decide +kernel, Rat.mul_zero]
  · rw [if_neg h, Rat.div_def, Rat.div_def]
    grind

theorem groupPct_spec (f : Formula) (c : Counts) : groupPct f c = percentage f c := by
  cases f
  · exact pct_spec _ _
  · show pct (c.ins + c.sub + c.del) (c.corr + c.del + c.sub) = _
    rw [pct_spec, show c.ins + c.sub + c.del = c.sub + c.del + c.ins by omega, show c.corr + c.del + c.sub = c.corr + c.sub + c.del by omega]
    rfl
  · show 100 - pct (c.ins + c.sub + c.del) (c.corr + c.del + c.sub) = _
    rw [pct_spec, show c.ins + c.sub + c.del = c.sub + c.del + c.ins by omega, show c.corr + c.del + c.sub = c.corr + c.sub + c.del by omega]
    rfl

theorem blocks_acc : ∀ (scor : List System) (b : Nat), b ≤ scor.foldl (fun b s => if b < s.length then s.length else b) b ∧
    (∀ s ∈ scor, s.length ≤ scor.foldl (fun b s => if b < s.length then s.length else b) b) ∧
    (∀ k, b ≤ k → (∀ s ∈ scor, s.length ≤ k) → scor.foldl (fun b s => if b < s.length then s.length else b) b ≤ k)
  | [], b => ⟨Nat.le_refl _, fun _ h => (List.not_mem_nil h).elim, fun _ h _ => h⟩
  | s :: scor, b => by
    obtain ⟨h1, h2, h3⟩ := blocks_acc scor (if b < s.length then s.length else b)
    rw [List.foldl_cons]
    have ha : b ≤ (if b < s.length then s.length else b) ∧ s.length ≤ (if b < s.length then s.length else b) := by
      split <;> omega
    refine ⟨by omega, ?_, ?_⟩
    · intro x hx
      rcases List.mem_cons.1 hx with e | hx
      · subst e; omega
      · exact h2 x hx
    · intro k hk hs
      apply h3 k
      · have := hs s (List.mem_cons_self ..)
        split <;> omega
      · exact fun x hx => hs x (List.mem_cons_of_mem _ hx)

theorem le_blocks (scor : List System) (s : System) (h : s ∈ scor) : s.length ≤ blocks scor := (blocks_acc scor 0).2.1 s h

theorem blocks_same (scor : List System) (k : Nat) (hne : scor ≠ []) (h : ∀ s ∈ scor, s.length = k) : blocks scor = k := by
  have h1 := (blocks_acc scor 0).2.2 k (Nat.zero_le _) (fun s hs => by rw [h s hs]; exact Nat.le_refl _)
  obtain ⟨s, hs⟩ := List.exists_mem_of_ne_nil _ hne
  have h2 := le_blocks scor s hs
  rw [h s hs] at h2
  unfold blocks at *
  omega

/-- `mapM` when everything is defined. -/
theorem mapM_some {X Y : Type} (f : X → Option Y) (g : X → Y) : ∀ l : List X, (∀ x ∈ l, f x = some (g x)) →
    l.mapM f = some (l.map g)
  | [], _ => rfl
  | x :: l, h => by
    rw [List.mapM_cons, h x (List.mem_cons_self ..), mapM_some f g l (fun y hy => h y (List.mem_cons_of_mem _ hy))]
    rfl

/-- `mapM` when something is undefined. -/
theorem mapM_none {X Y : Type} (f : X → Option Y) : ∀ (l : List X) (x : X), x ∈ l → f x = none → l.mapM f = none
  | a :: l, x, hx, h => by
    rw [List.mapM_cons]
    rcases List.mem_cons.1 hx with e | hx
    · rw [← e, h]; rfl
    · rw [mapM_none f l x hx h]
      cases f a <;> rfl

theorem high_acc : ∀ (l : List Rat) (b : Rat), b ≤ l.foldl (fun h x => if x > h then x else h) b ∧
    (∀ x ∈ l, x ≤ l.foldl (fun h x => if x > h then x else h) b) ∧
    (l.foldl (fun h x => if x > h then x else h) b = b ∨ l.foldl (fun h x => if x > h then x else h) b ∈ l)
  | [], b => ⟨Rat.le_refl, fun _ h => (List.not_mem_nil h).elim, Or.inl rfl⟩
  | x :: l, b => by
    obtain ⟨h1, h2, h3⟩ := high_acc l (if x > b then x else b)
    rw [List.foldl_cons]
    have ha : b ≤ (if x > b then x else b) ∧ x ≤ (if x > b then x else b) := by
      split <;> constructor <;> grind
    refine ⟨Rat.le_trans ha.1 h1, ?_, ?_⟩
    · intro y hy
      rcases List.mem_cons.1 hy with e | hy
      · subst e; exact Rat.le_trans ha.2 h1
      · exact h2 y hy
    · rcases h3 with h3 | h3
      · rw [h3]
        by_cases c : x > b
        · rw [if_pos c]; exact Or.inr (List.mem_cons_self ..)
        · rw [if_neg c]; exact Or.inl rfl
      · exact Or.inr (List.mem_cons_of_mem _ h3)

theorem low_acc : ∀ (l : List Rat) (b : Rat), l.foldl (fun h x => if x < h then x else h) b ≤ b ∧
    (∀ x ∈ l, l.foldl (fun h x => if x < h then x else h) b ≤ x) ∧
    (l.foldl (fun h x => if x < h then x else h) b = b ∨ l.foldl (fun h x => if x < h then x else h) b ∈ l)
  | [], b => ⟨Rat.le_refl, fun _ h => (List.not_mem_nil h).elim, Or.inl rfl⟩
  | x :: l, b => by
    obtain ⟨h1, h2, h3⟩ := low_acc l (if x < b then x else b)
    rw [List.foldl_cons]
    have ha : (if x < b then x else b) ≤ b ∧ (if x < b then x else b) ≤ x := by
      split <;> constructor <;> grind
    refine ⟨Rat.le_trans h1 ha.1, ?_, ?_⟩
    · intro y hy
      rcases List.mem_cons.1 hy with e | hy
      · subst e; exact Rat.le_trans h1 ha.2
      · exact h2 y hy
    · rcases h3 with h3 | h3
      · rw [h3]
        by_cases c : x < b
        · rw [if_pos c]; exact Or.inr (List.mem_cons_self ..)
        · rw [if_neg c]; exact Or.inl rfl
      · exact Or.inr (List.mem_cons_of_mem _ h3)

theorem foldl_sum (l : List Rat) : l.foldl (· + ·) 0 = l.sum := by
  rw [Verif.Stats.foldl_add, Rat.zero_add]

/-! ### Medians -/

section
variable (arr : List Rat) (ptr : List Nat)

theorem count_before (n k : Nat) (p : Nat → Bool) (h : ∀ j, j < n → p j = true → j < k) : (List.range n).countP p ≤ k := by
  have h1 := countP_range_interval 0 k n
  have h2 : (List.range n).countP p ≤ (List.range n).countP (fun j => decide (0 ≤ j ∧ j < k)) := by
    apply List.countP_mono_left
    intro j hj hp
    simp only [decide_eq_true_eq]
    exact ⟨Nat.zero_le _, h j (List.mem_range.1 hj) hp⟩
  omega

theorem count_after (n k : Nat) (p : Nat → Bool) (h : ∀ j, j < n → p j = true → k < j) : (List.range n).countP p ≤ n - (k + 1) := by
  have h1 := countP_range_interval (k + 1) n n
  have h2 : (List.range n).countP p ≤ (List.range n).countP (fun j => decide (k + 1 ≤ j ∧ j < n)) := by
    apply List.countP_mono_left
    intro j hj hp
    simp only [decide_eq_true_eq]
    exact ⟨h j (List.mem_range.1 hj) hp, List.mem_range.1 hj⟩
  omega

theorem below_le (ha : Ascending arr ptr) (k : Nat) (m : Rat) (hk : k < ptr.length) (h : m ≤ at' arr ptr k) : below arr m ≤ k := by
  unfold below
  rw [countP_arr arr ptr ha.1]
  apply count_before
  intro j hj hp
  simp only [decide_eq_true_eq] at hp
  apply Nat.lt_of_not_le
  intro hkj
  have := sorted_at arr ptr ha k j hkj hj
  grind

theorem above_le (ha : Ascending arr ptr) (k : Nat) (m : Rat) (hk : k < ptr.length) (h : at' arr ptr k ≤ m) :
    above arr m ≤ ptr.length - (k + 1) := by
  unfold above
  rw [countP_arr arr ptr ha.1]
  apply count_after
  intro j hj hp
  simp only [decide_eq_true_eq] at hp
  apply Nat.lt_of_not_le
  intro hkj
  have := sorted_at arr ptr ha j k hkj hk
  grind

theorem ptr_length (ha : Ascending arr ptr) : ptr.length = arr.length := by
  rw [ha.1.length_eq, List.length_range]

theorem at_mem (ha : Ascending arr ptr) (k : Nat) (hk : k < ptr.length) : at' arr ptr k ∈ arr := by
  unfold at'
  have : ptr.getD k 0 ∈ List.range arr.length := by
    rw [← ha.1.mem_iff]
    simp [List.getD, hk]
  have hl := List.mem_range.1 this
  generalize ptr.getD k 0 = i at *
  rw [show arr.getD i 0 = arr[i] from by simp [List.getD, hl]]
  exact List.getElem_mem _

theorem mem_at (ha : Ascending arr ptr) (x : Rat) (hx : x ∈ arr) : ∃ k, k < ptr.length ∧ x = at' arr ptr k := by
  obtain ⟨i, hi, e⟩ := List.getElem_of_mem hx
  have : i ∈ ptr := by rw [ha.1.mem_iff]; exact List.mem_range.2 hi
  obtain ⟨k, hk, e2⟩ := List.getElem_of_mem this
  refine ⟨k, hk, ?_⟩
  unfold at'
  simp [List.getD, hk, e2, hi, e]

theorem median_spec (ha : Ascending arr ptr) (hne : arr ≠ []) : IsMedian arr (calcMedian arr ptr) := by
  have hl := ptr_length arr ptr ha
  have hpos : 0 < arr.length := List.length_pos_iff.2 hne
  by_cases hp : arr.length % 2 = 0
  · have e : calcMedian arr ptr = (at' arr ptr (arr.length / 2) + at' arr ptr (arr.length / 2 - 1)) / 2 := by
      unfold calcMedian
      rw [if_neg (by omega), if_neg (by omega), if_pos hp]
      rfl
    generalize hm : calcMedian arr ptr = m at *
    generalize hlo : at' arr ptr (arr.length / 2 - 1) = lo at *
    generalize hhi : at' arr ptr (arr.length / 2) = hi at *
    have hle : lo ≤ hi := by
      rw [← hlo, ← hhi]; exact sorted_at arr ptr ha _ _ (by omega) (by omega)
    have a1 : m ≤ hi := by grind
    have a2 : lo ≤ m := by grind
    have b1 := below_le arr ptr ha (arr.length / 2 - 1) lo (by omega) (by rw [hlo]; exact Rat.le_refl)
    have b2 := above_le arr ptr ha (arr.length / 2 - 1) lo (by omega) (by rw [hlo]; exact Rat.le_refl)
    have b3 := below_le arr ptr ha (arr.length / 2) hi (by omega) (by rw [hhi]; exact Rat.le_refl)
    have b4 := above_le arr ptr ha (arr.length / 2) hi (by omega) (by rw [hhi]; exact Rat.le_refl)
    have b5 := below_le arr ptr ha (arr.length / 2) m (by omega) (by rw [hhi]; exact a1)
    have b6 := above_le arr ptr ha (arr.length / 2 - 1) m (by omega) (by rw [hlo]; exact a2)
    refine ⟨⟨by omega, by omega⟩, lo, by rw [← hlo]; exact at_mem arr ptr ha _ (by omega), hi,
      by rw [← hhi]; exact at_mem arr ptr ha _ (by omega), ⟨by omega, by omega⟩, ⟨by omega, by omega⟩, by grind, ?_⟩
    intro x hx ⟨c1, c2⟩
    obtain ⟨k, hk, ek⟩ := mem_at arr ptr ha x hx
    by_cases hc : k ≤ arr.length / 2 - 1
    · have := sorted_at arr ptr ha k (arr.length / 2 - 1) hc (by omega)
      grind
    · have := sorted_at arr ptr ha (arr.length / 2) k (by omega) hk
      grind
  · have e : calcMedian arr ptr = at' arr ptr (arr.length / 2) := by
      unfold calcMedian
      rw [if_neg (by omega)]
      by_cases h1 : arr.length = 1
      · rw [if_pos h1]
        have hmem := at_mem arr ptr ha (arr.length / 2) (by omega)
        match arr, h1 with
        | [x], _ => exact (List.mem_singleton.1 hmem).symm
      · rw [if_neg h1, if_neg hp]
        rfl
    generalize hm : calcMedian arr ptr = m at *
    have b1 := below_le arr ptr ha (arr.length / 2) m (by omega) (by rw [e]; exact Rat.le_refl)
    have b2 := above_le arr ptr ha (arr.length / 2) m (by omega) (by rw [e]; exact Rat.le_refl)
    have hmem : m ∈ arr := by rw [e]; exact at_mem arr ptr ha _ (by omega)
    have hs : Splits arr m := ⟨by omega, by omega⟩
    exact ⟨hs, m, hmem, m, hmem, hs, hs, by grind, fun x _ h => by grind⟩

end

/-! ### Graphs -/

/-- Some column of the graph is at most half a column from a value between 0 and 100. -/
theorem nearest (s : Nat) (hs : s = 1 ∨ s = 2) (m : Rat) (h0 : 0 ≤ m) (h1 : m ≤ 100) :
    ∃ k, k < 100 / s + 1 ∧ Near ((s : Rat) / 2) (((k * s : Nat) : Rat)) m := by
  have hsp : (0 : Rat) < (s : Rat) := by rcases hs with e | e <;> subst e <;> decide +kernel
  have hx0 : 0 ≤ m / (s : Rat) + 1 / 2 := by
    have : 0 ≤ m / (s : Rat) := by
      rw [Rat.div_def]; exact Rat.mul_nonneg h0 (Rat.le_of_lt (Rat.inv_pos.2 hsp))
    grind
  have f1 := Rat.floor_le (m / (s : Rat) + 1 / 2)
  have f2 := Rat.lt_floor_add_one (m / (s : Rat) + 1 / 2)
  have f0 : 0 ≤ (m / (s : Rat) + 1 / 2).floor := Rat.le_floor_iff.2 (by simpa using hx0)
  obtain ⟨k, hk⟩ := Int.eq_ofNat_of_zero_le f0
  rw [hk] at f1 f2
  rw [show ((↑k : Int) : Rat) = (k : Rat) from rfl] at f1
  rw [show (((k : Int) + 1 : Int) : Rat) = (k : Rat) + 1 from by rw [Rat.intCast_add]; rfl] at f2
  have hmul : m / (s : Rat) * (s : Rat) = m := by
    rw [Rat.div_def, Rat.mul_assoc, Rat.inv_mul_cancel _ (by grind), Rat.mul_one]
  refine ⟨k, ?_, ?_⟩
  · have hk2 : (k : Rat) < ((100 / s + 1 : Nat) : Rat) := by
      rcases hs with e | e
      · subst e
        show (k : Rat) < 101
        grind
      · subst e
        show (k : Rat) < 51
        have : ((2 : Nat) : Rat) = 2 := rfl
        grind
    exact Rat.natCast_lt_natCast.1 hk2
  · rcases hs with e | e
    · subst e
      rw [Nat.mul_one]
      constructor <;> grind
    · subst e
      have e2 : ((k * 2 : Nat) : Rat) = (k : Rat) * 2 := by rw [Rat.natCast_mul]; rfl
      have : ((2 : Nat) : Rat) = 2 := rfl
      rw [e2]
      constructor <;> grind

end Verif.Range
