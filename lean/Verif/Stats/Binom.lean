import Verif.Stats.Model
import Verif.Stats.Spec
/-!
# Lemmas about the binomial sums and the normal table
-/
set_option autoImplicit false
namespace Verif.Stats

/-- Factorial. -/
def fact : Nat → Nat
  | 0 => 1
  | n + 1 => (n + 1) * fact n

theorem fact_pos : ∀ n, 0 < fact n
  | 0 => Nat.one_pos
  | n + 1 => Nat.mul_pos (Nat.succ_pos n) (fact_pos n)

/-- Outcomes with side `b` shown `r` times. -/
def H (b : Bool) (n r : Nat) : Nat := (tosses n).countP (fun s => s.count b = r)

theorem tosses_len : ∀ n, (tosses n).length = 2 ^ n
  | 0 => rfl
  | n + 1 => by
    unfold tosses
    rw [List.length_flatMap]
    simp only [List.length_cons, List.length_nil]
    have h : ∀ l : List (List Bool), (l.map (fun _ => 0 + 1 + 1)).sum = 2 * l.length := by
      intro l
      induction l with
      | nil => rfl
      | cons a l ih => simp only [List.map_cons, List.sum_cons, ih, List.length_cons]; omega
    rw [h, tosses_len n, Nat.pow_succ]; omega

theorem tosses_mem : ∀ (n : Nat) (s : List Bool), s ∈ tosses n → s.length = n
  | 0, s, h => by unfold tosses at h; simp at h; rw [h]; rfl
  | n + 1, s, h => by
    unfold tosses at h
    obtain ⟨t, ht, hs⟩ := List.mem_flatMap.mp h
    have := tosses_mem n t ht
    simp at hs
    rcases hs with h1 | h1
    · rw [h1]; simp [this]
    · rw [h1]; simp [this]

theorem count_flat (p : List Bool → Bool) : ∀ l : List (List Bool),
    (l.flatMap (fun s => [true :: s, false :: s])).countP p =
      l.countP (fun s => p (true :: s)) + l.countP (fun s => p (false :: s))
  | [] => rfl
  | a :: l => by
    rw [List.flatMap_cons, List.countP_append, count_flat p l]
    simp only [List.countP_cons, List.countP_nil]
    omega

theorem H_zero (b : Bool) (n : Nat) : H b (n + 1) 0 = H b n 0 := by
  unfold H
  conv => lhs; unfold tosses
  rw [count_flat]
  cases b <;> simp [List.count_cons]

theorem H_succ (b : Bool) (n r : Nat) : H b (n + 1) (r + 1) = H b n r + H b n (r + 1) := by
  unfold H
  conv => lhs; unfold tosses
  rw [count_flat]
  cases b <;> simp [List.count_cons]
  omega

theorem H_base (b : Bool) : ∀ n, H b n 0 = 1
  | 0 => by cases b <;> decide
  | n + 1 => by rw [H_zero, H_base b n]

theorem H_big (b : Bool) (n r : Nat) (h : n < r) : H b n r = 0 := by
  unfold H
  rw [List.countP_eq_zero]
  intro s hs
  have := tosses_mem n s hs
  have := List.count_le_length (a := b) (l := s)
  simp; omega

theorem H_fact (b : Bool) : ∀ n r, r ≤ n → H b n r * (fact r * fact (n - r)) = fact n
  | n, 0, _ => by rw [H_base]; simp [fact]
  | 0, r + 1, h => by omega
  | n + 1, r + 1, h => by
    rw [H_succ]
    by_cases hr : r = n
    · subst hr
      rw [H_big b r (r + 1) (by omega)]
      have h1 := H_fact b r r (Nat.le_refl _)
      simp only [Nat.sub_self, Nat.add_zero, fact, Nat.mul_one] at h1 ⊢
      rw [Nat.mul_left_comm, h1]
    · have h1 := H_fact b n r (by omega)
      have h2 := H_fact b n (r + 1) (by omega)
      have e : n + 1 - (r + 1) = (n - (r + 1)) + 1 := by omega
      have e' : n - r = (n - (r + 1)) + 1 := by omega
      rw [e]
      rw [e'] at h1
      have e3 : n + 1 = (r + 1) + ((n - (r + 1)) + 1) := by omega
      simp only [fact] at h1 h2 ⊢
      generalize n - (r + 1) = k at *
      rw [Nat.add_mul]
      have t1 : H b n r * ((r + 1) * fact r * ((k + 1) * fact k)) = (r + 1) * fact n := by
        rw [← h1]; grind
      have t2 : H b n (r + 1) * ((r + 1) * fact r * ((k + 1) * fact k)) = (k + 1) * fact n := by
        rw [← h2]; grind
      rw [t1, t2, ← Nat.add_mul, e3]

theorem seqMult_fact (f : Nat) : ∀ m, ((List.range' (f + 1) m).map (fun (i : Nat) => (i : Rat))).foldl (· * ·) 1 * (fact f : Rat)
    = (fact (f + m) : Rat)
  | 0 => by simp [Rat.one_mul]
  | m + 1 => by
    rw [List.range'_concat, List.map_append, List.foldl_append]
    have ih := seqMult_fact f m
    simp only [List.map_cons, List.map_nil, List.foldl_cons, List.foldl_nil]
    have e : fact (f + (m + 1)) = (f + 1 + 1 * m) * fact (f + m) := by
      rw [show f + (m + 1) = (f + m) + 1 by omega]
      show (f + m + 1) * fact (f + m) = _
      rw [show f + m + 1 = f + 1 + 1 * m by omega]
    rw [e, Rat.natCast_mul, ← ih]
    grind

theorem fact_ne (n : Nat) : (fact n : Rat) ≠ 0 := by
  have := Rat.natCast_lt_natCast.mpr (fact_pos n)
  have h : ((0 : Nat) : Rat) = 0 := rfl
  grind

theorem nChooseR_eq (n r : Nat) (h : r ≤ n) : nChooseR n r = (H true n r : Rat) := by
  unfold nChooseR seqMult
  have h1 := seqMult_fact r (n - r)
  have h2 := seqMult_fact 0 (n - r)
  rw [show r + (n - r) = n by omega] at h1
  rw [show n + 1 - (r + 1) = n - r by omega, show n - r + 1 - 1 = n - r by omega]
  simp only [Nat.zero_add] at h2
  have e0 : ((fact 0 : Nat) : Rat) = 1 := rfl
  rw [e0, Rat.mul_one] at h2
  rw [h2]
  have h3 := congrArg (fun (x : Nat) => (x : Rat)) (H_fact true n r h)
  simp only [Rat.natCast_mul] at h3
  have n1 := fact_ne r
  have n2 := fact_ne (n - r)
  generalize List.foldl (fun x1 x2 => x1 * x2) 1 (List.map (fun (i : Nat) => (i : Rat)) (List.range' (r + 1) (n - r))) = A at *
  generalize (fact r : Rat) = a at *
  generalize (fact (n - r) : Rat) = c at *
  have h4 : A = (H true n r : Rat) * c := by
    have h5 : A * a = (H true n r : Rat) * c * a := by grind
    have h6 := congrArg (fun x => x / a) h5
    simpa [Rat.mul_div_cancel n1] using h6
  rw [h4, Rat.mul_div_cancel n2]

theorem half_pow (n : Nat) : (1 / 2 : Rat) ^ n * ((2 ^ n : Nat) : Rat) = 1 := by
  induction n with
  | zero => simp [Rat.pow_zero]
  | succ n ih =>
    rw [Rat.pow_succ, Nat.pow_succ, Rat.natCast_mul]
    have : ((2 : Nat) : Rat) = 2 := rfl
    rw [this]
    grind

theorem half_split (r k : Nat) : (1 / 2 : Rat) ^ r * (1 / 2 : Rat) ^ k = (1 / 2 : Rat) ^ (r + k) := by
  induction k with
  | zero => simp [Rat.pow_zero, Rat.mul_one]
  | succ k ih => rw [Rat.pow_succ, ← Nat.add_assoc, Rat.pow_succ, ← ih]; grind

theorem count_le_sum (b : Bool) (n : Nat) : ∀ R : Nat,
    (tosses n).countP (fun s => s.count b ≤ R) = ((List.range (R + 1)).map (H b n)).sum
  | 0 => by
    simp only [List.range_succ, List.range_zero, List.nil_append, List.map_cons, List.map_nil, List.sum_cons, List.sum_nil]
    unfold H
    simp
  | R + 1 => by
    rw [List.range_succ, List.map_append, List.sum_append, ← count_le_sum b n R]
    simp only [List.map_cons, List.map_nil, List.sum_cons, List.sum_nil, Nat.add_zero]
    unfold H
    induction tosses n with
    | nil => rfl
    | cons a l ih =>
      simp only [List.countP_cons, ih, decide_eq_true_eq]
      by_cases h1 : List.count b a ≤ R
      · have h2 : List.count b a ≤ R + 1 := by omega
        have h3 : ¬ List.count b a = R + 1 := by omega
        simp [h1, h2, h3]; omega
      · by_cases h3 : List.count b a = R + 1
        · have h4 : ¬ (R + 1 ≤ R) := by omega
          simp [h3, h4]; omega
        · have h2 : ¬ List.count b a ≤ R + 1 := by omega
          simp [h1, h2, h3]

theorem H_sym (n : Nat) : ∀ r, H true n r = H false n r := by
  induction n with
  | zero => intro r; cases r <;> rfl
  | succ n ih =>
    intro r
    cases r with
    | zero => rw [H_zero, H_zero, ih]
    | succ r => rw [H_succ, H_succ, ih, ih]

theorem count_split (n R : Nat) (h : 2 * R < n) :
    (tosses n).countP (fun s => min (s.count true) (s.count false) ≤ R) =
      2 * (tosses n).countP (fun s => s.count true ≤ R) := by
  have h1 : (tosses n).countP (fun s => s.count true ≤ R) = (tosses n).countP (fun s => s.count false ≤ R) := by
    rw [count_le_sum, count_le_sum]
    congr 1
    apply List.map_congr_left
    intro r _
    exact H_sym n r
  have h2 : ∀ l : List (List Bool), (∀ s ∈ l, s.length = n) →
      l.countP (fun s => min (s.count true) (s.count false) ≤ R) =
        l.countP (fun s => s.count true ≤ R) + l.countP (fun s => s.count false ≤ R) := by
    intro l
    induction l with
    | nil => intro _; rfl
    | cons a l ih =>
      intro hl
      have ha := hl a List.mem_cons_self
      have hc : a.count true + a.count false = a.length := by
        clear hl ha
        induction a with
        | nil => rfl
        | cons b a ih => cases b <;> simp [List.count_cons] <;> omega
      have := ih (fun s hs => hl s (List.mem_cons_of_mem _ hs))
      simp only [List.countP_cons, this, decide_eq_true_eq]
      by_cases c1 : List.count true a ≤ R
      · have c2 : ¬ List.count false a ≤ R := by omega
        have c3 : min (List.count true a) (List.count false a) ≤ R := by omega
        simp only [c1, c2, c3, if_true, if_false]; omega
      · by_cases c2 : List.count false a ≤ R
        · have c3 : min (List.count true a) (List.count false a) ≤ R := by omega
          simp only [c1, c2, c3, if_true, if_false]; omega
        · have c3 : ¬ min (List.count true a) (List.count false a) ≤ R := by omega
          simp only [c1, c2, c3, if_false]; omega
  rw [h2 _ (fun s hs => tosses_mem n s hs), ← h1]
  omega

theorem quarter_le (n : Nat) : (n : Rat) * (1 / 2) * (1 - 1 / 2) ≤ 5 ↔ n ≤ 20 := by
  have e : (n : Rat) * (1 / 2) * (1 - 1 / 2) = (n : Rat) / 4 := by grind
  rw [e]
  have h20 : ((20 : Nat) : Rat) = 20 := rfl
  constructor
  · intro h
    have : (n : Rat) ≤ 20 := by grind
    rw [← h20] at this
    exact Rat.natCast_le_natCast.mp this
  · intro h
    have := Rat.natCast_le_natCast.mpr h
    rw [h20] at this
    grind

theorem foldl_add (l : List Rat) : ∀ a : Rat, l.foldl (· + ·) a = a + l.sum := by
  induction l with
  | nil => intro a; simp [Rat.add_zero]
  | cons b l ih => intro a; rw [List.foldl_cons, ih, List.sum_cons]; grind

/-- The exact branch. -/
theorem accBinomial_exact (R n : Nat) (hn : n ≤ 20) (hR : 2 * R < n) :
    2 * accBinomial R n (1 / 2) = splitProb R n := by
  unfold accBinomial
  rw [if_pos ((quarter_le n).mpr hn), foldl_add, Rat.zero_add]
  have half : (1 : Rat) - 1 / 2 = 1 / 2 := by decide +kernel
  rw [half]
  have h1 : (List.range (R + 1)).map (fun (r : Nat) => nChooseR n r * (1 / 2 : Rat) ^ r * (1 / 2 : Rat) ^ (n - r)) =
      (List.range (R + 1)).map (fun (r : Nat) => (H true n r : Rat) * (1 / 2 : Rat) ^ n) := by
    apply List.map_congr_left
    intro r hr
    rw [List.mem_range] at hr
    rw [nChooseR_eq n r (by omega), Rat.mul_assoc, half_split, show r + (n - r) = n by omega]
  rw [h1]
  have h2 : ∀ l : List Nat, (l.map (fun (r : Nat) => (H true n r : Rat) * (1 / 2 : Rat) ^ n)).sum =
      (((l.map (H true n)).sum : Nat) : Rat) * (1 / 2 : Rat) ^ n := by
    intro l
    induction l with
    | nil => simp [Rat.zero_mul]
    | cons a l ih => simp only [List.map_cons, List.sum_cons, ih, Rat.natCast_add]; grind
  rw [h2, ← count_le_sum]
  unfold splitProb
  rw [count_split n R hR, tosses_len, Rat.natCast_mul]
  have hp := half_pow n
  have hne : ((2 ^ n : Nat) : Rat) ≠ 0 := by
    intro h; rw [h] at hp; grind
  have hh : (1 / 2 : Rat) ^ n = 1 / ((2 ^ n : Nat) : Rat) := by
    have := congrArg (fun x => x / ((2 ^ n : Nat) : Rat)) hp
    simp only [Rat.mul_div_cancel hne] at this
    exact this
  rw [hh]
  have : ((2 : Nat) : Rat) = 2 := rfl
  grind

theorem normLook_all (q : Rat) (v0 : Nat) : ∀ (l : List (Nat × Nat)) (prev : Nat), v0 ≤ prev → (∀ e ∈ l, v0 ≤ e.2) →
    v0 ≤ normLook q prev l
  | [], prev, h, _ => h
  | (z, v) :: l, prev, h, h2 => by
    unfold normLook
    have hv : v0 ≤ v := h2 (z, v) List.mem_cons_self
    by_cases ha : q < ((z : Rat) / 10000000) * ((z : Rat) / 10000000)
    · rw [if_pos ha]; exact h
    · rw [if_neg ha]
      by_cases hb : q = ((z : Rat) / 10000000) * ((z : Rat) / 10000000)
      · rw [if_pos hb]; exact hv
      · rw [if_neg hb]; exact normLook_all q v0 l v hv (fun e he => h2 e (List.mem_cons_of_mem _ he))

theorem sq_lt {z t : Nat} (h : z < t) :
    ((z : Rat) / 10000000) * ((z : Rat) / 10000000) < ((t : Rat) / 10000000) * ((t : Rat) / 10000000) := by
  have hz0 : (0 : Rat) ≤ (z : Rat) := Rat.natCast_nonneg
  have h5 : (z : Rat) < (t : Rat) := Rat.natCast_lt_natCast.mpr h
  have a0 : (0 : Rat) ≤ (z : Rat) / 10000000 := by grind
  have b0 : (z : Rat) / 10000000 < (t : Rat) / 10000000 := by grind
  have c0 := Rat.mul_le_mul_of_nonneg_right (Rat.le_of_lt b0) a0
  have d0 : ((t : Rat) / 10000000) * ((z : Rat) / 10000000) < ((t : Rat) / 10000000) * ((t : Rat) / 10000000) :=
    Rat.mul_lt_mul_of_pos_left b0 (by grind)
  grind

theorem normLook_ge (q : Rat) (t v v0 : Nat) (hq : ((t : Rat) / 10000000) * ((t : Rat) / 10000000) ≤ q)
    (hv : v0 ≤ v) (post : List (Nat × Nat)) (hp : ∀ e ∈ post, v0 ≤ e.2) :
    ∀ (pre : List (Nat × Nat)) (prev : Nat), (∀ e ∈ pre, e.1 < t) → v0 ≤ normLook q prev (pre ++ (t, v) :: post)
  | [], prev, _ => by
    rw [List.nil_append]
    unfold normLook
    rw [if_neg (by grind)]
    by_cases hb : q = ((t : Rat) / 10000000) * ((t : Rat) / 10000000)
    · rw [if_pos hb]; exact hv
    · rw [if_neg hb]; exact normLook_all q v0 post v hv hp
  | (z, w) :: pre, prev, h => by
    rw [List.cons_append]
    unfold normLook
    have hz := sq_lt (h (z, w) List.mem_cons_self)
    rw [if_neg (by grind), if_neg (by grind)]
    exact normLook_ge q t v v0 hq hv post hp pre w (fun e he => h e (List.mem_cons_of_mem _ he))

/-- The table from 2.29 on: at least 0.9889. -/
theorem normprobSq_ge (q : Rat) (hq : (229 / 100 : Rat) * (229 / 100) ≤ q) : (9889 / 10000 : Rat) ≤ normprobSq q := by
  have hsplit : (znorm.zip fnorm).tail = (znorm.zip fnorm).tail.take 228 ++
      (22900000, fnorm.getD 229 0) :: (znorm.zip fnorm).tail.drop 229 := by decide +kernel
  have h := normLook_ge q 22900000 (fnorm.getD 229 0) 9889000
    (by
      have : ((22900000 : Nat) : Rat) / 10000000 = 229 / 100 := by decide +kernel
      rw [this]; exact hq)
    (by decide +kernel) ((znorm.zip fnorm).tail.drop 229) (by decide +kernel)
    ((znorm.zip fnorm).tail.take 228) (fnorm.getD 0 0) (by decide +kernel)
  rw [← hsplit] at h
  unfold normprobSq
  have h2 := Rat.natCast_le_natCast.mpr h
  have e : ((9889000 : Nat) : Rat) = 9889000 := rfl
  rw [e] at h2
  grind

/-- The approximate branch: below the threshold whatever the split. -/
theorem accBinomial_approx (R n : Nat) (hn : 21 ≤ n) (hR : 2 * R ≤ n) : 2 * accBinomial R n (1 / 2) < 1 / 20 := by
  unfold accBinomial
  rw [if_neg (by rw [quarter_le]; omega)]
  have hn' : (21 : Rat) ≤ (n : Rat) := by
    have := Rat.natCast_le_natCast.mpr hn
    simpa using this
  have hR' : 2 * (R : Rat) ≤ (n : Rat) := by
    have := Rat.natCast_le_natCast.mpr hR
    rw [Rat.natCast_mul] at this
    simpa using this
  have hR0 : (0 : Rat) ≤ (R : Rat) := Rat.natCast_nonneg
  simp only
  rw [if_pos (by grind)]
  have hden : (n : Rat) * (1 / 2) * (1 - 1 / 2) = (n : Rat) / 4 := by grind
  rw [hden]
  have hpos : (0 : Rat) < (n : Rat) / 4 := by grind
  have hd : (n : Rat) / 4 ≤ (n : Rat) * (1 / 2) - (R : Rat) * (1 / 2) := by grind
  have hsq : ((n : Rat) / 4) * ((n : Rat) / 4) ≤
      ((R : Rat) * (1 / 2) - (n : Rat) * (1 / 2)) * ((R : Rat) * (1 / 2) - (n : Rat) * (1 / 2)) := by
    have a1 := Rat.mul_le_mul_of_nonneg_right hd (Rat.le_of_lt hpos)
    have a2 := Rat.mul_le_mul_of_nonneg_left hd (show (0 : Rat) ≤ (n : Rat) * (1 / 2) - (R : Rat) * (1 / 2) by grind)
    grind
  have hq : (n : Rat) / 4 ≤
      ((R : Rat) * (1 / 2) - (n : Rat) * (1 / 2)) * ((R : Rat) * (1 / 2) - (n : Rat) * (1 / 2)) / ((n : Rat) / 4) := by
    apply Rat.not_lt.mp
    rw [Rat.div_lt_iff hpos]
    exact Rat.not_lt.mpr hsq
  have h := normprobSq_ge _ (Rat.le_trans (show (229 / 100 : Rat) * (229 / 100) ≤ (n : Rat) / 4 by grind) hq)
  grind

end Verif.Stats
