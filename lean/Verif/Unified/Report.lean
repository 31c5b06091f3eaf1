import Verif.Unified.Lemmas
/-!
# Lemmas on the confidences of the report
-/
set_option autoImplicit false
namespace Verif.Unified
open Verif.Stats

theorem normLook_le (q : Rat) (t v v0 : Nat) (hq : q < ((t : Rat) / 10000000) * ((t : Rat) / 10000000))
    (post : List (Nat × Nat)) : ∀ (pre : List (Nat × Nat)) (prev : Nat), prev ≤ v0 → (∀ e ∈ pre, e.2 ≤ v0) →
    normLook q prev (pre ++ (t, v) :: post) ≤ v0
  | [], prev, hp, _ => by
    rw [List.nil_append]
    unfold normLook
    rw [if_pos hq]; exact hp
  | (z, w) :: pre, prev, hp, h => by
    rw [List.cons_append]
    unfold normLook
    have hw : w ≤ v0 := h (z, w) List.mem_cons_self
    split
    · exact hp
    · split
      · exact hw
      · exact normLook_le q t v v0 hq post pre w hw (fun e he => h e (List.mem_cons_of_mem _ he))

/-- The value of the table for a number is above a mark exactly from the entry that reaches it. -/
theorem norm_mark (k m : Nat) (c : Rat) (hc : c = (k : Rat) / 100) (q : Rat)
    (hsplit : (znorm.zip fnorm).tail = (znorm.zip fnorm).tail.take (k - 1) ++
      (100000 * k, fnorm.getD k 0) :: (znorm.zip fnorm).tail.drop k)
    (h1 : m ≤ fnorm.getD k 0) (h2 : ∀ e ∈ (znorm.zip fnorm).tail.drop k, m ≤ e.2)
    (h3 : ∀ e ∈ (znorm.zip fnorm).tail.take (k - 1), e.1 < 100000 * k)
    (h4 : ∀ e ∈ (znorm.zip fnorm).tail.take (k - 1), e.2 ≤ m - 1) (h5 : fnorm.getD 0 0 ≤ m - 1) (hm : 1 ≤ m) :
    (m : Rat) / 10000000 ≤ normprobSq q ↔ c * c ≤ q := by
  have e : ((100000 * k : Nat) : Rat) / 10000000 = c := by
    rw [Rat.natCast_mul, hc]
    have : ((100000 : Nat) : Rat) = 100000 := rfl
    rw [this]; grind
  unfold normprobSq
  rw [hsplit]
  constructor
  · intro h
    refine Rat.not_lt.1 (fun hlt => ?_)
    have := normLook_le q (100000 * k) (fnorm.getD k 0) (m - 1) (by rw [e]; exact hlt)
      ((znorm.zip fnorm).tail.drop k) ((znorm.zip fnorm).tail.take (k - 1)) (fnorm.getD 0 0) h5 h4
    generalize normLook _ _ _ = x at h this
    have hx : x < m := by omega
    have := Rat.natCast_lt_natCast.mpr hx
    grind
  · intro h
    have := normLook_ge q (100000 * k) (fnorm.getD k 0) m (by rw [e]; exact h) h1
      ((znorm.zip fnorm).tail.drop k) h2 ((znorm.zip fnorm).tail.take (k - 1)) (fnorm.getD 0 0) h3
    generalize normLook _ _ _ = x at this ⊢
    have := Rat.natCast_le_natCast.mpr this
    grind

theorem conf_5 (q : Rat) : normConf q ≤ 5 / 100 ↔ (196 / 100 : Rat) * (196 / 100) ≤ q := by
  rw [← norm_mark 196 9750000 (196 / 100) (by decide +kernel) q (by decide +kernel) (by decide +kernel) (by decide +kernel)
    (by decide +kernel) (by decide +kernel) (by decide +kernel) (by decide)]
  unfold normConf
  have : (((9750000 : Nat) : Rat)) = 9750000 := rfl
  rw [this]
  constructor <;> intro h <;> grind

theorem conf_1 (q : Rat) : normConf q ≤ 1 / 100 ↔ (258 / 100 : Rat) * (258 / 100) ≤ q := by
  rw [← norm_mark 258 9950000 (258 / 100) (by decide +kernel) q (by decide +kernel) (by decide +kernel) (by decide +kernel)
    (by decide +kernel) (by decide +kernel) (by decide +kernel) (by decide)]
  unfold normConf
  have : (((9950000 : Nat) : Rat)) = 9950000 := rfl
  rw [this]
  constructor <;> intro h <;> grind

theorem conf_01 (q : Rat) : normConf q ≤ 1 / 1000 ↔ (330 / 100 : Rat) * (330 / 100) ≤ q := by
  rw [← norm_mark 330 9995000 (330 / 100) (by decide +kernel) q (by decide +kernel) (by decide +kernel) (by decide +kernel)
    (by decide +kernel) (by decide +kernel) (by decide +kernel) (by decide)]
  unfold normConf
  have : (((9995000 : Nat) : Rat)) = 9995000 := rfl
  rw [this]
  constructor <;> intro h <;> grind

theorem stars_some (c : Rat) : stars c ≠ [] ↔ c ≤ 5 / 100 := by
  unfold stars
  constructor
  · intro h
    by_cases h1 : c ≤ 1 / 1000
    · grind
    · rw [if_neg h1] at h
      by_cases h2 : c ≤ 1 / 100
      · grind
      · rw [if_neg h2] at h
        by_cases h3 : c ≤ 5 / 100
        · exact h3
        · rw [if_neg h3] at h; exact absurd rfl h
  · intro h
    by_cases h1 : c ≤ 1 / 1000
    · rw [if_pos h1]; decide
    · rw [if_neg h1]
      by_cases h2 : c ≤ 1 / 100
      · rw [if_pos h2]; decide
      · rw [if_neg h2, if_pos h]; decide

theorem pow_mod5 (n : Nat) : 2 ^ n % 5 ≠ 0 := by
  induction n with
  | zero => decide
  | succ n ih => rw [Nat.pow_succ]; omega

/-- A probability of tosses is not 5%. -/
theorem split_ne (R n : Nat) : splitProb R n ≠ 1 / 20 := by
  unfold splitProb
  rw [tosses_len]
  generalize (tosses n).countP (fun s => min (s.count true) (s.count false) ≤ R) = c
  intro h
  have hp : 0 < 2 ^ n := Nat.pow_pos (by decide)
  have hp' : (((2 ^ n : Nat)) : Rat) ≠ 0 := by
    have := Rat.natCast_pos.mpr hp
    intro h; rw [h] at this; exact Rat.lt_irrefl this
  have hm := pow_mod5 n
  generalize 2 ^ n = p at *
  have e : (c : Rat) = 1 / 20 * (p : Rat) := by
    rw [← h, Rat.div_def, Rat.mul_assoc, Rat.inv_mul_cancel _ hp', Rat.mul_one]
  have e2 : ((20 * c : Nat) : Rat) = ((p : Nat) : Rat) := by
    rw [Rat.natCast_mul]
    have : ((20 : Nat) : Rat) = 20 := rfl
    rw [this]; grind
  have e3 : 20 * c = p := Rat.natCast_inj.mp e2
  omega

/-- The confidence of the binomial tests is not 5%. -/
theorem binom_ne (a b : Nat) (h : a ≠ b) : 2 * accBinomial (min a b) (a + b) (1 / 2) ≠ 1 / 20 := by
  by_cases hn : a + b ≤ 20
  · rw [accBinomial_exact (min a b) (a + b) hn (by omega)]
    exact split_ne _ _
  · have := accBinomial_approx (min a b) (a + b) (by omega) (by omega)
    intro h; rw [h] at this; exact Rat.lt_irrefl this

theorem binom_star (c : Rat) (h : c ≠ 1 / 20) : stars c ≠ [] ↔ c < 1 / 20 := by
  rw [stars_some]
  constructor
  · intro h2
    refine Rat.not_le.1 (fun h3 => h ?_)
    grind
  · intro h2; grind

end Verif.Unified
