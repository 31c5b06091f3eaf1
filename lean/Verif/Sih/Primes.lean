import Verif.Sih.Model
import Verif.Sih.Spec
/-!
# Lemmas on the search for primes
-/
set_option autoImplicit false
namespace Verif.Sih

theorem hasDivisor_iff (n : Nat) : hasDivisor n = true ↔ ∃ d, 3 ≤ d ∧ d ≤ n / 3 ∧ d ∣ n := by
  unfold hasDivisor
  rw [List.any_eq_true]
  constructor
  · rintro ⟨d, hd, h⟩
    rw [List.mem_range] at hd
    rw [Bool.and_eq_true, decide_eq_true_eq, beq_iff_eq] at h
    exact ⟨d, h.1, by omega, ⟨n / d, by rw [Nat.mul_comm]; exact h.2.symm⟩⟩
  · rintro ⟨d, h1, h2, h3⟩
    refine ⟨d, by rw [List.mem_range]; omega, ?_⟩
    rw [Bool.and_eq_true, decide_eq_true_eq, beq_iff_eq]
    exact ⟨h1, Nat.div_mul_cancel h3⟩

theorem prime_no_divisor {n : Nat} (h : Prime n) : hasDivisor n = false := by
  rw [← Bool.not_eq_true, hasDivisor_iff]
  rintro ⟨d, h1, h2, h3⟩
  have := h.1
  rcases h.2 d h3 with e | e <;> omega

theorem prime_of_odd {n : Nat} (h3 : 3 ≤ n) (ho : n % 2 = 1) (h : hasDivisor n = false) : Prime n := by
  refine ⟨by omega, ?_⟩
  rintro d ⟨e, he⟩
  by_cases h1 : d = 1
  · exact .inl h1
  by_cases h2 : e = 1
  · exact .inr (by rw [he, h2, Nat.mul_one])
  exfalso
  have hd : d % 2 = 1 := by
    rcases Nat.mod_two_eq_zero_or_one d with hd | hd
    · rw [he, Nat.mul_mod, hd, Nat.zero_mul] at ho
      cases ho
    · exact hd
  have hee : e % 2 = 1 := by
    rcases Nat.mod_two_eq_zero_or_one e with hd | hd
    · rw [he, Nat.mul_mod, hd, Nat.mul_zero] at ho
      cases ho
    · exact hd
  have h3e : 3 ≤ e := by omega
  have : hasDivisor n = true := by
    rw [hasDivisor_iff]
    refine ⟨d, by omega, ?_, ⟨e, he⟩⟩
    rw [Nat.le_div_iff_mul_le (by omega), he]
    exact Nat.mul_le_mul_left d h3e
  rw [h] at this
  cases this

theorem fact_pos (n : Nat) : 0 < fact n := by
  induction n with
  | zero => exact Nat.one_pos
  | succ n ih => exact Nat.mul_pos (by omega) ih

theorem dvd_fact {d n : Nat} (h0 : 0 < d) (h : d ≤ n) : d ∣ fact n := by
  induction n with
  | zero => omega
  | succ n ih =>
    unfold fact
    by_cases e : d = n + 1
    · rw [e]
      exact Nat.dvd_mul_right _ _
    · exact Nat.dvd_trans (ih (by omega)) (Nat.dvd_mul_left _ _)

theorem prime_dvd (k n : Nat) (hk : n ≤ k) (h : 2 ≤ n) : ∃ p, Prime p ∧ p ∣ n := by
  induction k generalizing n with
  | zero => omega
  | succ k ih =>
    by_cases hp : Prime n
    · exact ⟨n, hp, Nat.dvd_refl n⟩
    · have : ∃ d, d ∣ n ∧ d ≠ 1 ∧ d ≠ n := by
        apply Classical.byContradiction
        intro hn
        refine hp ⟨h, fun d hd => ?_⟩
        apply Classical.byContradiction
        intro he
        exact hn ⟨d, hd, fun e => he (.inl e), fun e => he (.inr e)⟩
      obtain ⟨d, hd, h1, h2⟩ := this
      have hle := Nat.le_of_dvd (by omega) hd
      have h0 : 0 < d := Nat.pos_of_dvd_of_pos hd (by omega)
      obtain ⟨p, pp, pd⟩ := ih d (by omega) (by omega)
      exact ⟨p, pp, Nat.dvd_trans pd hd⟩

/-- There are always larger primes. -/
theorem euclid (n : Nat) : ∃ p, Prime p ∧ n < p ∧ p ≤ fact n + 1 := by
  have h0 := fact_pos n
  obtain ⟨p, hp, hd⟩ := prime_dvd (fact n + 1) (fact n + 1) (Nat.le_refl _) (by omega)
  refine ⟨p, hp, ?_, Nat.le_of_dvd (by omega) hd⟩
  apply Classical.byContradiction
  intro h
  have h2 := hp.1
  have : p ∣ 1 := (Nat.dvd_add_right (dvd_fact (by omega) (by omega))).1 hd
  have := Nat.le_of_dvd (by omega) this
  omega

theorem search_spec (f n p : Nat) (hp : Prime p) (hn : 3 ≤ n) (ho : n % 2 = 1) (hle : n ≤ p) (hf : p < n + 2 * f) :
    ∃ r, search f n = some r ∧ Prime r ∧ n ≤ r ∧ ∀ q, Prime q → n ≤ q → r ≤ q := by
  have odd : ∀ q, Prime q → n ≤ q → q % 2 = 1 := by
    intro q hq hnq
    rcases Nat.mod_two_eq_zero_or_one q with e | e
    · rcases hq.2 2 (Nat.dvd_of_mod_eq_zero e) with e' | e' <;> omega
    · exact e
  induction f generalizing n with
  | zero => omega
  | succ f ih =>
    unfold search
    cases e : hasDivisor n
    · exact ⟨n, rfl, prime_of_odd hn ho e, Nat.le_refl _, fun q _ h => h⟩
    · have hne : ∀ q, Prime q → q ≠ n := by
        rintro q hq rfl
        rw [prime_no_divisor hq] at e
        cases e
      have up : ∀ q, Prime q → n ≤ q → n + 2 ≤ q := by
        intro q hq h
        have := hne q hq
        have := odd q hq h
        omega
      obtain ⟨r, h1, h2, h3, h4⟩ := ih (n + 2) (by omega) (by omega) (up p hp hle) (by omega) (fun q hq h => odd q hq (by omega))
      exact ⟨r, h1, h2, by omega, fun q hq h => h4 q hq (up q hq h)⟩

/-- From three on the search ends with the smallest prime that is not smaller. -/
theorem nearest_spec (n : Nat) (hn : 3 ≤ n) : ∃ r, nearestPrime n = some r ∧ Prime r ∧ n ≤ r ∧ ∀ q, Prime q → n ≤ q → r ≤ q := by
  obtain ⟨p, hp, h1, h2⟩ := euclid n
  have hpo : p % 2 = 1 := by
    rcases Nat.mod_two_eq_zero_or_one p with e | e
    · rcases hp.2 2 (Nat.dvd_of_mod_eq_zero e) with e' | e' <;> omega
    · exact e
  unfold nearestPrime
  by_cases he : n / 2 * 2 = n
  · rw [if_pos (by simpa using he)]
    obtain ⟨r, h3, h4, h5, h6⟩ := search_spec (fact n + 2) (n + 1) p hp (by omega) (by omega) (by omega) (by omega)
    refine ⟨r, h3, h4, by omega, fun q hq hle => h6 q hq ?_⟩
    rcases Nat.lt_or_ge n q with h | h
    · omega
    · have : q = n := by omega
      subst this
      rcases hq.2 2 ⟨q / 2, by omega⟩ with e' | e' <;> omega
  · rw [if_neg (by simpa using he)]
    exact search_spec (fact n + 2) n p hp hn (by omega) (by omega) (by omega)

end Verif.Sih
