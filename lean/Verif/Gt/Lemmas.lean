import Verif.Gt.Model
import Verif.Gt.Spec
/-!
# Lemmas on Good-Turing discounts
-/
set_option autoImplicit false
namespace Verif.Gt

theorem cast_pos {a : Nat} (h : 0 < a) : (0 : Rat) < (a : Rat) := by exact_mod_cast h

theorem common_eq (f : Nat → Nat) (k : Nat) : common f k = ((k : Rat) + 1) * (f (k + 1) : Rat) / (f 1 : Rat) := by
  unfold common
  rw [Rat.natCast_mul, Rat.natCast_add]
  rfl

theorem disc_eq {f : Nat → Nat} {k r : Nat} (hr : 1 ≤ r) (hf : 0 < f r) : disc f k r = .num (katz f k r) := by
  have h0 : ¬ r * f r = 0 := by
    have := Nat.mul_pos hr hf
    omega
  unfold disc first katz
  rw [if_neg h0, common_eq, Rat.natCast_mul, Rat.natCast_mul, Rat.natCast_add]
  rfl

theorem disc_zero {f : Nat → Nat} {k r : Nat} (hr : 1 ≤ r) (hf : 0 < f r) (h0 : f (r + 1) = 0) (hc : 0 < common f k) (hc1 : common f k < 1) :
    bad (disc f k r) = true := by
  rw [disc_eq hr hf]
  unfold bad katz
  rw [h0, ← common_eq]
  generalize common f k = c at *
  have : (((r : Rat) + 1) * ((0 : Nat) : Rat) / ((r : Rat) * (f r : Rat)) - c) / (1 - c) < 0 := by
    rw [Rat.div_lt_iff (by grind)]
    have : ((0 : Nat) : Rat) = 0 := rfl
    rw [this]
    grind
  rw [Bool.or_eq_true, decide_eq_true_eq]
  exact .inl this

/-- The tests of the loop. -/
theorem fine_iff {f : Nat → Nat} {k : Nat} (h1 : 0 < f 1) :
    (¬ (decide (common f (k + 1) ≤ 0) || decide (1 ≤ common f (k + 1))) = true ∧ ¬ (List.range (k + 1)).any (fun i => bad (disc f (k + 1) (i + 1))) = true) ↔
      Fine f (k + 1) := by
  have hp1 := cast_pos h1
  have hcast : (((k + 1 : Nat) : Rat) + 1) * (f (k + 1 + 1) : Rat) = (((k + 1 + 1) * f (k + 1 + 1) : Nat) : Rat) := by
    rw [Rat.natCast_mul, Rat.natCast_add (k + 1) 1]
    rfl
  have hlt : common f (k + 1) < 1 ↔ (k + 1 + 1) * f (k + 1 + 1) < f 1 := by
    rw [common_eq, hcast, Rat.div_lt_iff hp1, Rat.one_mul, Rat.natCast_lt_natCast]
  have hpos : 0 < common f (k + 1) ↔ 0 < f (k + 1 + 1) := by
    constructor
    · intro h
      refine Nat.pos_of_ne_zero fun e => ?_
      rw [common_eq, e] at h
      have e0 : ((0 : Nat) : Rat) = 0 := rfl
      rw [e0] at h
      grind
    · intro h
      rw [common_eq, hcast]
      have : (0 : Rat) < (((k + 1 + 1) * f (k + 1 + 1) : Nat) : Rat) := cast_pos (Nat.mul_pos (by omega) h)
      rw [Rat.lt_div_iff hp1]
      grind
  constructor
  · rintro ⟨a, b⟩
    have a1 : 0 < common f (k + 1) ∧ common f (k + 1) < 1 := by
      simp only [Bool.or_eq_true, decide_eq_true_eq, not_or] at a
      exact ⟨Rat.not_le.1 a.1, Rat.not_le.1 a.2⟩
    have b1 : ∀ r, 1 ≤ r → r ≤ k + 1 → bad (disc f (k + 1) r) = false := by
      intro r h1 h2
      cases hb : bad (disc f (k + 1) r) with
      | false => rfl
      | true =>
        refine absurd ?_ b
        rw [List.any_eq_true]
        exact ⟨r - 1, List.mem_range.2 (by omega), by rw [Nat.sub_add_cancel h1]; exact hb⟩
    have c1 : ∀ r, 1 ≤ r → r ≤ k + 1 + 1 → 0 < f r := by
      intro r
      induction r with
      | zero => omega
      | succ r ih =>
        intro _ h2
        by_cases e : r = 0
        · subst e
          exact h1
        · have hr := ih (by omega) (by omega)
          refine Nat.pos_of_ne_zero fun e0 => ?_
          have := disc_zero (k := k + 1) (by omega) hr e0 a1.1 a1.2
          rw [b1 r (by omega) (by omega)] at this
          cases this
    refine ⟨by omega, c1, hlt.1 a1.2, fun r h2 h3 => ?_⟩
    have := b1 r h2 h3
    rw [disc_eq h2 (c1 r h2 (by omega))] at this
    simp only [bad, Bool.or_eq_false_iff, decide_eq_false_iff_not] at this
    exact ⟨Rat.not_lt.1 this.1, Rat.not_lt.1 this.2⟩
  · rintro ⟨_, a, b, c⟩
    constructor
    · simp only [Bool.or_eq_true, decide_eq_true_eq, not_or]
      exact ⟨Rat.not_le.2 (hpos.2 (a _ (by omega) (by omega))), Rat.not_le.2 (hlt.2 b)⟩
    · rw [List.any_eq_true]
      rintro ⟨i, hi, hb⟩
      have hi' := List.mem_range.1 hi
      rw [disc_eq (by omega) (a _ (by omega) (by omega))] at hb
      simp only [bad, Bool.or_eq_true, decide_eq_true_eq] at hb
      have := c (i + 1) (by omega) (by omega)
      rcases hb with hb | hb
      · exact Rat.not_lt.2 this.1 hb
      · exact Rat.not_lt.2 this.2 hb

/-- The sum telescopes. -/
theorem freed_eq {f : Nat → Nat} {k : Nat} (hf : ∀ r, 1 ≤ r → r ≤ k + 1 → 0 < f r) (c : Rat) (hc : c ≠ 1)
    (hce : ((k : Rat) + 1) * (f (k + 1) : Rat) / (f 1 : Rat) = c) (j : Nat) (hj : j ≤ k) :
    freed f (katz f k) j = ((f 1 : Rat) - ((j : Rat) + 1) * (f (j + 1) : Rat)) / (1 - c) := by
  induction j with
  | zero =>
    unfold freed
    have : ((0 : Nat) : Rat) = 0 := rfl
    rw [this]
    grind
  | succ j ih =>
    unfold freed
    rw [ih (by omega)]
    have hx := cast_pos (hf (j + 1) (by omega) (by omega))
    have hj1 : ((j + 1 : Nat) : Rat) = (j : Rat) + 1 := Rat.natCast_add j 1
    have hjp : (0 : Rat) < (j : Rat) + 1 := by
      rw [← hj1]
      exact cast_pos (by omega)
    unfold katz
    dsimp only
    rw [hce, hj1]
    generalize (f (j + 1) : Rat) = x at *
    generalize (f (j + 1 + 1) : Rat) = y at *
    generalize (f 1 : Rat) = z at *
    generalize (j : Rat) + 1 = w at *
    have h1 : w * x ≠ 0 := by
      intro e
      rcases Rat.mul_eq_zero.1 e with e | e
      · grind
      · grind
    have h2 : 1 - c ≠ 0 := by grind
    grind

end Verif.Gt
