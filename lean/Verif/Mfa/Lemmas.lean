import Verif.Mfa.Model
/-!
# Lemmas about the cutting at common silences
-/
set_option autoImplicit false
namespace Verif.Mfa

theorem overlap_eq (a1 a2 b1 b2 : Rat) : overlap a1 a2 b1 b2 = smaller a2 b2 - larger a1 b1 := by
  unfold overlap smaller larger
  by_cases h1 : a1 < b1
  · rw [if_pos h1, if_pos (show a1 ≤ b1 by grind)]
    by_cases h2 : a2 < b2
    · rw [if_pos h2, if_pos (show a2 ≤ b2 by grind)]
    · rw [if_neg h2]
      by_cases h3 : a2 ≤ b2
      · rw [if_pos h3]; grind
      · rw [if_neg h3]
  · rw [if_neg h1]
    have e : (if a1 ≤ b1 then b1 else a1) = a1 := by
      by_cases h : a1 ≤ b1
      · rw [if_pos h]; grind
      · rw [if_neg h]
    rw [e]
    by_cases h2 : a2 < b2
    · rw [if_pos h2, if_pos (show a2 ≤ b2 by grind)]
    · rw [if_neg h2]
      by_cases h3 : a2 ≤ b2
      · rw [if_pos h3]; grind
      · rw [if_neg h3]

/-- The gap after the `c`-th word encloses an interval. -/
theorem SilentAfter.narrow {lo hi lo' hi' : Rat} {ws : List Word} {c : Nat} (h : SilentAfter lo hi ws c) (h1 : lo ≤ lo')
    (h2 : hi' ≤ hi) : SilentAfter lo' hi' ws c := by
  obtain ⟨a, ⟨w, hw, hb⟩, d⟩ := h
  exact ⟨a, ⟨w, hw, by grind⟩, fun v hv => by have := d v hv; grind⟩

theorem gap_step (pre : List Word) (w : Word) (ws : List Word) (lo hi : Rat) (h1 : w.t1 + w.dur ≤ lo)
    (h2 : hi ≤ gapEnd ws) : SilentAfter lo hi (pre ++ w :: ws) (pre.length + 1) := by
  refine ⟨by omega, ⟨w, ?_, h1⟩, ?_⟩
  · rw [Nat.add_sub_cancel, List.getElem?_append_right (Nat.le_refl _)]
    simp
  · intro v hv
    rw [List.getElem?_append_right (by omega), show pre.length + 1 - pre.length = 1 by omega, List.getElem?_cons_succ] at hv
    cases ws with
    | nil => simp at hv
    | cons x xs =>
      rw [List.getElem?_cons_zero, Option.some.injEq] at hv
      rw [← hv]; exact h2

theorem gapSearch_spec (mb me : Rat) : ∀ (ws pre : List Word) (c : Nat) (lo hi : Rat),
    gapSearch mb me pre.length ws = some (c, lo, hi) →
      c ≤ (pre ++ ws).length ∧ SilentAfter lo hi (pre ++ ws) c ∧ mb ≤ lo ∧ hi ≤ me ∧ lo < hi
  | [], pre, c, lo, hi, h => by unfold gapSearch at h; cases h
  | w :: ws, pre, c, lo, hi, h => by
    unfold gapSearch at h
    simp only at h
    by_cases ho : overlap mb me (w.t1 + w.dur) (gapEnd ws) > 0
    · rw [if_pos ho] at h
      simp only [Option.some.injEq, Prod.mk.injEq] at h
      obtain ⟨e1, e2, e3⟩ := h
      have l1 : w.t1 + w.dur ≤ lo ∧ mb ≤ lo := by
        rw [← e2]; split <;> constructor <;> grind
      have l2 : hi ≤ gapEnd ws ∧ hi ≤ me := by
        rw [← e3]; split <;> constructor <;> grind
      have l3 : lo < hi := by
        unfold overlap at ho
        rw [← e2, ← e3]
        grind
      refine ⟨by rw [← e1]; simp, ?_, l1.2, l2.2, l3⟩
      rw [← e1]
      exact gap_step pre w ws lo hi l1.1 l2.1
    · rw [if_neg ho] at h
      have := gapSearch_spec mb me ws (pre ++ [w]) c lo hi (by simpa using h)
      simpa using this

theorem gapAt_spec (mb me : Rat) (hm : mb < me) (ws : List Word) (c : Nat) (lo hi : Rat) (h : gapAt mb me ws = some (c, lo, hi)) :
    mb ≤ lo ∧ hi ≤ me ∧ lo < hi ∧ (ws = [] → c = 1) ∧ (ws ≠ [] → c ≤ ws.length ∧ SilentAfter lo hi ws c) := by
  unfold gapAt at h
  by_cases hw : ws = []
  · rw [if_pos hw] at h
    simp only [Option.some.injEq, Prod.mk.injEq] at h
    obtain ⟨e1, e2, e3⟩ := h
    exact ⟨by grind, by grind, by grind, fun _ => e1.symm, fun hh => absurd hw hh⟩
  · rw [if_neg hw] at h
    have := gapSearch_spec mb me ws [] c lo hi h
    simp only [List.nil_append] at this
    exact ⟨this.2.2.1, this.2.2.2.1, this.2.2.2.2, fun hh => absurd hh hw, fun _ => ⟨this.1, this.2.1⟩⟩

/-- What holds of a system's part of a chunk ending in a silence. -/
def Part (lo hi : Rat) (ws : List Word) (c : Nat) : Prop :=
  (ws = [] → c = 1) ∧ (ws ≠ [] → c ≤ ws.length ∧ SilentAfter lo hi ws c)

theorem gapAll_spec : ∀ (others : List (List Word)) (mb me : Rat) (cs : List Nat), mb < me →
    gapAll mb me others = some cs → ∃ lo hi, mb ≤ lo ∧ hi ≤ me ∧ lo < hi ∧ cs.length = others.length ∧
      ∀ (i : Nat) (ws : List Word) (c : Nat), others[i]? = some ws → cs[i]? = some c → Part lo hi ws c
  | [], mb, me, cs, hm, h => by
    unfold gapAll at h; cases h
    exact ⟨mb, me, by grind, by grind, hm, rfl, by intro i ws c h; simp at h⟩
  | ws :: rest, mb, me, cs, hm, h => by
    unfold gapAll at h
    cases hg : gapAt mb me ws with
    | none => rw [hg] at h; cases h
    | some x =>
      obtain ⟨c, lo1, hi1⟩ := x
      rw [hg] at h
      simp only [Option.map_eq_some_iff] at h
      obtain ⟨cs', h1, h2⟩ := h
      obtain ⟨a1, a2, a3, a4, a5⟩ := gapAt_spec mb me hm ws c lo1 hi1 hg
      obtain ⟨lo, hi, b1, b2, b3, b4, b5⟩ := gapAll_spec rest lo1 hi1 cs' a3 h1
      subst h2
      refine ⟨lo, hi, by grind, by grind, b3, by simp [b4], ?_⟩
      intro i ws' c' hw hc
      cases i with
      | zero =>
        simp only [List.getElem?_cons_zero, Option.some.injEq] at hw hc
        subst hw hc
        exact ⟨a4, fun hne => ⟨(a5 hne).1, (a5 hne).2.narrow b1 b2⟩⟩
      | succ i =>
        simp only [List.getElem?_cons_succ] at hw hc
        exact b5 i ws' c' hw hc

theorem findCommon_spec (dur : Rat) (hd : 0 ≤ dur) (others : List (List Word)) : ∀ (ws pre : List Word) (cs : List Nat),
    findCommon dur others pre.length ws = some cs → ∃ lo hi, lo < hi ∧ cs.length = others.length + 1 ∧
      (∀ (i : Nat) (l : List Word) (c : Nat), ((pre ++ ws) :: others)[i]? = some l → cs[i]? = some c → Part lo hi l c) ∧
      ∃ c0 w, cs[0]? = some c0 ∧ (pre ++ ws)[c0 - 1]? = some w ∧ ∀ v, (pre ++ ws)[c0]? = some v → w.t1 + w.dur + dur < v.t1
  | [], pre, cs, h => by unfold findCommon at h; cases h
  | w :: ws, pre, cs, h => by
    unfold findCommon at h
    simp only at h
    have next : findCommon dur others (pre.length + 1) ws = some cs → ∃ lo hi, lo < hi ∧ cs.length = others.length + 1 ∧
      (∀ (i : Nat) (l : List Word) (c : Nat), ((pre ++ w :: ws) :: others)[i]? = some l → cs[i]? = some c → Part lo hi l c) ∧
      ∃ c0 x, cs[0]? = some c0 ∧ (pre ++ w :: ws)[c0 - 1]? = some x ∧ ∀ v, (pre ++ w :: ws)[c0]? = some v → x.t1 + x.dur + dur < v.t1 := by
      intro h
      have := findCommon_spec dur hd others ws (pre ++ [w]) cs (by simpa using h)
      simpa only [List.append_assoc, List.singleton_append] using this
    by_cases hg : gapEnd ws > w.t1 + w.dur + dur
    · rw [if_pos hg] at h
      cases ha : gapAll (w.t1 + w.dur) (gapEnd ws) others with
      | none => rw [ha] at h; exact next h
      | some cs' =>
        rw [ha] at h
        simp only [Option.some.injEq] at h
        subst h
        obtain ⟨lo, hi, b1, b2, b3, b4, b5⟩ := gapAll_spec others _ _ cs' (by grind) ha
        have hself := gap_step pre w ws lo hi b1 b2
        refine ⟨lo, hi, b3, by simp [b4], ?_, pre.length + 1, w, rfl, ?_, ?_⟩
        · intro i l c hl hc
          cases i with
          | zero =>
            simp only [List.getElem?_cons_zero, Option.some.injEq] at hl hc
            subst hl hc
            exact ⟨fun hh => by simp at hh, fun _ => ⟨by simp, hself⟩⟩
          | succ i =>
            simp only [List.getElem?_cons_succ] at hl hc
            exact b5 i l c hl hc
        · rw [Nat.add_sub_cancel, List.getElem?_append_right (Nat.le_refl _)]
          simp
        · intro v hv
          rw [List.getElem?_append_right (by omega), show pre.length + 1 - pre.length = 1 by omega,
            List.getElem?_cons_succ] at hv
          cases ws with
          | nil => simp at hv
          | cons x xs =>
            rw [List.getElem?_cons_zero, Option.some.injEq] at hv
            rw [← hv]; exact hg
    · rw [if_neg hg] at h; exact next h

/-- The counts of a chunk. -/
def Counts (l : List (List Word)) (cs : List Nat) : Prop :=
  cs.length = l.length ∧ ∀ (i : Nat) (ws : List Word) (c : Nat), l[i]? = some ws → cs[i]? = some c →
    (ws = [] → c ≤ 1) ∧ (ws ≠ [] → 1 ≤ c ∧ c ≤ ws.length)

theorem findSilence_counts (dur : Rat) (hd : 0 ≤ dur) (l : List (List Word)) (cs : List Nat) (h : findSilence dur l = some cs) :
    Counts l cs ∧ ∃ (i : Nat) (ws : List Word), l[i]? = some ws ∧ ws ≠ [] := by
  unfold findSilence at h
  cases l with
  | nil => cases h
  | cons m others =>
    simp only at h
    cases hf : findCommon dur others 0 m with
    | some x =>
      rw [hf] at h
      simp only [Option.some.injEq] at h
      subst h
      obtain ⟨lo, hi, _, a, b, _⟩ := findCommon_spec dur hd others m [] x hf
      simp only [List.nil_append] at b
      refine ⟨⟨by simpa using a, ?_⟩, 0, m, rfl, ?_⟩
      · intro i ws c h1 h2
        have := b i ws c h1 h2
        refine ⟨fun hh => by rw [this.1 hh]; omega, fun hh => ⟨(this.2 hh).2.1, (this.2 hh).1⟩⟩
      · intro hm; subst hm; unfold findCommon at hf; cases hf
    | none =>
      rw [hf] at h
      simp only at h
      by_cases ha : ((m :: others).any (fun ws => !ws.isEmpty)) = true
      · rw [if_pos ha] at h
        simp only [Option.some.injEq] at h
        subst h
        refine ⟨⟨by simp, ?_⟩, ?_⟩
        · intro i ws c h1 h2
          rw [List.getElem?_map, h1] at h2
          simp only [Option.map_some, Option.some.injEq] at h2
          subst h2
          exact ⟨fun hh => by simp [hh], fun hh => ⟨List.length_pos_iff.mpr hh, Nat.le_refl _⟩⟩
        · obtain ⟨ws, h1, h2⟩ := List.any_eq_true.mp ha
          obtain ⟨i, hi⟩ := List.getElem?_of_mem h1
          refine ⟨i, ws, hi, ?_⟩
          intro hh; rw [hh] at h2; simp at h2
      · rw [if_neg ha] at h; cases h

theorem findSilence_none (dur : Rat) (l : List (List Word)) (h : findSilence dur l = none) : ∀ ws ∈ l, ws = [] := by
  unfold findSilence at h
  cases l with
  | nil => intro ws hw; simp at hw
  | cons m others =>
    simp only at h
    cases hf : findCommon dur others 0 m with
    | some x => rw [hf] at h; cases h
    | none =>
      rw [hf] at h
      simp only at h
      by_cases ha : ((m :: others).any (fun ws => !ws.isEmpty)) = true
      · rw [if_pos ha] at h; cases h
      · intro ws hw
        apply Classical.byContradiction
        intro hne
        apply ha
        rw [List.any_eq_true]
        refine ⟨ws, hw, ?_⟩
        cases ws with
        | nil => exact absurd rfl hne
        | cons => rfl

end Verif.Mfa
