import Verif.Det.Lemmas
/-!
# Lemmas on bins
-/
set_option autoImplicit false
namespace Verif.Det

theorem bin_neg (nbin : Nat) (hb : 0 < nbin) (c : Rat) (hc : c < 0) (i : Nat) : bin nbin c = some i ↔ i = 0 ∧ -1 < c * nbin := by
  have hbq : (0 : Rat) < nbin := by exact_mod_cast hb
  have hd : c * nbin < 0 := by
    have := Rat.mul_lt_mul_of_pos_right hc hbq
    rwa [Rat.zero_mul] at this
  unfold bin
  dsimp only
  have ht : trunc (c * nbin) = -(-(c * nbin)).floor := by unfold trunc; rw [if_pos hd]
  have hf : 0 ≤ (-(c * nbin)).floor := by
    have : ¬ (-(c * nbin)).floor < 0 := by rw [Rat.floor_lt_iff]; exact Rat.not_lt.2 (by grind)
    omega
  have hz : (-(c * nbin)).floor = 0 ↔ -1 < c * nbin := by
    rw [floor_eq_iff]
    constructor
    · rintro ⟨_, h⟩
      have h : -(c * nbin) < 0 + 1 := by exact_mod_cast h
      grind
    · intro h
      refine ⟨?_, ?_⟩
      · have : (0 : Rat) ≤ -(c * nbin) := by grind
        exact_mod_cast this
      · have : -(c * nbin) < 0 + 1 := by grind
        exact_mod_cast this
  rw [ht]
  have hno : ¬ (c * nbin ≤ nbin ∧ -(-(c * nbin)).floor = (nbin : Int)) := fun h => by omega
  rw [if_neg hno]
  by_cases h0 : (-(c * nbin)).floor = 0
  · rw [h0, if_neg (by omega)]
    constructor
    · intro h
      exact ⟨(Option.some.inj h).symm, hz.1 h0⟩
    · rintro ⟨rfl, _⟩; rfl
  · rw [if_pos (by omega)]
    constructor
    · intro h; cases h
    · rintro ⟨_, h⟩; exact absurd (hz.2 h) h0

/-- The words of bin `i`, those that are correct or those that are not. -/
def inBin (n i : Nat) (ok : Bool) (w : Rat × Bool) : Bool := decide (bin n w.1 = some i ∧ w.2 = ok)

theorem fold_add (n : Nat) : ∀ (ws : List (Rat × Bool)) (h : Hist), h.bins.length = n →
    (ws.foldl Hist.add h).bins.length = n ∧ (ws.foldl Hist.add h).errors = h.errors + ws.countP (fun w => decide (bin n w.1 = none)) ∧
    ∀ (i : Nat) (c : Nat × Nat), h.bins[i]? = some c →
      (ws.foldl Hist.add h).bins[i]? = some (c.1 + ws.countP (inBin n i true), c.2 + ws.countP (inBin n i false)) := by
  intro ws
  induction ws with
  | nil => intro h hl; exact ⟨hl, rfl, fun i c hc => hc⟩
  | cons w ws ih =>
    intro h hl
    rw [List.foldl_cons]
    have hadd : (h.add w).bins.length = n ∧ (h.add w).errors = h.errors + (if bin n w.1 = none then 1 else 0) ∧
        ∀ (i : Nat) (c : Nat × Nat), h.bins[i]? = some c →
          (h.add w).bins[i]? = some (c.1 + (if inBin n i true w = true then 1 else 0), c.2 + (if inBin n i false w = true then 1 else 0)) := by
      unfold Hist.add
      rw [hl]
      cases hb : bin n w.1 with
      | none =>
        refine ⟨hl, rfl, ?_⟩
        intro i c hc
        have h1 : ∀ ok, inBin n i ok w = false := fun ok => decide_eq_false (fun h => by rw [hb] at h; cases h.1)
        rw [h1, h1]
        exact hc
      | some j =>
        refine ⟨by simp [hl], rfl, ?_⟩
        intro i c hc
        show (h.bins.modify j _)[i]? = _
        rw [List.getElem?_modify, hc]
        by_cases hij : j = i
        · subst hij
          cases hw : w.2 with
          | true =>
            have h1 : inBin n j true w = true := decide_eq_true ⟨hb, hw⟩
            have h2 : inBin n j false w = false := decide_eq_false (fun h => by rw [hw] at h; cases h.2)
            simp [h1, h2]
          | false =>
            have h1 : inBin n j false w = true := decide_eq_true ⟨hb, hw⟩
            have h2 : inBin n j true w = false := decide_eq_false (fun h => by rw [hw] at h; cases h.2)
            simp [h1, h2]
        · have h1 : ∀ ok, inBin n i ok w = false := fun ok => decide_eq_false (fun h => by
            rw [hb] at h
            exact hij (Option.some.inj h.1))
          rw [h1, h1]
          simp [hij]
    obtain ⟨i1, i2, i3⟩ := ih (h.add w) hadd.1
    refine ⟨i1, ?_, ?_⟩
    · rw [i2, hadd.2.1, List.countP_cons]
      by_cases hb : bin n w.1 = none
      · rw [if_pos hb, if_pos (decide_eq_true hb)]; omega
      · rw [if_neg hb, if_neg (by simpa using hb)]; omega
    · intro i c hc
      rw [i3 i _ (hadd.2.2 i c hc), List.countP_cons, List.countP_cons]
      congr 1
      apply Prod.ext <;> dsimp only <;> omega

/-! ## Bins of equal numbers of words -/

theorem chunk_ok (g : List (Rat × Bool)) (hne : g ≠ []) (hr : ∀ w ∈ g, -999999 / 10 ≤ w.1 ∧ w.1 ≤ 99999) : Describes (chunk g) g := by
  have key : ∀ (g : List (Rat × Bool)) (k : Chunk),
      let k' := g.foldl (fun k w => (⟨if w.2 then k.corr + 1 else k.corr, if w.2 then k.err else k.err + 1, if w.1 < k.min then w.1 else k.min,
        if k.max < w.1 then w.1 else k.max⟩ : Chunk)) k
      k'.corr = k.corr + g.countP (·.2) ∧ k'.err = k.err + g.countP (!·.2) ∧
      (k'.min ≤ k.min ∧ (∀ w ∈ g, k'.min ≤ w.1) ∧ (k'.min = k.min ∨ ∃ w ∈ g, k'.min = w.1)) ∧
      (k.max ≤ k'.max ∧ (∀ w ∈ g, w.1 ≤ k'.max) ∧ (k'.max = k.max ∨ ∃ w ∈ g, k'.max = w.1)) := by
    intro g
    induction g with
    | nil => intro k; exact ⟨rfl, rfl, ⟨Rat.le_refl, nofun, Or.inl rfl⟩, Rat.le_refl, nofun, Or.inl rfl⟩
    | cons w g ih =>
      intro k
      rw [List.foldl_cons]
      obtain ⟨a1, a2, ⟨a3, a4, a5⟩, a6, a7, a8⟩ := ih (⟨if w.2 then k.corr + 1 else k.corr, if w.2 then k.err else k.err + 1, if w.1 < k.min then w.1 else k.min,
        if k.max < w.1 then w.1 else k.max⟩ : Chunk)
      dsimp only at a1 a2 a3 a4 a5 a6 a7 a8 ⊢
      generalize List.foldl _ _ g = k' at a1 a2 a3 a4 a5 a6 a7 a8 ⊢
      have hmin : k'.min ≤ k.min ∧ k'.min ≤ w.1 := by
        by_cases h : w.1 < k.min
        · rw [if_pos h] at a3; exact ⟨Rat.le_trans a3 (Rat.le_of_lt h), a3⟩
        · rw [if_neg h] at a3; exact ⟨a3, Rat.le_trans a3 (Rat.not_lt.1 h)⟩
      have hmax : k.max ≤ k'.max ∧ w.1 ≤ k'.max := by
        by_cases h : k.max < w.1
        · rw [if_pos h] at a6; exact ⟨Rat.le_trans (Rat.le_of_lt h) a6, a6⟩
        · rw [if_neg h] at a6; exact ⟨a6, Rat.le_trans (Rat.not_lt.1 h) a6⟩
      refine ⟨?_, ?_, ⟨hmin.1, ?_, ?_⟩, hmax.1, ?_, ?_⟩
      · rw [a1, List.countP_cons]; cases w.2 <;> simp <;> omega
      · rw [a2, List.countP_cons]; cases w.2 <;> simp <;> omega
      · intro v hv
        rcases List.mem_cons.1 hv with rfl | hv
        · exact hmin.2
        · exact a4 v hv
      · rcases a5 with h | ⟨v, hv, h⟩
        · by_cases hlt : w.1 < k.min
          · rw [if_pos hlt] at h; exact Or.inr ⟨w, List.mem_cons_self, h⟩
          · rw [if_neg hlt] at h; exact Or.inl h
        · exact Or.inr ⟨v, List.mem_cons_of_mem _ hv, h⟩
      · intro v hv
        rcases List.mem_cons.1 hv with rfl | hv
        · exact hmax.2
        · exact a7 v hv
      · rcases a8 with h | ⟨v, hv, h⟩
        · by_cases hlt : k.max < w.1
          · rw [if_pos hlt] at h; exact Or.inr ⟨w, List.mem_cons_self, h⟩
          · rw [if_neg hlt] at h; exact Or.inl h
        · exact Or.inr ⟨v, List.mem_cons_of_mem _ hv, h⟩
  obtain ⟨a1, a2, ⟨a3, a4, a5⟩, a6, a7, a8⟩ := key g ⟨0, 0, 99999, -999999 / 10⟩
  refine ⟨by unfold chunk; rw [a1]; simp, by unfold chunk; rw [a2]; simp, ⟨a4, ?_⟩, a7, ?_⟩
  · rcases a5 with h | h
    · cases g with
      | nil => exact absurd rfl hne
      | cons w g =>
        refine ⟨w, List.mem_cons_self, ?_⟩
        have h1 := a4 w List.mem_cons_self
        have h2 := (hr w List.mem_cons_self).2
        unfold chunk
        rw [h] at h1 ⊢
        exact Rat.le_antisymm h1 h2
    · exact h
  · rcases a8 with h | h
    · cases g with
      | nil => exact absurd rfl hne
      | cons w g =>
        refine ⟨w, List.mem_cons_self, ?_⟩
        have h1 := a7 w List.mem_cons_self
        have h2 := (hr w List.mem_cons_self).1
        unfold chunk
        rw [h] at h1 ⊢
        exact Rat.le_antisymm h2 h1
    · exact h

theorem chunkLoop_ok (ws : List (Rat × Bool)) (step : Nat) (hs : 0 < step) : ∀ (fuel l b : Nat), ws.length < fuel + l → l < ws.length →
    (b = l + step ∧ l + 2 * step ≤ ws.length ∨ b = ws.length ∧ l + step ≤ ws.length ∧ ws.length < l + 2 * step) →
    ∃ gs : List (List (Rat × Bool)), chunkLoop ws step fuel l b = some (gs.map chunk) ∧ gs.flatten = ws.drop l ∧ gs.length = (ws.length - l) / step ∧
      ∀ (i : Nat) (g : List (Rat × Bool)), gs[i]? = some g → step ≤ g.length ∧ g.length < 2 * step ∧ (i + 1 < gs.length → g.length = step) := by
  intro fuel
  induction fuel with
  | zero => intro l b h1 h2; omega
  | succ fuel ih =>
    intro l b h1 h2 h3
    have hlb : l < b := by omega
    have hb : b ≤ ws.length := by omega
    rw [chunkLoop, if_pos ⟨hlb, h2⟩, if_pos hb]
    dsimp only
    have hlen : ((ws.drop l).take (b - l)).length = b - l := by simp; omega
    by_cases hend : b = ws.length
    · have hstop : ∀ x, chunkLoop ws step fuel b x = some [] := by
        intro x
        cases fuel with
        | zero => omega
        | succ fuel => rw [chunkLoop, if_neg (by omega)]
      rw [hstop]
      refine ⟨[(ws.drop l).take (b - l)], rfl, ?_, ?_, ?_⟩
      · rw [List.flatten_cons, List.flatten_nil, List.append_nil, List.take_of_length_le (by simp; omega)]
      · rw [List.length_singleton]
        symm
        rw [Nat.div_eq_iff hs]
        constructor <;> omega
      · intro i g hg
        cases i with
        | zero =>
          have : (ws.drop l).take (b - l) = g := by simpa using hg
          subst this
          rw [hlen]
          refine ⟨by omega, by omega, fun h => ?_⟩
          simp at h
        | succ i => simp at hg
    · obtain ⟨hb1, hb2⟩ : b = l + step ∧ l + 2 * step ≤ ws.length := by omega
      obtain ⟨gs, e1, e2, e3, e4⟩ := ih b (if ws.length < b + step + step then ws.length else b + step) (by omega) (by omega) (by
        by_cases h : ws.length < b + step + step
        · rw [if_pos h]; right; omega
        · rw [if_neg h]; left; omega)
      rw [e1]
      have hdiv : (ws.length - l) / step = (ws.length - b) / step + 1 := by
        rw [show ws.length - l = (ws.length - b) + step by omega, Nat.add_div_right _ hs]
      have hne : 0 < (ws.length - b) / step := Nat.div_pos (by omega) hs
      refine ⟨(ws.drop l).take (b - l) :: gs, rfl, ?_, by rw [List.length_cons, e3, hdiv], ?_⟩
      · rw [List.flatten_cons, e2, show ws.drop b = (ws.drop l).drop (b - l) by rw [List.drop_drop]; congr 1; omega, List.take_append_drop]
      · intro i g hg
        cases i with
        | zero =>
          have : (ws.drop l).take (b - l) = g := by simpa using hg
          subst this
          rw [hlen]
          exact ⟨by omega, by omega, fun _ => by omega⟩
        | succ i =>
          obtain ⟨a1, a2, a3⟩ := e4 i g (by simpa using hg)
          exact ⟨a1, a2, fun h => a3 (by simpa using h)⟩

end Verif.Det
