import Verif.Weigh.Spec
import Verif.Text.Props
import Verif.Lines.Props
import Verif.CtmIn.Run
import Verif.Rfilter.Parse
import Verif.Rfilter.File
/-!
# Lemmas on word weight lists
-/
set_option autoImplicit false
namespace Verif.Weigh
open Verif.Text

theorem key_at {t : Wwl} {i : Nat} {s : List Nat × Int} (h : t.words[i]? = some s) : (t.words.map Prod.fst)[i]? = some s.1 := by
  rw [List.getElem?_map, h]
  rfl

theorem search_ok (e : Enc) (key : List Nat) (t : Wwl) (hk : Valid e key) (ht : Sorted e t) (fuel : Nat) (low high : Int)
    (h0 : 0 ≤ low) (hh : high < t.words.length) (hf : high - low + 1 < fuel) (hlh : low ≤ high)
    (hlo : ∀ (i : Nat) (s : List Nat × Int), (i : Int) < low → t.words[i]? = some s → s.1 ≠ key)
    (hhi : ∀ (i : Nat) (s : List Nat × Int), high < (i : Int) → t.words[i]? = some s → s.1 ≠ key) :
    ∃ v, search e key t fuel low high = some v ∧ Gives t key v := by
  induction fuel generalizing low high with
  | zero => omega
  | succ fuel ih =>
    have hmid : (low + high).tdiv 2 = (low + high) / 2 := Int.tdiv_eq_ediv_of_nonneg (by omega)
    have hm1 : low ≤ (low + high) / 2 := by omega
    have hm2 : (low + high) / 2 ≤ high := by omega
    unfold search
    simp only [hmid]
    rw [if_pos (by omega)]
    generalize (low + high) / 2 = mid at hm1 hm2 ⊢
    obtain ⟨k, hk'⟩ : ∃ k : Nat, mid = (k : Int) := ⟨mid.toNat, by omega⟩
    subst hk'
    have hkl : k < t.words.length := by omega
    have hx : t.words[k]? = some t.words[k] := List.getElem?_eq_getElem hkl
    simp only [Int.toNat_natCast, hx]
    generalize hs : t.words[k] = s at hx
    have hsm : s ∈ t.words := List.mem_of_getElem? hx
    have hsv := ht.1 s hsm
    obtain ⟨r, hr⟩ := strcmp_defined e key s.1 hk hsv
    have hr' := strcmp_antisymm e key s.1 hk hsv r hr
    simp only [hr]
    by_cases hr0 : r = 0
    · subst hr0
      rw [if_pos rfl]
      refine ⟨s.2, rfl, Or.inl ?_⟩
      have := (strcmp_zero_iff e key s.1 hk hsv).1 hr
      rw [this]
      exact hsm
    · rw [if_neg hr0]
      have hsk : s.1 ≠ key := by
        intro h
        rw [h, (strcmp_zero_iff e key key hk hk).2 rfl] at hr
        injection hr with hr
        omega
      have hnone : ∀ (l h : Int), ¬ l ≤ h → (∀ (i : Nat) (s : List Nat × Int), (i : Int) < l → t.words[i]? = some s → s.1 ≠ key) →
          (∀ (i : Nat) (s : List Nat × Int), h < (i : Int) → t.words[i]? = some s → s.1 ≠ key) → Gives t key t.dflt := by
        intro l h hlh a1 a2
        refine Or.inr ⟨?_, rfl⟩
        intro p hp
        obtain ⟨i, hi⟩ := List.getElem?_of_mem hp
        by_cases hi' : (i : Int) < l
        · exact a1 i p hi' hi
        · exact a2 i p (by omega) hi
      by_cases hneg : r < 0
      · simp only [if_pos hneg]
        have hhi' : ∀ (i : Nat) (s : List Nat × Int), (k : Int) - 1 < (i : Int) → t.words[i]? = some s → s.1 ≠ key := by
          intro i s' hi hi' hke
          by_cases hik : i = k
          · subst hik
            rw [hx] at hi'
            injection hi' with hi'
            exact hsk (hi' ▸ hke)
          · obtain ⟨v, hv1, hv2⟩ := ht.2 k i s.1 s'.1 (by omega) (key_at hx) (key_at hi')
            rw [hke, hr'] at hv1
            injection hv1 with hv1
            omega
        by_cases hc : low ≤ (k : Int) - 1
        · rw [if_pos hc]
          exact ih low (k - 1) h0 (by omega) (by omega) hc hlo hhi'
        · rw [if_neg hc]
          exact ⟨_, rfl, hnone _ _ hc hlo hhi'⟩
      · simp only [if_neg hneg]
        have hlo' : ∀ (i : Nat) (s : List Nat × Int), (i : Int) < k + 1 → t.words[i]? = some s → s.1 ≠ key := by
          intro i s' hi hi' hke
          by_cases hik : i = k
          · subst hik
            rw [hx] at hi'
            injection hi' with hi'
            exact hsk (hi' ▸ hke)
          · obtain ⟨v, hv1, hv2⟩ := ht.2 i k s'.1 s.1 (by omega) (key_at hi') (key_at hx)
            rw [hke, hr] at hv1
            injection hv1 with hv1
            omega
        by_cases hc : (k : Int) + 1 ≤ high
        · rw [if_pos hc]
          exact ih (k + 1) high (by omega) hh (by omega) hc hlo' hhi
        · rw [if_neg hc]
          exact ⟨_, rfl, hnone _ _ hc hlo' hhi⟩

theorem getWeight_ok (e : Enc) (key : List Nat) (t : Wwl) (hk : Valid e key) (ht : Sorted e t) :
    ∃ v, getWeight e t key = some v ∧ Gives t key v := by
  unfold getWeight
  by_cases hemp : t.words = []
  · refine ⟨t.dflt, ?_, Or.inr ⟨by rw [hemp]; exact fun p hp => (List.not_mem_nil hp).elim, rfl⟩⟩
    rw [hemp]
    unfold search
    simp [hemp]
  · have hp : 0 < t.words.length := List.length_pos_iff.2 hemp
    refine search_ok e key t hk ht _ 0 _ (by omega) (by omega) (by omega) (by omega) (fun i s h => by omega) ?_
    intro i s h hi
    rw [List.getElem?_eq_none (by omega)] at hi
    cases hi

end Verif.Weigh
