import Verif.Detail.Spec
import Verif.Text.Props
/-!
# The order of texts, searching and inserting
-/
set_option autoImplicit false
namespace Verif.Detail
open Verif.Text

theorem Lt.trans {e : Enc} {x y z : List Nat} (hx : Valid e x) (hy : Valid e y) (hz : Valid e z) (h1 : Lt e x y) (h2 : Lt e y z) :
    Lt e x z := by
  obtain ⟨r, h1, hr⟩ := h1
  obtain ⟨s, h2, hs⟩ := h2
  obtain ⟨v, h3, hv⟩ := strcmp_trans e x y z hx hy hz r s h1 h2 (by omega) (by omega)
  refine ⟨v, h3, ?_⟩
  by_cases h0 : v = 0
  · rw [h0] at h3
    have := (strcmp_zero_iff e x z hx hz).1 h3
    subst this
    have h4 := strcmp_antisymm e x y hx hy r h1
    rw [h4] at h2
    cases h2
    omega
  · omega

theorem Lt.irrefl {e : Enc} {x : List Nat} (hx : Valid e x) (h : Lt e x x) : False := by
  obtain ⟨r, h1, h2⟩ := h
  rw [(strcmp_zero_iff e x x hx hx).2 rfl] at h1
  cases h1
  omega

/-- The texts in their order. -/
def texts (lex : Lex) : List (List Nat) := lex.sort.map fun i => lex.str.getD i []

structure Ok (e : Enc) (lex : Lex) : Prop where
  perm : lex.sort.Perm (List.range lex.str.length)
  clen : lex.cnt.length = lex.str.length
  max : lex.str.length < lex.max
  valid : ∀ s ∈ lex.str, Valid e s
  sorted : (texts lex).Pairwise (Lt e)

theorem map_getD_range (l : List (List Nat)) : (List.range l.length).map (fun i => l.getD i []) = l := by
  apply List.ext_getElem?
  intro i
  rw [List.getElem?_map]
  by_cases h : i < l.length
  · rw [List.getElem?_range h, List.getElem?_eq_getElem h]
    simp [h]
  · rw [List.getElem?_eq_none (by simp; omega), List.getElem?_eq_none (by omega)]
    rfl

theorem Ok.texts_perm {e : Enc} {lex : Lex} (h : Ok e lex) : (texts lex).Perm lex.str := by
  have := h.perm.map fun i => lex.str.getD i []
  rw [map_getD_range] at this
  exact this

theorem Ok.texts_len {e : Enc} {lex : Lex} (h : Ok e lex) : (texts lex).length = lex.str.length := h.texts_perm.length_eq
theorem Ok.sort_len {e : Enc} {lex : Lex} (h : Ok e lex) : lex.sort.length = lex.str.length := by
  have := h.perm.length_eq; simpa using this

theorem Ok.texts_valid {e : Enc} {lex : Lex} (h : Ok e lex) : ∀ s ∈ texts lex, Valid e s :=
  fun s hs => h.valid s (h.texts_perm.mem_iff.1 hs)

theorem Ok.lt {e : Enc} {lex : Lex} (h : Ok e lex) {i : Nat} (hi : i ∈ lex.sort) : i < lex.str.length :=
  List.mem_range.1 (h.perm.mem_iff.1 hi)

theorem Ok.nodup {e : Enc} {lex : Lex} (h : Ok e lex) : lex.str.Nodup := by
  rw [← h.texts_perm.nodup_iff]
  refine List.Pairwise.imp_of_mem ?_ h.sorted
  intro a b ha _ hab he
  subst he
  exact hab.irrefl (h.texts_valid a ha)

theorem Ok.sort_nodup {e : Enc} {lex : Lex} (h : Ok e lex) : lex.sort.Nodup := h.perm.nodup_iff.2 List.nodup_range

/-- Reading a text through the order. -/
theorem Ok.read {e : Enc} {lex : Lex} (h : Ok e lex) (i : Nat) (hi : i < lex.str.length) :
    ∃ s, (lex.sort[i]?).bind (fun k => lex.str[k]?) = some s ∧ (texts lex)[i]? = some s := by
  have hl : i < lex.sort.length := by rw [h.sort_len]; exact hi
  have hk := h.lt (List.getElem_mem hl)
  refine ⟨lex.str[lex.sort[i]], ?_, ?_⟩
  · rw [List.getElem?_eq_getElem hl]
    simp only [Option.bind_some]
    rw [List.getElem?_eq_getElem hk]
  · unfold texts
    rw [List.getElem?_map, List.getElem?_eq_getElem hl]
    simp [hk]

theorem searchLoop_ok {e : Enc} {lex : Lex} (h : Ok e lex) {w : List Nat} (hw : Valid e w) :
    ∀ (fuel : Nat) (low high : Int), 0 ≤ low → low ≤ high → high < lex.str.length → high - low < fuel →
      (∀ (k : Nat) (x : List Nat), (k : Int) < low → (texts lex)[k]? = some x → Lt e x w) →
      (∀ (k : Nat) (x : List Nat), high < (k : Int) → (texts lex)[k]? = some x → Lt e w x) →
      ∃ b i, searchLoop e lex w fuel low high = some (b, i) ∧ (b = true → (texts lex)[i]? = some w) ∧
        (b = false → i ≤ lex.str.length ∧ (∀ (k : Nat) (x : List Nat), k < i → (texts lex)[k]? = some x → Lt e x w) ∧
          (∀ (k : Nat) (x : List Nat), i ≤ k → (texts lex)[k]? = some x → Lt e w x)) := by
  intro fuel
  induction fuel with
  | zero => intro low high h1 h2 h3 h4; omega
  | succ fuel ih =>
    intro low high h0 hlh hn hf hlo hhi
    have hm1 : low ≤ (low + high).tdiv 2 := by rw [Int.tdiv_eq_ediv_of_nonneg (by omega)]; omega
    have hm2 : (low + high).tdiv 2 ≤ high := by rw [Int.tdiv_eq_ediv_of_nonneg (by omega)]; omega
    unfold searchLoop
    dsimp only
    generalize hmid : (low + high).tdiv 2 = mid at hm1 hm2
    obtain ⟨s, hs1, hs2⟩ := h.read mid.toNat (by omega)
    have hsv : Valid e s := h.texts_valid s (List.mem_of_getElem? hs2)
    rw [hs1]
    dsimp only
    obtain ⟨r, hr⟩ := strcmp_defined e w s hw hsv
    rw [hr]
    dsimp only
    have hpair : ∀ (i j : Nat) (x y : List Nat), i < j → (texts lex)[i]? = some x → (texts lex)[j]? = some y → Lt e x y := by
      intro i j x y hij hx hy
      obtain ⟨hi, rfl⟩ := List.getElem?_eq_some_iff.1 hx
      obtain ⟨hj, rfl⟩ := List.getElem?_eq_some_iff.1 hy
      exact List.pairwise_iff_getElem.1 h.sorted i j hi hj hij
    by_cases hr0 : r = 0
    · rw [if_pos hr0]
      rw [hr0] at hr
      have := (strcmp_zero_iff e w s hw hsv).1 hr
      subst this
      exact ⟨true, _, rfl, fun _ => hs2, nofun⟩
    · rw [if_neg hr0]
      by_cases hneg : r < 0
      · rw [if_pos hneg, if_pos hneg]
        have hhi' : ∀ (k : Nat) (x : List Nat), mid - 1 < (k : Int) → (texts lex)[k]? = some x → Lt e w x := by
          intro k x hk hx
          by_cases hkm : k = mid.toNat
          · subst hkm; rw [hs2] at hx; cases hx; exact ⟨r, hr, hneg⟩
          · exact Lt.trans hw hsv (h.texts_valid x (List.mem_of_getElem? hx)) ⟨r, hr, hneg⟩
              (hpair _ _ _ _ (by omega) hs2 hx)
        by_cases hle : low ≤ mid - 1
        · rw [if_pos hle]
          exact ih low (mid - 1) h0 hle (by omega) (by omega) hlo hhi'
        · rw [if_neg hle]
          refine ⟨false, _, rfl, nofun, fun _ => ⟨by omega, ?_, ?_⟩⟩
          · intro k x hk; exact hlo k x (by omega)
          · intro k x hk; exact hhi' k x (by omega)
      · rw [if_neg hneg, if_neg hneg]
        have hsw : Lt e s w := ⟨-r, strcmp_antisymm e w s hw hsv r hr, by omega⟩
        have hlo' : ∀ (k : Nat) (x : List Nat), (k : Int) < mid + 1 → (texts lex)[k]? = some x → Lt e x w := by
          intro k x hk hx
          by_cases hkm : k = mid.toNat
          · subst hkm; rw [hs2] at hx; cases hx; exact hsw
          · exact Lt.trans (h.texts_valid x (List.mem_of_getElem? hx)) hsv hw (hpair _ _ _ _ (by omega) hx hs2) hsw
        by_cases hle : mid + 1 ≤ high
        · rw [if_pos hle]
          exact ih (mid + 1) high (by omega) hle hn (by omega) hlo' hhi
        · rw [if_neg hle]
          refine ⟨false, _, rfl, nofun, fun _ => ⟨by omega, ?_, ?_⟩⟩
          · intro k x hk; exact hlo' k x (by omega)
          · intro k x hk; exact hhi k x (by omega)

theorem search_ok {e : Enc} {lex : Lex} (h : Ok e lex) {w : List Nat} (hw : Valid e w) :
    ∃ b i, search e lex w = some (b, i) ∧ (b = true → (texts lex)[i]? = some w) ∧
      (b = false → i ≤ lex.str.length ∧ (∀ (k : Nat) (x : List Nat), k < i → (texts lex)[k]? = some x → Lt e x w) ∧
        (∀ (k : Nat) (x : List Nat), i ≤ k → (texts lex)[k]? = some x → Lt e w x)) := by
  unfold search
  by_cases h0 : lex.str.length = 0
  · rw [if_pos h0]
    refine ⟨false, 0, rfl, nofun, fun _ => ⟨by omega, fun k x hk => by omega, ?_⟩⟩
    intro k x _ hx
    have := h.texts_len
    rw [List.getElem?_eq_none (by omega)] at hx
    cases hx
  · rw [if_neg h0]
    refine searchLoop_ok h hw _ _ _ (by omega) (by omega) (by omega) (by omega) (fun k x hk => by omega) ?_
    intro k x hk hx
    have := h.texts_len
    rw [List.getElem?_eq_none (by omega)] at hx
    cases hx

/-- What inserting does. -/
theorem insert_ok {e : Enc} {lex : Lex} (h : Ok e lex) {w : List Nat} (hw : Valid e w) :
    ∃ lex' k, insert e lex w = some (lex', k) ∧ Ok e lex' ∧ lex'.str[k]? = some w ∧
      ((w ∈ lex.str ∧ lex'.str = lex.str ∧ lex'.sort = lex.sort ∧ lex'.cnt = lex.cnt) ∨
        (w ∉ lex.str ∧ lex'.str = lex.str ++ [w] ∧ lex'.cnt = lex.cnt ++ [0] ∧ k = lex.str.length ∧
          ((∀ v ∈ lex.str, Lt e v w) → lex'.sort = lex.sort ++ [lex.str.length]))) := by
  have hmax := h.max
  generalize hm : (if lex.str.length + 1 ≥ lex.max then lex.max * 2 else lex.max) = m
  have hm' : lex.str.length + 1 < m ∧ lex.str.length < m := by
    rw [← hm]
    by_cases hc : lex.str.length + 1 ≥ lex.max
    · rw [if_pos hc]; omega
    · rw [if_neg hc]; omega
  obtain ⟨b, i, hs, ht, hf⟩ := search_ok h hw
  unfold insert
  rw [hm]
  simp only [hs]
  cases b with
  | true =>
    have hi := ht rfl
    have hil : i < lex.str.length := by
      have := (List.getElem?_eq_some_iff.1 hi).1; rw [h.texts_len] at this; exact this
    obtain ⟨s, hs1, hs2⟩ := h.read i hil
    rw [hi] at hs2; cases hs2
    have hsl : i < lex.sort.length := by rw [h.sort_len]; exact hil
    dsimp only
    rw [List.getElem?_eq_getElem hsl] at hs1 ⊢
    simp only [Option.bind_some] at hs1
    refine ⟨{ lex with max := m }, lex.sort[i], rfl, ⟨h.perm, h.clen, hm'.2, h.valid, h.sorted⟩, hs1, Or.inl ⟨?_, rfl, rfl, rfl⟩⟩
    exact List.mem_of_getElem? hs1
  | false =>
    obtain ⟨hi, hlo, hhi⟩ := hf rfl
    simp only [if_pos hm'.2]
    have hnot : w ∉ lex.str := by
      intro hc
      obtain ⟨k, hk⟩ := List.mem_iff_getElem?.1 (h.texts_perm.mem_iff.2 hc)
      by_cases hki : k < i
      · exact (hlo k w hki hk).irrefl hw
      · exact (hhi k w (by omega) hk).irrefl hw
    refine ⟨_, _, rfl, ⟨?_, ?_, ?_, ?_, ?_⟩, ?_, Or.inr ⟨hnot, rfl, rfl, rfl, ?_⟩⟩
    · show (lex.sort.take i ++ lex.str.length :: lex.sort.drop i).Perm (List.range (lex.str ++ [w]).length)
      rw [List.length_append, List.length_singleton, List.range_succ]
      refine List.Perm.trans List.perm_middle ?_
      rw [List.take_append_drop]
      exact ((h.perm.cons _).trans (List.perm_append_comm (l₁ := [_])))
    · show (lex.cnt ++ [0]).length = (lex.str ++ [w]).length
      simp [h.clen]
    · show (lex.str ++ [w]).length < m
      simp; omega
    · intro s hs
      rcases List.mem_append.1 hs with hs | hs
      · exact h.valid s hs
      · rw [List.mem_singleton.1 hs]; exact hw
    · have htx : texts ⟨lex.str ++ [w], lex.sort.take i ++ lex.str.length :: lex.sort.drop i, lex.cnt ++ [0], m⟩ =
          (texts lex).take i ++ w :: (texts lex).drop i := by
        unfold texts
        have hgo : ∀ l : List Nat, (∀ k ∈ l, k ∈ lex.sort) → l.map (fun k => (lex.str ++ [w]).getD k []) = l.map (fun k => lex.str.getD k []) := by
          intro l hl
          apply List.map_congr_left
          intro k hk
          have := h.lt (hl k hk)
          simp [List.getElem?_append_left this]
        simp only [List.map_append, List.map_cons]
        rw [hgo _ (fun k hk => List.mem_of_mem_take hk), hgo _ (fun k hk => List.mem_of_mem_drop hk), List.map_take, List.map_drop]
        simp
      rw [htx]
      have hsp := h.sorted
      rw [← List.take_append_drop i (texts lex)] at hsp
      obtain ⟨p1, p2, p3⟩ := List.pairwise_append.1 hsp
      rw [List.pairwise_append]
      have hta : ∀ x ∈ (texts lex).take i, Lt e x w := by
        intro x hx
        obtain ⟨k, hk⟩ := List.mem_iff_getElem?.1 hx
        rw [List.getElem?_take] at hk
        by_cases hki : k < i
        · rw [if_pos hki] at hk; exact hlo k x hki hk
        · rw [if_neg hki] at hk; cases hk
      have hdr : ∀ x ∈ (texts lex).drop i, Lt e w x := by
        intro x hx
        obtain ⟨k, hk⟩ := List.mem_iff_getElem?.1 hx
        rw [List.getElem?_drop] at hk
        exact hhi _ x (by omega) hk
      refine ⟨p1, List.pairwise_cons.2 ⟨hdr, p2⟩, ?_⟩
      intro a ha b hb
      rcases List.mem_cons.1 hb with rfl | hb
      · exact hta a ha
      · exact p3 a ha b hb
    · simp
    · intro hall
      show lex.sort.take i ++ lex.str.length :: lex.sort.drop i = _
      have : i = lex.str.length := by
        by_cases hlt : i < lex.str.length
        · obtain ⟨s, _, hs2⟩ := h.read i hlt
          have h1 := hhi i s (Nat.le_refl _) hs2
          have h2 := hall s (h.texts_perm.mem_iff.1 (List.mem_of_getElem? hs2))
          exact ((Lt.trans hw (h.texts_valid s (List.mem_of_getElem? hs2)) hw h1 h2).irrefl hw).elim
        · omega
      rw [this, ← h.sort_len, List.take_length, List.drop_length]

end Verif.Detail
