import Verif.Rover.Vote
/-!
# Facts on scores
-/
set_option autoImplicit false
namespace Verif.Rover
variable {V : Type}

theorem div_nonneg {a b : Rat} (ha : 0 ≤ a) (hb : 0 < b) : 0 ≤ a / b := by
  rw [Rat.div_def]
  exact Rat.mul_nonneg ha (by have := Rat.inv_pos.2 hb; grind)

theorem sum_nonneg (l : List Rat) (h : ∀ x ∈ l, 0 ≤ x) : 0 ≤ l.sum := by
  induction l with
  | nil => simp
  | cons a l ih =>
    rw [List.sum_cons]
    have h1 := h a (by simp)
    have h2 := ih fun x hx => h x (by simp [hx])
    grind

theorem sum_pos (l : List Rat) (h : ∀ x ∈ l, 0 ≤ x) (hp : ∃ x ∈ l, 0 < x) : 0 < l.sum := by
  induction l with
  | nil => obtain ⟨x, hx, _⟩ := hp; cases hx
  | cons a l ih =>
    rw [List.sum_cons]
    have h1 := h a (by simp)
    have hl : ∀ x ∈ l, 0 ≤ x := fun x hx => h x (by simp [hx])
    obtain ⟨x, hx, hx0⟩ := hp
    rcases List.mem_cons.1 hx with e | hx
    · have h2 := sum_nonneg l hl
      rw [← e]; grind
    · have h2 := ih hl ⟨x, hx, hx0⟩
      grind

theorem top_nonneg (l : List (Tok V)) : 0 ≤ top l := by
  unfold top
  induction l with
  | nil => simp
  | cons a l ih =>
    rw [List.map_cons, List.foldr_cons]
    split
    · exact ih
    · rename_i h; grind

theorem voters_ne {eq : V → V → Bool} (he : Equiv eq) {slot : List (Tok V)} {w : Tok V} (hw : w ∈ slot) :
    0 < (voters eq slot w).length := by
  apply List.length_pos_of_mem
  exact List.mem_filter.2 ⟨hw, he.refl _⟩

theorem cast_pos {n : Nat} (h : 0 < n) : (0 : Rat) < (n : Rat) := by
  have := Rat.natCast_lt_natCast (a := 0) (b := n) |>.2 h
  simpa using this

theorem score_nonneg {eq : V → V → Bool} (he : Equiv eq) (m : Meth) (alpha : Rat) (slot : List (Tok V)) (w : Tok V)
    (hw : w ∈ slot) (h0 : 0 ≤ alpha) (h1 : alpha ≤ 1) (hc : ∀ x ∈ slot, 0 ≤ x.conf)
    (hp : m = .avgconf → ∃ x ∈ slot, 0 < x.conf) : ∃ s, scoreOf eq m alpha slot w = some s ∧ 0 ≤ s := by
  have hv := voters_ne he hw
  have hs : 0 < slot.length := List.length_pos_of_mem hw
  have hshare : (0 : Rat) ≤ ((voters eq slot w).length : Rat) / (slot.length : Rat) :=
    div_nonneg Rat.natCast_nonneg (cast_pos hs)
  have hsum : 0 ≤ ((voters eq slot w).map Tok.conf).sum := by
    apply sum_nonneg
    intro x hx
    obtain ⟨t, ht, e⟩ := List.mem_map.1 hx
    rw [← e]
    exact hc t (List.mem_filter.1 ht).1
  have h1' : (0 : Rat) ≤ 1 - alpha := by grind
  have key : ∀ c : Rat, 0 ≤ c → 0 ≤ alpha * (((voters eq slot w).length : Rat) / (slot.length : Rat)) + (1 - alpha) * c := by
    intro c hc
    have a1 := Rat.mul_nonneg h0 hshare
    have a2 := Rat.mul_nonneg h1' hc
    grind
  have hmean : 0 ≤ mean Tok.conf (voters eq slot w) := div_nonneg hsum (cast_pos hv)
  cases m with
  | meth1 => exact ⟨_, rfl, key _ hmean⟩
  | oracle => exact ⟨_, rfl, key _ hmean⟩
  | maxconf => exact ⟨_, rfl, key _ (top_nonneg _)⟩
  | avgconf =>
    have htot : 0 < (slot.map Tok.conf).sum := by
      apply sum_pos
      · intro x hx
        obtain ⟨t, ht, e⟩ := List.mem_map.1 hx
        rw [← e]; exact hc t ht
      · obtain ⟨x, hx, hx0⟩ := hp rfl
        exact ⟨x.conf, List.mem_map_of_mem hx, hx0⟩
    refine ⟨_, by unfold scoreOf; simp only; rw [if_neg (by grind)], ?_⟩
    have a2 := div_nonneg (Rat.mul_nonneg h1' hsum) htot
    have a1 := Rat.mul_nonneg h0 hshare
    grind

theorem reps_max {eq : V → V → Bool} (he : Equiv eq) {slot r l : List (Tok V)} (hr : RInv eq slot r) (hl : l.Sublist slot)
    (hp : l.Pairwise fun x y => eq x.val y.val = false) : l.length ≤ r.length := by
  let f : Tok V → Nat := fun x => r.findIdx fun w => eq w.val x.val
  have hf : ∀ x ∈ l, ∃ h : f x < r.length, eq (r[f x]'h).val x.val = true := by
    intro x hx
    obtain ⟨w, hw, hwx⟩ := hr.cover x (hl.subset hx)
    have : f x < r.length := List.findIdx_lt_length_of_exists ⟨w, hw, hwx⟩
    exact ⟨this, List.findIdx_getElem (w := this)⟩
  have hnd : (l.map f).Nodup := by
    unfold List.Nodup
    rw [List.pairwise_map]
    refine hp.imp_of_mem ?_
    intro a b ha hb hab e
    obtain ⟨h1, h2⟩ := hf a ha
    obtain ⟨h3, h4⟩ := hf b hb
    have : r[f a] = r[f b] := by congr 1
    rw [this] at h2
    have := he.trans _ _ _ (he.symm _ _ h2) h4
    rw [hab] at this; cases this
  have := hnd.length_le_of_subset (l₂ := List.range r.length) (by
    intro i hi
    obtain ⟨x, hx, e⟩ := List.mem_map.1 hi
    rw [← e, List.mem_range]
    exact (hf x hx).1)
  simpa using this

theorem atMost_reps {eq : V → V → Bool} (he : Equiv eq) (slot : List (Tok V)) (k : Nat) :
    AtMost eq k slot ↔ (reps eq slot []).length ≤ k := by
  have hr := (collect_slot he slot).1
  constructor
  · intro h
    exact h _ hr.sub hr.apart
  · intro h l hl hp
    exact Nat.le_trans (reps_max he hr hl hp) h

end Verif.Rover
