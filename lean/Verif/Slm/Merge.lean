import Verif.Slm.Lemmas
/-!
# Lemmas on merging
-/
set_option autoImplicit false
namespace Verif.Slm

theorem pop_valid {n : Nat} {o : List Nat} {f : File} (h : Valid n f) : Valid n (pop o f) := by
  cases f with
  | nil => exact h
  | cons x r =>
    obtain ⟨g, c⟩ := x
    rw [pop]
    split
    · exact fun y hy => h y (List.mem_cons_of_mem _ hy)
    · exact h

theorem pop_sub (o : List Nat) (f : File) : ∀ x ∈ pop o f, x ∈ f := by
  cases f with
  | nil => exact fun x hx => hx
  | cons y r =>
    obtain ⟨g, c⟩ := y
    rw [pop]
    split
    · exact fun x hx => List.mem_cons_of_mem _ hx
    · exact fun x hx => hx

theorem pop_sorted {o : List Nat} {f : File} (h : Sorted f) : Sorted (pop o f) := by
  cases f with
  | nil => exact h
  | cons x r =>
    obtain ⟨g, c⟩ := x
    rw [pop]
    split
    · exact (List.pairwise_cons.1 h).2
    · exact h

theorem pop_length (o : List Nat) (f : File) : (pop o f).length ≤ f.length := by
  cases f with
  | nil => exact Nat.le_refl _
  | cons x r =>
    obtain ⟨g, c⟩ := x
    rw [pop]
    split
    · exact Nat.le_succ _
    · exact Nat.le_refl _

theorem pop_head {o : List Nat} {f : File} (h : f.head?.map Prod.fst = some o) : (pop o f).length < f.length := by
  cases f with
  | nil => cases h
  | cons x r =>
    obtain ⟨g, c⟩ := x
    injection h with h
    dsimp only at h
    subst h
    rw [pop]
    rw [if_pos (by rw [(cmp_spec rfl).2.2 rfl]; rfl)]
    exact Nat.lt_succ_self _

theorem pop_total {n : Nat} {o : List Nat} {f : File} (ho : o.length = n) (hv : Valid n f) (g : List Nat) :
    total g f = (if o = g then took o f else 0) + total g (pop o f) := by
  cases f with
  | nil => simp [total, took, pop]
  | cons x r =>
    obtain ⟨h, c⟩ := x
    have hl : h.length = n := (hv _ List.mem_cons_self).1
    have hc := (cmp_spec (a := o) (b := h) (by rw [ho, hl])).2
    rw [pop, took]
    by_cases e : o = h
    · subst e
      have h1 : (cmp o o == .eq) = true := by rw [hc.2 rfl]; rfl
      rw [if_pos h1, if_pos h1]
      rfl
    · have : ¬ (cmp o h == .eq) = true := fun q => e (hc.1 (by simpa using q))
      rw [if_neg this, if_neg this]
      simp

theorem pops_total {n : Nat} {o : List Nat} {fs : List File} (ho : o.length = n) (hv : ∀ f ∈ fs, Valid n f) (g : List Nat) :
    totals g fs = (if o = g then sum o fs else 0) + totals g (fs.map (pop o)) := by
  induction fs with
  | nil => simp [totals, sum]
  | cons f fs ih =>
    have h1 := pop_total ho (hv f List.mem_cons_self) g
    have h2 := ih (fun x hx => hv x (List.mem_cons_of_mem _ hx))
    rw [List.map_cons, totals, totals, h1, h2, sum]
    split <;> omega

theorem mem_heads {fs : List File} {g : List Nat} (h : g ∈ heads fs) : ∃ f ∈ fs, f.head?.map Prod.fst = some g := by
  unfold heads at h
  exact List.mem_filterMap.1 h

/-- The smallest n-gram is at the head of a file. -/
theorem smallest_head {n : Nat} {fs : List File} (hv : ∀ f ∈ fs, Valid n f) (hne : ∃ f ∈ fs, f ≠ []) : smallest (largest n) fs ∈ heads fs := by
  obtain ⟨h1, h2, h3⟩ := smallest_spec hv (largest n) List.length_replicate
  rcases List.mem_cons.1 h1 with h | h
  · obtain ⟨f, hf, hfe⟩ := hne
    cases f with
    | nil => exact absurd rfl hfe
    | cons x r =>
      obtain ⟨g, c⟩ := x
      have hg : g ∈ heads fs := List.mem_filterMap.2 ⟨_, hf, rfl⟩
      have a := h3 g (List.mem_cons_of_mem _ hg)
      have hgv := hv _ hf (g, c) List.mem_cons_self
      have b := not_lt_largest n g hgv.1 hgv.2
      rw [h] at a
      rcases Std.lt_trichotomy g (largest n) with q | q | q
      · exact absurd q a
      · rw [h, ← q]
        exact hg
      · exact absurd q b
  · exact h

/-- The number of n-grams. -/
def size : List File → Nat
  | [] => 0
  | f :: fs => f.length + size fs

theorem size_pop_le (o : List Nat) (fs : List File) : size (fs.map (pop o)) ≤ size fs := by
  induction fs with
  | nil => exact Nat.le_refl _
  | cons f fs ih =>
    have := pop_length o f
    rw [List.map_cons, size, size]
    omega

theorem size_pop {o : List Nat} {fs : List File} (h : o ∈ heads fs) : size (fs.map (pop o)) < size fs := by
  obtain ⟨f, hf, hh⟩ := mem_heads h
  clear h
  induction fs with
  | nil => cases hf
  | cons a fs ih =>
    rw [List.map_cons, size, size]
    rcases List.mem_cons.1 hf with rfl | hf
    · have := pop_head hh
      have := size_pop_le o fs
      omega
    · have := pop_length o a
      have := ih hf
      omega

/-- What is left after a round comes after the n-gram of the round. -/
theorem pop_after {n : Nat} {fs : List File} (hv : ∀ f ∈ fs, Valid n f) (hs : ∀ f ∈ fs, Sorted f) :
    ∀ f ∈ fs, ∀ x ∈ pop (smallest (largest n) fs) f, smallest (largest n) fs < x.1 := by
  obtain ⟨_, h2, h3⟩ := smallest_spec hv (largest n) List.length_replicate
  intro f hf x hx
  cases f with
  | nil => cases hx
  | cons y r =>
    obtain ⟨g, c⟩ := y
    have hgv := hv _ hf (g, c) List.mem_cons_self
    have hg : g ∈ heads fs := List.mem_filterMap.2 ⟨_, hf, rfl⟩
    have a := h3 g (List.mem_cons_of_mem _ hg)
    have hc := (cmp_spec (a := smallest (largest n) fs) (b := g) (by rw [h2, hgv.1])).2
    have hp := List.pairwise_cons.1 (hs _ hf)
    rw [pop] at hx
    split at hx
    · rename_i e
      have e' := hc.1 (by simpa using e)
      rw [e']
      exact hp.1 x hx
    · rename_i e
      have e' : smallest (largest n) fs ≠ g := fun q => e (by rw [hc.2 q]; rfl)
      have hlt : smallest (largest n) fs < g := by
        rcases Std.lt_trichotomy g (smallest (largest n) fs) with q | q | q
        · exact absurd q a
        · exact absurd q.symm e'
        · exact q
      rcases List.mem_cons.1 hx with rfl | hx
      · exact hlt
      · exact List.lt_trans hlt (hp.1 x hx)

theorem totals_nil {fs : List File} (h : ∀ f ∈ fs, f = []) (g : List Nat) : totals g fs = 0 := by
  induction fs with
  | nil => rfl
  | cons f fs ih =>
    rw [totals, h f List.mem_cons_self, ih (fun x hx => h x (List.mem_cons_of_mem _ hx))]
    rfl

/-- The rounds. -/
theorem merge_spec {n : Nat} (k : Nat) (fs : List File) (hv : ∀ f ∈ fs, Valid n f) (hne : ∃ f ∈ fs, f ≠ []) (hk : size fs ≤ k) :
    ∃ out, merge n k fs = some out ∧ (∀ g, total g out = totals g fs) ∧ (∀ x ∈ out, ∃ f ∈ fs, ∃ c, (x.1, c) ∈ f) ∧
      (∀ f ∈ fs, ∀ x ∈ f, ∃ c, (x.1, c) ∈ out) ∧ ((∀ f ∈ fs, Sorted f) → Sorted out) := by
  induction k generalizing fs with
  | zero =>
    have := size_pop (smallest_head hv hne)
    omega
  | succ k ih =>
    have hh := smallest_head hv hne
    have ho := (smallest_spec hv (largest n) List.length_replicate).2.1
    have hafter := pop_after hv
    have hlt := size_pop hh
    obtain ⟨f0, hf0, hf0h⟩ := mem_heads hh
    have htot := pops_total ho hv
    have hkey : ∀ f ∈ fs, ∀ x ∈ f, x.1 = smallest (largest n) fs ∨ x ∈ pop (smallest (largest n) fs) f := by
      intro f hf x hx
      cases f with
      | nil => cases hx
      | cons y r =>
        obtain ⟨g, c⟩ := y
        have hgv := hv _ hf (g, c) List.mem_cons_self
        have hc := (cmp_spec (a := smallest (largest n) fs) (b := g) (by rw [ho, hgv.1])).2
        rw [pop]
        split
        · rename_i e
          have e' := hc.1 (by simpa using e)
          rcases List.mem_cons.1 hx with rfl | hx
          · exact .inl e'.symm
          · exact .inr hx
        · exact .inr hx
    unfold merge
    dsimp only
    generalize smallest (largest n) fs = o at *
    have hfirst : ∃ f ∈ fs, ∃ c, (o, c) ∈ f := by
      refine ⟨f0, hf0, ?_⟩
      cases f0 with
      | nil => cases hf0h
      | cons y r =>
        obtain ⟨g, c⟩ := y
        injection hf0h with e
        dsimp only at e
        subst e
        exact ⟨c, List.mem_cons_self⟩
    by_cases hall : ∀ f ∈ fs.map (pop o), f = []
    · have hfin : (fs.any (ended o) && (fs.map (pop o)).all List.isEmpty) = true := by
        rw [Bool.and_eq_true, List.any_eq_true, List.all_eq_true]
        refine ⟨⟨f0, hf0, ?_⟩, fun f hf => by rw [hall f hf]; rfl⟩
        unfold ended
        rw [hall _ (List.mem_map_of_mem hf0)]
        cases f0 with
        | nil => cases hf0h
        | cons => rfl
      rw [if_pos hfin]
      refine ⟨_, rfl, ?_, ?_, ?_, fun _ => List.pairwise_singleton _ _⟩
      · intro g
        rw [htot g, totals_nil hall]
        rfl
      · intro x hx
        rw [List.mem_singleton.1 hx]
        exact hfirst
      · intro f hf x hx
        rcases hkey f hf x hx with e | e
        · exact ⟨_, by rw [e]; exact List.mem_cons_self⟩
        · rw [hall _ (List.mem_map_of_mem hf)] at e
          cases e
    · have hfin : ¬ (fs.any (ended o) && (fs.map (pop o)).all List.isEmpty) = true := by
        rw [Bool.and_eq_true, List.all_eq_true]
        intro h
        exact hall (fun f hf => List.isEmpty_iff.1 (h.2 f hf))
      rw [if_neg hfin]
      have hne' : ∃ f ∈ fs.map (pop o), f ≠ [] := by
        refine Classical.byContradiction fun hn => hall fun f hf => Classical.byContradiction fun he => hn ⟨f, hf, he⟩
      have hv' : ∀ f ∈ fs.map (pop o), Valid n f := by
        intro f hf
        obtain ⟨f1, hf1, rfl⟩ := List.mem_map.1 hf
        exact pop_valid (hv f1 hf1)
      obtain ⟨out, e, i1, i2, i3, i4⟩ := ih _ hv' hne' (by omega)
      rw [e]
      refine ⟨_, rfl, ?_, ?_, ?_, ?_⟩
      · intro g
        rw [htot g, ← i1 g]
        rfl
      · intro x hx
        rcases List.mem_cons.1 hx with rfl | hx
        · exact hfirst
        · obtain ⟨f, hf, c, hc⟩ := i2 x hx
          obtain ⟨f1, hf1, rfl⟩ := List.mem_map.1 hf
          exact ⟨f1, hf1, c, pop_sub o f1 _ hc⟩
      · intro f hf x hx
        rcases hkey f hf x hx with e | e
        · exact ⟨_, by rw [e]; exact List.mem_cons_self⟩
        · obtain ⟨c, hc⟩ := i3 _ (List.mem_map_of_mem hf) x e
          exact ⟨c, List.mem_cons_of_mem _ hc⟩
      · intro hs
        refine List.pairwise_cons.2 ⟨?_, i4 ?_⟩
        · intro x hx
          obtain ⟨f, hf, c, hc⟩ := i2 x hx
          obtain ⟨f1, hf1, rfl⟩ := List.mem_map.1 hf
          exact hafter hs f1 hf1 (x.1, c) hc
        · intro f hf
          obtain ⟨f1, hf1, rfl⟩ := List.mem_map.1 hf
          exact pop_sorted (hs f1 hf1)

end Verif.Slm
