import Verif.Tempf.Model
import Verif.Slm.Props
/-!
# Theorems on the merging of temporary files
-/
set_option autoImplicit false
namespace Verif.Tempf
open Verif.Slm (File Valid Sorted total totals)

theorem more {seen : File → File} {n k max : Nat} (j i : Nat) : ∀ (f : Nat) (fs : List File) (out : File), mergeAll seen n k max f fs = some out →
    mergeAll seen n (k + j) max (f + i) fs = some out := by
  intro f
  induction f with
  | zero => intro fs out h; cases h
  | succ f ih =>
    intro fs out h
    rw [Nat.succ_add]
    rw [mergeAll] at h ⊢
    by_cases c : decide (max < fs.length) = true
    · rw [if_pos c] at h ⊢
      cases e : mergeAll seen n k max f (fs.take max) with
      | none => rw [e] at h; cases h
      | some o =>
        rw [e] at h
        rw [ih _ _ e]
        exact ih _ _ h
    · rw [if_neg c] at h ⊢
      unfold once at h ⊢
      by_cases q : fs.any List.isEmpty = true
      · rw [if_pos q] at h
        cases h
      · rw [if_neg q] at h ⊢
        exact Slm.merge_more n k j fs out h

theorem totals_append (g : List Nat) (a b : List File) : totals g (a ++ b) = totals g a + totals g b := by
  induction a with
  | nil => simp [totals]
  | cons x a ih =>
    simp only [List.cons_append, totals, ih]
    omega

/-- What the result of merging has to be. -/
def Merged (fs : List File) (out : File) : Prop :=
  (∀ g, total g out = totals g fs) ∧ (∀ g, (∃ c, (g, c) ∈ out) ↔ ∃ f ∈ fs, ∃ c, (g, c) ∈ f) ∧ ((∀ f ∈ fs, Sorted f) → Sorted out)

theorem merged_good {n : Nat} {fs : List File} {out : File} (h : Merged fs out) (hv : ∀ f ∈ fs, Valid n f) (he : ∀ f ∈ fs, f ≠ []) (hne : fs ≠ []) :
    Valid n out ∧ out ≠ [] := by
  constructor
  · rintro ⟨g, c⟩ hx
    obtain ⟨f, hf, d, hd⟩ := (h.2.1 g).1 ⟨c, hx⟩
    exact hv f hf (g, d) hd
  · obtain ⟨f, hf⟩ := List.exists_mem_of_ne_nil fs hne
    obtain ⟨⟨g, c⟩, hx⟩ := List.exists_mem_of_ne_nil f (he f hf)
    obtain ⟨d, hd⟩ := (h.2.1 g).2 ⟨f, hf, c, hx⟩
    exact List.ne_nil_of_mem hd

theorem merged_join {a b : List File} {o out : File} (h1 : Merged a o) (h2 : Merged (b ++ [o]) out) : Merged (a ++ b) out := by
  refine ⟨fun g => ?_, fun g => ?_, fun hs => ?_⟩
  · rw [h2.1 g, totals_append, totals_append, ← h1.1 g]
    simp only [totals]
    omega
  · rw [h2.2.1 g]
    constructor
    · rintro ⟨f, hf, hc⟩
      rcases List.mem_append.1 hf with hf | hf
      · exact ⟨f, List.mem_append.2 (.inr hf), hc⟩
      · rw [List.mem_singleton] at hf
        subst hf
        obtain ⟨f', hf', hc'⟩ := (h1.2.1 g).1 hc
        exact ⟨f', List.mem_append.2 (.inl hf'), hc'⟩
    · rintro ⟨f, hf, hc⟩
      rcases List.mem_append.1 hf with hf | hf
      · exact ⟨o, by simp, (h1.2.1 g).2 ⟨f, hf, hc⟩⟩
      · exact ⟨f, List.mem_append.2 (.inl hf), hc⟩
  · refine h2.2.2 fun f hf => ?_
    rcases List.mem_append.1 hf with hf | hf
    · exact hs f (List.mem_append.2 (.inr hf))
    · rw [List.mem_singleton] at hf
      subst hf
      exact h1.2.2 fun f hf => hs f (List.mem_append.2 (.inl hf))

theorem once_merged {n : Nat} {fs : List File} (hv : ∀ f ∈ fs, Valid n f) (he : ∀ f ∈ fs, f ≠ []) (hne : fs ≠ []) : ∃ k out, once n k fs = some out ∧ Merged fs out := by
  obtain ⟨f, hf⟩ := List.exists_mem_of_ne_nil fs hne
  obtain ⟨k, out, e, h⟩ := Slm.merge_partial n fs hv ⟨f, hf, he f hf⟩
  refine ⟨k, out, ?_, h⟩
  unfold once
  rw [if_neg, e]
  rw [List.any_eq_true]
  rintro ⟨x, hx, q⟩
  exact he x hx (List.isEmpty_iff.1 q)

/-! ## C325: merging with a limit of open files -/

/-- If the files made in between are read in full, files that are not empty are merged whatever their number, for any limit of two or more open files: each n-gram has the sum of its counts, there are no
others, and the result is in order if the files are. Missing: files in between that are read before they are closed, empty files. -/
theorem merge_all_partial (n max : Nat) (hm : 2 ≤ max) (fs : List File) (hv : ∀ f ∈ fs, Valid n f) (he : ∀ f ∈ fs, f ≠ []) (hne : fs ≠ []) :
    ∃ k f out, mergeAll id n k max f fs = some out ∧ (∀ g, total g out = totals g fs) ∧
      (∀ g, (∃ c, (g, c) ∈ out) ↔ ∃ f ∈ fs, ∃ c, (g, c) ∈ f) ∧ ((∀ f ∈ fs, Sorted f) → Sorted out) := by
  suffices ∀ (l : Nat) (fs : List File), fs.length ≤ l → (∀ f ∈ fs, Valid n f) → (∀ f ∈ fs, f ≠ []) → fs ≠ [] →
      ∃ k f out, mergeAll id n k max f fs = some out ∧ Merged fs out from this fs.length fs (Nat.le_refl _) hv he hne
  intro l
  induction l with
  | zero =>
    intro fs hl _ _ hne
    exact absurd (List.length_eq_zero_iff.1 (by omega)) hne
  | succ l ih =>
    intro fs hl hv he hne
    by_cases c : max < fs.length
    · have hmem : ∀ x, x ∈ fs.take max → x ∈ fs := fun x hx => List.mem_of_mem_take hx
      have htne : fs.take max ≠ [] := by
        intro q
        have := congrArg List.length q
        rw [List.length_take, List.length_nil] at this
        omega
      obtain ⟨k1, o, e1, m1⟩ := once_merged (n := n) (fs := fs.take max) (fun f hf => hv f (hmem f hf)) (fun f hf => he f (hmem f hf)) htne
      have e1' : mergeAll id n k1 max 1 (fs.take max) = some o := by
        rw [mergeAll, if_neg (by simp [List.length_take]; omega), e1]
      obtain ⟨g1, g2⟩ := merged_good m1 (fun f hf => hv f (hmem f hf)) (fun f hf => he f (hmem f hf)) htne
      obtain ⟨k2, f2, out, e2, m2⟩ := ih (fs.drop max ++ [o]) (by simp; omega)
        (fun f hf => by
          rcases List.mem_append.1 hf with hf | hf
          · exact hv f (List.mem_of_mem_drop hf)
          · rw [List.mem_singleton] at hf
            exact hf ▸ g1)
        (fun f hf => by
          rcases List.mem_append.1 hf with hf | hf
          · exact he f (List.mem_of_mem_drop hf)
          · rw [List.mem_singleton] at hf
            exact hf ▸ g2) (by simp)
      refine ⟨k1 + k2, 1 + f2 + 1, out, ?_, ?_⟩
      · rw [mergeAll, if_pos (by simpa using c), more k2 f2 1 _ _ e1']
        dsimp only
        have := more k1 1 f2 _ _ e2
        rw [Nat.add_comm k2 k1, Nat.add_comm f2 1] at this
        exact this
      · have := merged_join m1 m2
        rwa [List.take_append_drop] at this
    · obtain ⟨k, out, e, m⟩ := once_merged hv he hne
      exact ⟨k, 1, out, by rw [mergeAll, if_neg (by simpa using c), e], m⟩

/-- With a limit of one open file two or more files are never merged. -/
theorem limit_one (seen : File → File) (n k f : Nat) : ∀ fs : List File, 2 ≤ fs.length → mergeAll seen n k 1 f fs = none := by
  induction f with
  | zero => intro fs _; rfl
  | succ f ih =>
    intro fs h
    rw [mergeAll, if_pos (by simp; omega)]
    cases mergeAll seen n k 1 f (fs.take 1) with
    | none => rfl
    | some o => exact ih _ (by simp; omega)

/-- What has not got to the file in between when it is read is lost. -/
theorem unseen_witness : ¬ ∀ (seen : File → File) (n k max f : Nat) (fs : List File) (out : File), (∀ x, seen x <+: x) → mergeAll seen n k max f fs = some out →
    ∀ g, total g out = totals g fs := by
  intro h
  have := h (fun x => x.take 1) 1 9 2 9 [[([1], 1), ([2], 1)], [([1], 1)], [([3], 1)]] [([1], 2), ([3], 1)] (fun x => List.take_prefix 1 x) (by decide +kernel) [2]
  exact absurd this (by decide +kernel)

example : mergeAll id 1 9 2 9 [[([1], 1), ([2], 1)], [([1], 1)], [([3], 1)], [([2], 4)]] = some [([1], 2), ([2], 5), ([3], 1)] := by decide +kernel

end Verif.Tempf
