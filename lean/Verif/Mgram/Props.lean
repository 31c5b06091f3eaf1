import Verif.Mgram.Lemmas
/-!
# Theorems on shorter n-grams and vocabularies
-/
set_option autoImplicit false
namespace Verif.Mgram

theorem ordered_zero {p : List Nat} {c : Int} {rs : File} : Ordered ((p, c) :: rs) ↔ Ordered ((p, 0) :: rs) := by
  cases rs with
  | nil => exact Iff.rfl
  | cons => exact Iff.rfl

/-! ## C318: shorter n-grams -/

/-- From a text with at least one n-gram, in order, and with an end of line after the last, every m-gram is written once, in order, with the sum of the counts of
the n-grams that begin with it, and no other. Missing: binary files, and texts without the last end of line. -/
theorem mgrams_partial (n m : Nat) (rs : File) (hne : rs ≠ []) (hl : ∀ x ∈ rs, x.1.length = n) (ho : Ordered rs) :
    ∃ out, run false true m rs = .file out ∧ (∀ h, total h out = under m h rs) ∧ (∀ h, (∃ c, (h, c) ∈ out) ↔ ∃ x ∈ rs, x.1.take m = h) ∧
      out.Pairwise (fun a b => a.1 < b.1) := by
  cases rs with
  | nil => exact absurd rfl hne
  | cons x rs =>
    obtain ⟨p, c⟩ := x
    have hg : Good n p rs := ⟨ordered_zero.1 ho, hl _ List.mem_cons_self, fun x hx => hl x (List.mem_cons_of_mem _ hx)⟩
    obtain ⟨prev', e⟩ := rounds_good m hg none c
    refine ⟨full m p c rs, ?_, fun h => ?_, fun h => ?_, full_sorted m hg c⟩
    · unfold run
      rw [rounds, e]
      dsimp only
      rw [if_neg Bool.false_ne_true, if_pos rfl, full_early]
    · rw [full_total]
      rfl
    · rw [full_mem]
      simp

/-- In whatever form, the program ends with an error if and only if the n-grams are not in order. -/
theorem mgrams_quit (binary more : Bool) (n m : Nat) (rs : File) (hl : ∀ x ∈ rs, x.1.length = n) : run binary more m rs = .quit ↔ ¬ Ordered rs := by
  cases rs with
  | nil =>
    refine ⟨fun h => ?_, fun h => absurd trivial h⟩
    cases binary <;> cases more <;> cases h
  | cons x rs =>
    obtain ⟨p, c⟩ := x
    have hp : p.length = n := hl _ List.mem_cons_self
    have hl' : ∀ x ∈ rs, x.1.length = n := fun x hx => hl x (List.mem_cons_of_mem _ hx)
    by_cases ho : Ordered ((p, c) :: rs)
    · obtain ⟨prev', e⟩ := rounds_good m (n := n) ⟨ordered_zero.1 ho, hp, hl'⟩ none c
      refine ⟨fun h => ?_, fun h => absurd ho h⟩
      unfold run at h
      rw [rounds, e] at h
      dsimp only at h
      split at h
      · cases h
      · split at h <;> cases h
    · refine ⟨fun _ => ho, fun _ => ?_⟩
      unfold run
      rw [rounds, rounds_bad m hp hl' (fun h => ho (ordered_zero.2 h))]

/-- From a binary file the m-gram of the last n-gram is never written; all else is as from a text. -/
theorem binary_loses (n m : Nat) (more : Bool) (rs : File) (g : List Nat) (c : Int) (hl : ∀ x ∈ rs ++ [(g, c)], x.1.length = n) (ho : Ordered (rs ++ [(g, c)])) :
    ∃ out t, run true more m (rs ++ [(g, c)]) = .file out ∧ run false true m (rs ++ [(g, c)]) = .file (out ++ [(g.take m, t)]) ∧
      ∀ c', (g.take m, c') ∉ out := by
  have hlast : ∀ (rs : File) (p : List Nat), lastGram p (rs ++ [(g, c)]) = g := by
    intro rs
    induction rs with
    | nil => intro p; rfl
    | cons x rs ih => intro p; exact ih x.1
  have key : ∀ (p : List Nat) (c0 : Int) (qs : File), rs ++ [(g, c)] = (p, c0) :: qs → lastGram p qs = g := by
    intro p c0 qs e
    cases rs with
    | nil =>
      injection e with e1 e2
      injection e1 with e1 _
      subst e2
      exact e1.symm
    | cons x rs =>
      injection e with e1 e2
      rw [← e2]
      exact hlast rs p
  cases e : rs ++ [(g, c)] with
  | nil => simp at e
  | cons x qs =>
    obtain ⟨p, c0⟩ := x
    have hq := key p c0 qs e
    rw [e] at hl ho
    have hg : Good n p qs := ⟨ordered_zero.1 ho, hl _ List.mem_cons_self, fun x hx => hl x (List.mem_cons_of_mem _ hx)⟩
    obtain ⟨prev', er⟩ := rounds_good m hg none c0
    have hs := full_sorted m hg c0
    rw [full_early, hq] at hs
    refine ⟨early m p c0 qs, lastTotal m p c0 qs, ?_, ?_, fun c' hc => ?_⟩
    · unfold run
      rw [rounds, er]
      rfl
    · unfold run
      rw [rounds, er, hq]
      rfl
    · have := (List.pairwise_append.1 hs).2.2 _ hc _ List.mem_cons_self
      exact absurd this (List.lt_irrefl _)

/-- Without the last end of line the last m-gram is written under the name of the one before; with a single n-gram what is written was never set, and so for a
text with no n-grams at all. -/
theorem newline_witness : run false false 1 [([1, 2], 3), ([4, 5], 6)] = .file [([1], 3), ([1], 6)] ∧ run false false 1 [([1, 2], 3)] = .unset [] ∧
    ∀ more m, run false more m [] = .unset [] := by
  refine ⟨by decide +kernel, by decide +kernel, fun more m => ?_⟩
  cases more <;> rfl

example : Ordered [([1, 2], 3), ([1, 5], 4), ([4, 5], 6)] ∧ run false true 1 [([1, 2], 3), ([1, 5], 4), ([4, 5], 6)] = .file [([1], 7), ([4], 6)] ∧
    run true false 1 [([1, 2], 3), ([1, 5], 4), ([4, 5], 6)] = .file [([1], 7)] ∧ run true false 1 [([4, 5], 6), ([1, 2], 3)] = .quit :=
  ⟨⟨by decide, by decide, trivial⟩, by decide +kernel, by decide +kernel, by decide +kernel⟩

/-! ## C319: vocabularies -/

/-- With a limit exactly the words that are more frequent are written, in order. -/
theorem vocab_gt (c : Int) (top : Option Int) (rs out : List (String × Int)) (h : Writes (some c) top rs out) :
    out.Perm (rs.filter (fun r => decide (c < r.2))) ∧ out.Pairwise (fun a b => a.1 ≤ b.1) := by
  obtain ⟨bc, h1, h2, h3, h4⟩ := h
  refine ⟨?_, h4⟩
  have hn : (number (some c) top rs).toNat = (bc.filter (fun r => decide (c < r.2))).length := by
    have e := (h1.filter (fun r => decide (c < r.2))).length_eq
    have := List.length_filter_le (fun r : String × Int => decide (c < r.2)) rs
    unfold number
    dsimp only
    rw [if_neg (by rw [decide_eq_true_eq]; omega), e]
    rfl
  rw [hn, take_above c bc h2] at h3
  exact h3.trans (h1.filter _)

/-- With a number that many words are written, or all if there are fewer, in order, and none that is not written is more frequent than one that is. -/
theorem vocab_top (top : Option Int) (ht : ∀ t, top = some t → 0 ≤ t) (rs out : List (String × Int)) (h : Writes none top rs out) :
    (out.length : Int) = min (top.getD 20000) (rs.length : Int) ∧ out.Pairwise (fun a b => a.1 ≤ b.1) ∧
      ∃ rest, (out ++ rest).Perm rs ∧ ∀ a ∈ out, ∀ b ∈ rest, b.2 ≤ a.2 := by
  obtain ⟨bc, h1, h2, h3, h4⟩ := h
  have hlen := h1.length_eq
  have h0 : 0 ≤ top.getD 20000 := by
    cases top with
    | none => decide
    | some t => exact ht t rfl
  refine ⟨?_, h4, bc.drop (number none top rs).toNat, ?_, ?_⟩
  · rw [h3.length_eq, List.length_take, hlen]
    unfold number
    dsimp only
    by_cases hc : (rs.length : Int) < top.getD 20000
    · rw [if_pos (by simpa using hc)]
      omega
    · rw [if_neg (by simpa using hc)]
      omega
  · have e := List.take_append_drop (number none top rs).toNat bc
    have := h3.append_right (bc.drop (number none top rs).toNat)
    rw [e] at this
    exact this.trans h1
  · intro a ha b hb
    rw [← List.take_append_drop (number none top rs).toNat bc, List.pairwise_append] at h2
    exact h2.2.2 a (h3.mem_iff.1 ha) b hb

/-- Something is written for every list. -/
theorem vocab_exists (gt top : Option Int) (rs : List (String × Int)) : ∃ out, Writes gt top rs out := by
  have tr : ∀ (a b c : String × Int), decide (b.2 ≤ a.2) = true → decide (c.2 ≤ b.2) = true → decide (c.2 ≤ a.2) = true := by
    intro a b c h1 h2
    simp only [decide_eq_true_eq] at *
    omega
  have to : ∀ (a b : String × Int), (decide (b.2 ≤ a.2) || decide (a.2 ≤ b.2)) = true := by
    intro a b
    simp only [Bool.or_eq_true, decide_eq_true_eq]
    omega
  have tr2 : ∀ (a b c : String × Int), decide (a.1 ≤ b.1) = true → decide (b.1 ≤ c.1) = true → decide (a.1 ≤ c.1) = true := by
    intro a b c h1 h2
    simp only [decide_eq_true_eq] at *
    exact String.le_trans h1 h2
  have to2 : ∀ (a b : String × Int), (decide (a.1 ≤ b.1) || decide (b.1 ≤ a.1)) = true := by
    intro a b
    simp only [Bool.or_eq_true, decide_eq_true_eq]
    exact String.le_total a.1 b.1
  have p1 := List.pairwise_mergeSort tr to rs
  have q1 := List.mergeSort_perm rs (fun a b : String × Int => decide (b.2 ≤ a.2))
  have p2 := List.pairwise_mergeSort tr2 to2 ((rs.mergeSort (fun a b => decide (b.2 ≤ a.2))).take (number gt top rs).toNat)
  have q2 := List.mergeSort_perm ((rs.mergeSort (fun a b => decide (b.2 ≤ a.2))).take (number gt top rs).toNat) (fun a b : String × Int => decide (a.1 ≤ b.1))
  exact ⟨_, _, q1, p1.imp (fun h => of_decide_eq_true h), q2, p2.imp (fun h => of_decide_eq_true h)⟩

example : number (some 2) none [("the", 9), ("a", 3), ("cat", 2)] = 2 ∧ number none (some 5) [("the", 9), ("a", 3), ("cat", 2)] = 3 ∧
    number none (some 1) [("the", 9), ("a", 3), ("cat", 2)] = 1 := by decide +kernel

end Verif.Mgram
