import Verif.Uem.Spec
/-!
# Lemmas on the inter-segment gaps: counting ends of intervals
-/
set_option autoImplicit false
namespace Verif.Uem
open Segmentor

/-- Number of times at or before `t`. -/
def upTo (t : Int) (l : List Int) : Nat := l.countP fun x => decide (x ≤ t)

/-- Consecutive pairs. -/
def pairs : List Int → List (Int × Int)
  | [] => []
  | [_] => []
  | b :: e :: r => (b, e) :: pairs r

theorem mem_pairs_mem (l : List Int) : ∀ p ∈ pairs l, p.1 ∈ l ∧ p.2 ∈ l := by
  induction l using pairs.induct with
  | case1 => simp [pairs]
  | case2 => simp [pairs]
  | case3 b e r ih =>
    intro p hp
    rw [pairs, List.mem_cons] at hp
    rcases hp with hp | hp
    · subst hp; simp
    · have := ih p hp; simp [this.1, this.2]

theorem upTo_zero (t : Int) (l : List Int) (h : ∀ x ∈ l, t < x) : upTo t l = 0 := by
  unfold upTo
  rw [List.countP_eq_zero]
  intro x hx
  have := h x hx
  simp; omega

theorem pairs_cover (t : Int) (l : List Int) (hs : l.Pairwise (· ≤ ·)) (he : l.length % 2 = 0) :
    Covers (pairs l) t ↔ upTo t l % 2 = 1 := by
  induction l using pairs.induct with
  | case1 => simp [pairs, Covers, upTo]
  | case2 => simp at he
  | case3 b e r ih =>
    rw [List.pairwise_cons] at hs
    obtain ⟨hb, hs⟩ := hs
    have hse := hs
    rw [List.pairwise_cons] at hs
    obtain ⟨hr, hs⟩ := hs
    have ih := ih hs (by simp only [List.length_cons] at he; omega)
    have hbe := hb e (by simp)
    have e1 : upTo t (b :: e :: r) = (if b ≤ t then 1 else 0) + (if e ≤ t then 1 else 0) + upTo t r := by
      simp only [upTo, List.countP_cons, decide_eq_true_eq]
      omega
    have e2 : Covers (pairs (b :: e :: r)) t ↔ (b ≤ t ∧ t < e) ∨ Covers (pairs r) t := by
      simp [Covers, pairs]
    rw [e1, e2]
    by_cases h1 : b ≤ t
    · by_cases h2 : e ≤ t
      · rw [if_pos h1, if_pos h2, ih]
        constructor
        · rintro (h | h)
          · omega
          · omega
        · intro h; right; omega
      · rw [if_pos h1, if_neg h2, upTo_zero t r (fun x hx => by have := hr x hx; omega)]
        constructor
        · intro; rfl
        · intro; left; omega
    · have h2 : ¬ e ≤ t := by omega
      rw [if_neg h1, if_neg h2, upTo_zero t r (fun x hx => by have := hr x hx; omega)]
      constructor
      · rintro (h | h)
        · omega
        · have : upTo t r % 2 = 1 := ih.1 h
          rw [upTo_zero t r (fun x hx => by have := hr x hx; omega)] at this
          exact this
      · intro h; cases h

/-- The gaps are the pairs of positive length that do not begin at a border. -/
theorem gapLoop_eq (border l : List Int) (he : l.length % 2 = 0) :
    gapLoop border l = some ((pairs l).filter fun p => decide (p.1 ∉ border ∧ p.1 ≠ p.2)) := by
  induction l using pairs.induct with
  | case1 => rfl
  | case2 => simp at he
  | case3 b e r ih =>
    have ih := ih (by simp only [List.length_cons] at he; omega)
    rw [gapLoop, ih]
    by_cases h1 : b ∈ border
    · simp [pairs, h1]
    · by_cases h2 : b = e
      · simp [pairs, h2]
      · simp [pairs, h1, h2]

theorem pairs_apart (l : List Int) (hs : l.Pairwise (· ≤ ·)) :
    (pairs l).Pairwise fun p q => p.2 ≤ q.1 := by
  induction l using pairs.induct with
  | case1 => exact List.Pairwise.nil
  | case2 => exact List.Pairwise.nil
  | case3 b e r ih =>
    rw [List.pairwise_cons, List.pairwise_cons] at hs
    rw [pairs, List.pairwise_cons]
    refine ⟨?_, ih hs.2.2⟩
    intro q hq
    exact hs.2.1 q.1 (mem_pairs_mem r q hq).1

theorem pairs_le (l : List Int) (hs : l.Pairwise (· ≤ ·)) : ∀ p ∈ pairs l, p.1 ≤ p.2 := by
  induction l using pairs.induct with
  | case1 => simp [pairs]
  | case2 => simp [pairs]
  | case3 b e r ih =>
    rw [List.pairwise_cons, List.pairwise_cons] at hs
    intro q hq
    rw [pairs, List.mem_cons] at hq
    rcases hq with hq | hq
    · subst hq; exact hs.1 e (by simp)
    · exact ih hs.2.2 q hq

/-- Number of intervals holding `t`. -/
def holding (t : Int) (l : List (Int × Int)) : Nat := l.countP fun i => decide (i.1 ≤ t ∧ t < i.2)

theorem ends_cons (i : Int × Int) (l : List (Int × Int)) : ends (i :: l) = i.1 :: i.2 :: ends l := rfl

theorem ends_length (l : List (Int × Int)) : (ends l).length % 2 = 0 := by
  induction l with
  | nil => rfl
  | cons i l ih => rw [ends_cons]; simp only [List.length_cons]; omega

theorem upTo_ends (t : Int) (l : List (Int × Int)) (h : ∀ i ∈ l, i.1 ≤ i.2) :
    upTo t (ends l) % 2 = holding t l % 2 := by
  induction l with
  | nil => rfl
  | cons i l ih =>
    have ih := ih (fun j hj => h j (List.mem_cons_of_mem _ hj))
    have hi := h i (by simp)
    rw [ends_cons]
    have e1 : upTo t (i.1 :: i.2 :: ends l) =
        (if i.1 ≤ t then 1 else 0) + (if i.2 ≤ t then 1 else 0) + upTo t (ends l) := by
      simp only [upTo, List.countP_cons, decide_eq_true_eq]; omega
    have e2 : holding t (i :: l) = (if i.1 ≤ t ∧ t < i.2 then 1 else 0) + holding t l := by
      simp only [holding, List.countP_cons, decide_eq_true_eq]; omega
    rw [e1, e2]
    by_cases h1 : i.1 ≤ t
    · by_cases h2 : i.2 ≤ t
      · rw [if_pos h1, if_pos h2, if_neg (show ¬ (i.1 ≤ t ∧ t < i.2) by omega)]; omega
      · rw [if_pos h1, if_neg h2, if_pos (show (i.1 ≤ t ∧ t < i.2) by omega)]; omega
    · rw [if_neg h1, if_neg (show ¬ i.2 ≤ t by omega), if_neg (show ¬ (i.1 ≤ t ∧ t < i.2) by omega)]; omega

theorem holding_pos (t : Int) (l : List (Int × Int)) : 0 < holding t l ↔ Covers l t := by
  unfold holding Covers
  rw [List.countP_pos_iff]
  simp

theorem holding_le_one (t : Int) (l : List (Int × Int)) (h : l.Pairwise Apart) : holding t l ≤ 1 := by
  induction l with
  | nil => exact Nat.zero_le _
  | cons i l ih =>
    rw [List.pairwise_cons] at h
    have e2 : holding t (i :: l) = (if i.1 ≤ t ∧ t < i.2 then 1 else 0) + holding t l := by
      simp only [holding, List.countP_cons, decide_eq_true_eq]; omega
    rw [e2]
    have := ih h.2
    by_cases h1 : i.1 ≤ t ∧ t < i.2
    · rw [if_pos h1]
      have : ¬ 0 < holding t l := by
        rw [holding_pos]
        rintro ⟨j, hj, h2⟩
        have := h.1 j hj
        unfold Apart at this
        omega
      omega
    · rw [if_neg h1]; omega

theorem holding_one (t : Int) (l : List (Int × Int)) (h : l.Pairwise Apart) :
    holding t l = 1 ↔ Covers l t := by
  rw [← holding_pos]
  have := holding_le_one t l h
  omega

theorem upTo_append (t : Int) (a b : List Int) : upTo t (a ++ b) = upTo t a + upTo t b :=
  List.countP_append

theorem insertTime_perm (x : Int) (l : List Int) : (insertTime x l).Perm (x :: l) := by
  induction l with
  | nil => exact List.Perm.refl _
  | cons y ys ih =>
    unfold insertTime
    split
    · exact List.Perm.refl _
    · exact (List.Perm.cons y ih).trans (List.Perm.swap x y ys)

theorem sortTimes_perm (l : List Int) : (sortTimes l).Perm l := by
  induction l with
  | nil => exact List.Perm.refl _
  | cons x xs ih => exact (insertTime_perm x _).trans (List.Perm.cons x ih)

theorem insertTime_sorted (x : Int) (l : List Int) (h : l.Pairwise (· ≤ ·)) : (insertTime x l).Pairwise (· ≤ ·) := by
  induction l with
  | nil => simp [insertTime]
  | cons y ys ih =>
    have h' := List.pairwise_cons.1 h
    unfold insertTime
    split
    · rename_i hxy
      refine List.pairwise_cons.2 ⟨?_, h⟩
      intro z hz
      rcases List.mem_cons.1 hz with e | hz
      · subst e; exact hxy
      · have := h'.1 z hz; omega
    · rename_i hxy
      refine List.pairwise_cons.2 ⟨?_, ih h'.2⟩
      intro z hz
      rcases List.mem_cons.1 ((insertTime_perm x ys).subset hz) with e | hz
      · subst e; omega
      · exact h'.1 z hz

theorem sortTimes_sorted (l : List Int) : (sortTimes l).Pairwise (· ≤ ·) := by
  induction l with
  | nil => exact List.Pairwise.nil
  | cons x xs ih => exact insertTime_sorted x _ ih

theorem sorted_facts (l : List Int) :
    (sortTimes l).Pairwise (· ≤ ·) ∧ (∀ t, upTo t (sortTimes l) = upTo t l) ∧ (sortTimes l).length = l.length :=
  ⟨sortTimes_sorted l, fun _ => (sortTimes_perm l).countP_eq _, (sortTimes_perm l).length_eq⟩

/-- What `gapsOf` returns, for an even number of times. -/
theorem gapsOf_spec (border times : List Int) (he : times.length % 2 = 0) :
    ∃ ps, gapsOf border times = some (ps.filter fun p => decide (p.1 ∉ border ∧ p.1 ≠ p.2)) ∧
      ps.Pairwise (fun p q => p.2 ≤ q.1) ∧ (∀ p ∈ ps, p.1 ≤ p.2 ∧ p.1 ∈ times ∧ p.2 ∈ times) ∧
      ∀ t, Covers ps t ↔ upTo t times % 2 = 1 := by
  obtain ⟨h1, h2, h3⟩ := sorted_facts times
  refine ⟨pairs (sortTimes times), ?_, pairs_apart _ h1, ?_, ?_⟩
  · unfold gapsOf
    exact gapLoop_eq border _ (by rw [h3]; exact he)
  · intro p hp
    refine ⟨pairs_le _ h1 p hp, ?_, ?_⟩
    · exact (sortTimes_perm times).subset (mem_pairs_mem _ p hp).1
    · exact (sortTimes_perm times).subset (mem_pairs_mem _ p hp).2
  · intro t
    rw [pairs_cover t _ h1 (by rw [h3]; exact he), h2]

end Verif.Uem
