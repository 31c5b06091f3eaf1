import Verif.Anovar.Model
import Verif.Stats.Rank
/-!
# Sums of squares of mean ranks
-/
set_option autoImplicit false
namespace Verif.Anovar
open Verif.Stats

/-- Sum of a function over a list. -/
def sumOf {X : Type} (g : X → Rat) (l : List X) : Rat := (l.map g).sum

theorem sumOf_cons {X : Type} (g : X → Rat) (x : X) (l : List X) : sumOf g (x :: l) = g x + sumOf g l := by
  unfold sumOf; rw [List.map_cons, List.sum_cons]

theorem sumOf_nil {X : Type} (g : X → Rat) : sumOf g [] = 0 := rfl

theorem sumOf_congr {X : Type} {g h : X → Rat} (l : List X) (e : ∀ x ∈ l, g x = h x) : sumOf g l = sumOf h l := by
  unfold sumOf; rw [List.map_congr_left e]

theorem sumOf_split {X : Type} (g : X → Rat) (p : X → Bool) (l : List X) :
    sumOf g l = sumOf g (l.filter p) + sumOf g (l.filter (fun x => !p x)) := by
  induction l with
  | nil => simp only [List.filter_nil, sumOf_nil]; decide +kernel
  | cons x l ih =>
    rw [sumOf_cons, ih]
    cases h : p x
    · rw [List.filter_cons_of_neg (by simp [h]), List.filter_cons_of_pos (by simp [h]), sumOf_cons]; grind
    · rw [List.filter_cons_of_pos (by simp [h]), List.filter_cons_of_neg (by simp [h]), sumOf_cons]; grind

theorem sumOf_const {X : Type} (g : X → Rat) (c : Rat) (l : List X) (e : ∀ x ∈ l, g x = c) :
    sumOf g l = (l.length : Rat) * c := by
  induction l with
  | nil => rw [sumOf_nil]; simp
  | cons x l ih =>
    rw [sumOf_cons, ih (fun y hy => e y (List.mem_cons_of_mem _ hy)), e x (List.mem_cons_self ..), List.length_cons, Rat.natCast_add]
    have : ((1 : Nat) : Rat) = 1 := rfl
    grind

/-- The largest element. -/
theorem exists_max : ∀ l : List Rat, l ≠ [] → ∃ m ∈ l, ∀ x ∈ l, x ≤ m
  | [], h => (h rfl).elim
  | [x], _ => ⟨x, by simp, by simp⟩
  | x :: y :: l, _ => by
    obtain ⟨m, hm, h⟩ := exists_max (y :: l) (by simp)
    rcases Rat.le_total (a := x) (b := m) with c | c
    · refine ⟨m, List.mem_cons_of_mem _ hm, fun z hz => ?_⟩
      rcases List.mem_cons.1 hz with e | hz
      · rw [e]; exact c
      · exact h z hz
    · refine ⟨x, List.mem_cons_self .., fun z hz => ?_⟩
      rcases List.mem_cons.1 hz with e | hz
      · rw [e]; exact Rat.le_refl
      · exact Rat.le_trans (h z hz) c

theorem same_filter_ne (l : List Rat) (m x : Rat) (h : x ≠ m) : same (l.filter (fun y => !decide (y = m))) x = same l x := by
  unfold same
  rw [List.countP_filter]
  apply List.countP_congr
  intro y _
  simp only [Bool.and_eq_true, decide_eq_true_eq, Bool.not_eq_true', decide_eq_false_iff_not]
  constructor
  · exact fun h => h.1
  · intro e; subst e; exact ⟨rfl, h⟩

theorem below_filter_ne (l : List Rat) (m x : Rat) (h : x ≤ m) : below (l.filter (fun y => !decide (y = m))) x = below l x := by
  unfold below
  rw [List.countP_filter]
  apply List.countP_congr
  intro y _
  simp only [Bool.and_eq_true, decide_eq_true_eq, Bool.not_eq_true', decide_eq_false_iff_not]
  constructor
  · exact fun h => h.1
  · intro e
    refine ⟨e, ?_⟩
    intro e'; subst e'; grind

/-- The ties of a list of values: for each value the square of the number of its equals, less one.  For each group of `t` equal
values this is `t³ - t` in total. -/
def tied (l : List Rat) : Rat := sumOf (fun x => (same l x : Rat) * (same l x : Rat) - 1) l

/-- The squares of the mean ranks. -/
theorem squares (n : Nat) : ∀ l : List Rat, l.length = n →
    12 * sumOf (fun x => averagePlace (below l x) (same l x) * averagePlace (below l x) (same l x)) l =
      2 * (n : Rat) * ((n : Rat) + 1) * (2 * (n : Rat) + 1) - tied l := by
  induction n using Nat.strongRecOn with
  | ind n ih =>
    intro l hl
    by_cases he : l = []
    · subst he; subst hl
      simp [tied, sumOf_nil]
      decide +kernel
    · obtain ⟨m, hm, hmax⟩ := exists_max l he
      -- the rest and the copies of the largest
      generalize ho : l.filter (fun y => !decide (y = m)) = o
      generalize hc : l.filter (fun y => decide (y = m)) = c
      have hcm : ∀ x ∈ c, x = m := by
        intro x hx; rw [← hc] at hx; simpa using (List.mem_filter.1 hx).2
      have hom : ∀ x ∈ o, x ∈ l ∧ x ≠ m := by
        intro x hx; rw [← ho] at hx
        have := List.mem_filter.1 hx
        exact ⟨this.1, by simpa using this.2⟩
      have hlen : c.length + o.length = l.length := by
        rw [← hc, ← ho]
        clear ih hmax hm he hl hcm hom hc ho
        induction l with
        | nil => rfl
        | cons y l ih2 =>
          by_cases e : y = m
          · rw [List.filter_cons_of_pos (by simp [e]), List.filter_cons_of_neg (by simp [e])]; simp; omega
          · rw [List.filter_cons_of_neg (by simp [e]), List.filter_cons_of_pos (by simp [e])]; simp; omega
      have hsm : same l m = c.length := by
        unfold same; rw [← hc, List.countP_eq_length_filter]
      have hbm : below l m = o.length := by
        rw [← below_filter_ne l m m Rat.le_refl, ho]
        unfold below
        rw [List.countP_eq_length]
        intro x hx
        obtain ⟨h1, h2⟩ := hom x hx
        have := hmax x h1
        simp only [decide_eq_true_eq]
        grind
      have hcpos : 0 < c.length := by
        rw [← hc]
        exact List.length_pos_of_mem (List.mem_filter.2 ⟨hm, by simp⟩)
      have hso : ∀ x ∈ o, same l x = same o x := fun x hx => by rw [← same_filter_ne l m x (hom x hx).2, ho]
      have hbo : ∀ x ∈ o, below l x = below o x := fun x hx => by rw [← below_filter_ne l m x (hmax x (hom x hx).1), ho]
      have hI := ih o.length (by omega) o rfl
      unfold tied at hI ⊢
      rw [sumOf_split _ (fun y => decide (y = m)) l, hc, ho,
        sumOf_congr o (g := fun x => averagePlace (below l x) (same l x) * averagePlace (below l x) (same l x))
          (h := fun x => averagePlace (below o x) (same o x) * averagePlace (below o x) (same o x))
          (fun x hx => by rw [hso x hx, hbo x hx]),
        sumOf_const _ (averagePlace o.length c.length * averagePlace o.length c.length) c
          (fun x hx => by rw [hcm x hx, hsm, hbm])]
      rw [sumOf_split (fun x => (same l x : Rat) * (same l x : Rat) - 1) (fun y => decide (y = m)) l, hc, ho,
        sumOf_congr o (g := fun x => (same l x : Rat) * (same l x : Rat) - 1) (h := fun x => (same o x : Rat) * (same o x : Rat) - 1)
          (fun x hx => by rw [hso x hx]),
        sumOf_const (fun x => (same l x : Rat) * (same l x : Rat) - 1) ((c.length : Rat) * (c.length : Rat) - 1) c
          (fun x hx => by rw [hcm x hx, hsm])]
      have hn : (n : Rat) = (c.length : Rat) + (o.length : Rat) := by rw [← hl, ← hlen, Rat.natCast_add]
      rw [hn]
      unfold averagePlace at hI ⊢
      generalize sumOf (fun x => ((below o x : Nat) : Rat) + (((same o x : Nat) : Rat) + 1) / 2) o = A at *
      generalize sumOf (fun x => ((same o x : Nat) : Rat) * ((same o x : Nat) : Rat) - 1) o = B at *
      generalize sumOf _ o = S at *
      generalize (c.length : Rat) = k at *
      generalize (o.length : Rat) = q at *
      grind

end Verif.Anovar
