import Verif.Uem.Groups
/-!
# The gaps added to the references
-/
set_option autoImplicit false
namespace Verif.Uem
open Segmentor

theorem pairwise_mem {α : Type} {R : α → α → Prop} (l : List α) (h : l.Pairwise R) (x y : α) (hx : x ∈ l) (hy : y ∈ l) :
    x = y ∨ R x y ∨ R y x := by
  induction l with
  | nil => cases hx
  | cons a l ih =>
    rw [List.pairwise_cons] at h
    rcases List.mem_cons.1 hx with e | hx
    · rcases List.mem_cons.1 hy with e' | hy
      · left; rw [e, e']
      · right; left; rw [e]; exact h.1 y hy
    · rcases List.mem_cons.1 hy with e' | hy
      · right; right; rw [e']; exact h.1 x hx
      · exact ih h.2 hx hy

theorem mem_ends (l : List (Int × Int)) (t : Int) : t ∈ ends l ↔ ∃ i ∈ l, t = i.1 ∨ t = i.2 := by
  simp [ends]

theorem covers_filter (border : List Int) (ps : List (Int × Int))
    (hb : ∀ p ∈ ps, p.1 < p.2 → p.1 ∉ border) (t : Int) :
    Covers (ps.filter fun p => decide (p.1 ∉ border ∧ p.1 ≠ p.2)) t ↔ Covers ps t := by
  constructor
  · rintro ⟨p, hp, h⟩
    exact ⟨p, (List.mem_filter.1 hp).1, h⟩
  · rintro ⟨p, hp, h⟩
    refine ⟨p, List.mem_filter.2 ⟨hp, ?_⟩, h⟩
    simp only [decide_eq_true_eq]
    exact ⟨hb p hp (by omega), by omega⟩

/-- Gaps of disjoint stretches `I` within disjoint regions, every region written down an odd number of times. -/
theorem gaps_complement (I : List (Int × Int)) (times : List Int) (inR : Int → Prop)
    (he : times.length % 2 = 0) (hI : ∀ i ∈ I, i.1 < i.2)
    (hpar : ∀ t, upTo t times % 2 = 1 ↔ inR t ∧ ¬ Covers I t) :
    ∃ gaps, gapsOf (I.map Prod.fst) times = some gaps ∧ (∀ p ∈ gaps, p.1 < p.2) ∧
      gaps.Pairwise (fun p q => p.2 ≤ q.1) ∧ ∀ t, Covers gaps t ↔ inR t ∧ ¬ Covers I t := by
  obtain ⟨ps, h1, h2, h3, h4⟩ := gapsOf_spec (I.map Prod.fst) times he
  have hb : ∀ p ∈ ps, p.1 < p.2 → p.1 ∉ I.map Prod.fst := by
    intro p hp hlt hm
    obtain ⟨i, hi, e⟩ := List.mem_map.1 hm
    have := (hpar p.1).1 ((h4 p.1).1 ⟨p, hp, Int.le_refl _, hlt⟩)
    have hlt' := hI i hi
    exact this.2 ⟨i, hi, by omega, by omega⟩
  refine ⟨_, h1, ?_, List.Pairwise.filter _ h2, ?_⟩
  · intro p hp
    have hp := List.mem_filter.1 hp
    have := h3 p hp.1
    have hd := hp.2
    simp only [decide_eq_true_eq] at hd
    omega
  · intro t
    rw [covers_filter _ _ hb, h4, hpar]

theorem foldl_min (l : List (Int × Int)) : ∀ (m : Int),
    l.foldl (fun m j => if j.1 < m then j.1 else m) m ≤ m ∧
    (∀ j ∈ l, l.foldl (fun m j => if j.1 < m then j.1 else m) m ≤ j.1) ∧
    (l.foldl (fun m j => if j.1 < m then j.1 else m) m = m ∨
      ∃ j ∈ l, l.foldl (fun m j => if j.1 < m then j.1 else m) m = j.1) := by
  induction l with
  | nil => intro m; simp
  | cons a l ih =>
    intro m
    rw [List.foldl_cons]
    obtain ⟨h1, h2, h3⟩ := ih (if a.1 < m then a.1 else m)
    have e : (if a.1 < m then a.1 else m) ≤ m ∧ (if a.1 < m then a.1 else m) ≤ a.1 ∧
        ((if a.1 < m then a.1 else m) = m ∨ (if a.1 < m then a.1 else m) = a.1) := by
      split
      · exact ⟨by omega, Int.le_refl _, Or.inr rfl⟩
      · exact ⟨Int.le_refl _, by omega, Or.inl rfl⟩
    generalize (if a.1 < m then a.1 else m) = m1 at h1 h2 h3 e ⊢
    refine ⟨by omega, ?_, ?_⟩
    · intro j hj
      rcases List.mem_cons.1 hj with e' | hj
      · subst e'; omega
      · exact h2 j hj
    · rcases h3 with h3 | ⟨j, hj, h3⟩
      · rcases e.2.2 with e' | e'
        · left; omega
        · right; exact ⟨a, by simp, by omega⟩
      · right; exact ⟨j, by simp [hj], h3⟩

theorem foldl_max (l : List (Int × Int)) : ∀ (m : Int),
    m ≤ l.foldl (fun m j => if j.2 > m then j.2 else m) m ∧
    (∀ j ∈ l, j.2 ≤ l.foldl (fun m j => if j.2 > m then j.2 else m) m) ∧
    (l.foldl (fun m j => if j.2 > m then j.2 else m) m = m ∨
      ∃ j ∈ l, l.foldl (fun m j => if j.2 > m then j.2 else m) m = j.2) := by
  induction l with
  | nil => intro m; simp
  | cons a l ih =>
    intro m
    rw [List.foldl_cons]
    obtain ⟨h1, h2, h3⟩ := ih (if a.2 > m then a.2 else m)
    have e : m ≤ (if a.2 > m then a.2 else m) ∧ a.2 ≤ (if a.2 > m then a.2 else m) ∧
        ((if a.2 > m then a.2 else m) = m ∨ (if a.2 > m then a.2 else m) = a.2) := by
      split
      · exact ⟨by omega, Int.le_refl _, Or.inr rfl⟩
      · exact ⟨Int.le_refl _, by omega, Or.inl rfl⟩
    generalize (if a.2 > m then a.2 else m) = m1 at h1 h2 h3 e ⊢
    refine ⟨by omega, ?_, ?_⟩
    · intro j hj
      rcases List.mem_cons.1 hj with e' | hj
      · subst e'; omega
      · exact h2 j hj
    · rcases h3 with h3 | ⟨j, hj, h3⟩
      · rcases e.2.2 with e' | e'
        · left; omega
        · right; exact ⟨a, by simp, by omega⟩
      · right; exact ⟨j, by simp [hj], h3⟩

theorem upTo_replicate (t x : Int) (n : Nat) : upTo t (List.replicate n x) = if x ≤ t then n else 0 := by
  unfold upTo
  rw [List.countP_replicate]
  simp

/-- The times collected without a UEM file. -/
theorem hypTimes_spec (gs : List Group) (hs : List HSeg) (f c : String) (hne : spans gs f c ≠ []) :
    ∃ lo hi, hypTimes gs hs f c = some (List.replicate (ofKey hs f c).length lo ++ ends (spans gs f c) ++
        List.replicate (ofKey hs f c).length hi) ∧
      (∀ i ∈ spans gs f c, lo ≤ i.1 ∧ i.2 ≤ hi) ∧
      (∀ h ∈ ofKey hs f c, ∀ j ∈ h.toks, lo ≤ j.1 ∧ j.2 ≤ hi) ∧
      ((∃ i ∈ spans gs f c, lo = i.1) ∨ ∃ h ∈ ofKey hs f c, ∃ j ∈ h.toks, lo = j.1) ∧
      ((∃ i ∈ spans gs f c, hi = i.2) ∨ ∃ h ∈ ofKey hs f c, ∃ j ∈ h.toks, hi = j.2) := by
  cases hsp : spans gs f c with
  | nil => exact absurd hsp hne
  | cons i is =>
    obtain ⟨a1, a2, a3⟩ := foldl_min is i.1
    obtain ⟨b1, b2, b3⟩ := foldl_max is i.2
    obtain ⟨c1, c2, c3⟩ := foldl_min ((ofKey hs f c).flatMap HSeg.toks)
      (is.foldl (fun m j => if j.1 < m then j.1 else m) i.1)
    obtain ⟨d1, d2, d3⟩ := foldl_max ((ofKey hs f c).flatMap HSeg.toks)
      (is.foldl (fun m j => if j.2 > m then j.2 else m) i.2)
    refine ⟨_, _, by unfold hypTimes; rw [hsp]; rfl, ?_, ?_, ?_, ?_⟩
    · intro j hj
      rcases List.mem_cons.1 hj with e | hj
      · subst e; omega
      · have := a2 j hj; have := b2 j hj; omega
    · intro h hh j hj
      have hm : j ∈ (ofKey hs f c).flatMap HSeg.toks := List.mem_flatMap.2 ⟨h, hh, hj⟩
      exact ⟨c2 j hm, d2 j hm⟩
    · rcases c3 with c3 | ⟨j, hj, c3⟩
      · left
        rcases a3 with a3 | ⟨j, hj, a3⟩
        · exact ⟨i, by simp, by omega⟩
        · exact ⟨j, by simp [hj], by omega⟩
      · right
        obtain ⟨h, hh, hj⟩ := List.mem_flatMap.1 hj
        exact ⟨h, hh, j, hj, c3⟩
    · rcases d3 with d3 | ⟨j, hj, d3⟩
      · left
        rcases b3 with b3 | ⟨j, hj, b3⟩
        · exact ⟨i, by simp, by omega⟩
        · exact ⟨j, by simp [hj], by omega⟩
      · right
        obtain ⟨h, hh, hj⟩ := List.mem_flatMap.1 hj
        exact ⟨h, hh, j, hj, d3⟩

end Verif.Uem
