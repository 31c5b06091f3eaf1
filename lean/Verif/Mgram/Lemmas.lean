import Verif.Mgram.Model
import Verif.Mgram.Spec
/-!
# Lemmas on shorter n-grams
-/
set_option autoImplicit false
namespace Verif.Mgram

theorem ordered_iff {p g : List Nat} (h : p.length = g.length) : ordered p g = true ↔ ¬ g < p := by
  induction p generalizing g with
  | nil =>
    cases g with
    | nil => simp [ordered]
    | cons => cases h
  | cons x p ih =>
    cases g with
    | nil => cases h
    | cons y g =>
      have i := ih (Nat.succ.inj h)
      unfold ordered
      rw [List.cons_lt_cons_iff]
      by_cases h1 : y < x
      · rw [if_pos (by simpa using h1)]
        simp [h1]
      · rw [if_neg (by simpa using h1)]
        by_cases h2 : x < y
        · rw [if_pos (by simpa using h2)]
          refine ⟨fun _ => ?_, fun _ => rfl⟩
          rintro (q | ⟨q, _⟩) <;> omega
        · rw [if_neg (by simpa using h2), i]
          have : y = x := by omega
          subst this
          simp

theorem take_not_lt {p g : List Nat} (h : p.length = g.length) (hn : ¬ g < p) (m : Nat) : ¬ g.take m < p.take m := by
  induction p generalizing g m with
  | nil =>
    cases g with
    | nil => simp
    | cons => cases h
  | cons x p ih =>
    cases g with
    | nil => cases h
    | cons y g =>
      cases m with
      | zero => simp
      | succ m =>
        rw [List.take_succ_cons, List.take_succ_cons, List.cons_lt_cons_iff]
        rw [List.cons_lt_cons_iff] at hn
        rintro (q | ⟨q, r⟩)
        · exact hn (.inl q)
        · exact ih (Nat.succ.inj h) (fun e => hn (.inr ⟨q, e⟩)) m r

/-- What is written from an n-gram on. -/
def full (m : Nat) : List Nat → Int → File → File
  | p, t, [] => [(p.take m, t)]
  | p, t, (g, c) :: rs => if same m p g then full m g (t + c) rs else (p.take m, t) :: full m g c rs

/-- The last n-gram. -/
def lastGram : List Nat → File → List Nat
  | p, [] => p
  | _, (g, _) :: rs => lastGram g rs

/-- The count of the last. -/
def lastTotal (m : Nat) : List Nat → Int → File → Int
  | _, t, [] => t
  | p, t, (g, c) :: rs => if same m p g then lastTotal m g (t + c) rs else lastTotal m g c rs

/-- What is written before the last. -/
def early (m : Nat) : List Nat → Int → File → File
  | _, _, [] => []
  | p, t, (g, c) :: rs => if same m p g then early m g (t + c) rs else (p.take m, t) :: early m g c rs

theorem full_early (m : Nat) (p : List Nat) (t : Int) (rs : File) : full m p t rs = early m p t rs ++ [((lastGram p rs).take m, lastTotal m p t rs)] := by
  induction rs generalizing p t with
  | nil => rfl
  | cons x rs ih =>
    obtain ⟨g, c⟩ := x
    unfold full early lastGram lastTotal
    by_cases h : same m p g = true
    · rw [if_pos h, if_pos h, if_pos h]
      exact ih g (t + c)
    · rw [if_neg h, if_neg h, if_neg h, ih g c]
      rfl

/-- The n-grams in order, of one length. -/
def Good (n : Nat) (p : List Nat) (rs : File) : Prop := Ordered ((p, 0) :: rs) ∧ p.length = n ∧ ∀ x ∈ rs, x.1.length = n

theorem good_next {n : Nat} {p g : List Nat} {c : Int} {rs : File} (h : Good n p ((g, c) :: rs)) : ¬ g < p ∧ Good n g rs := by
  obtain ⟨h1, h2, h3⟩ := h
  refine ⟨h1.1, ?_, h3 _ List.mem_cons_self, fun x hx => h3 x (List.mem_cons_of_mem _ hx)⟩
  cases rs with
  | nil => trivial
  | cons y rs => exact h1.2

theorem rounds_good {n : Nat} (m : Nat) {p : List Nat} {rs : File} (h : Good n p rs) (prev : Option (List Nat)) (t : Int) :
    ∃ prev', rounds m prev (some p) t rs = some (early m p t rs, prev', some (lastGram p rs), lastTotal m p t rs) := by
  induction rs generalizing p t prev with
  | nil => exact ⟨prev, rfl⟩
  | cons x rs ih =>
    obtain ⟨g, c⟩ := x
    obtain ⟨h1, h2⟩ := good_next h
    have hl : p.length = g.length := by rw [h.2.1, h2.2.1]
    rw [rounds, if_pos ((ordered_iff hl).2 h1)]
    unfold early lastGram lastTotal
    by_cases hs : same m p g = true
    · rw [if_pos hs, if_pos hs, if_pos hs]
      exact ih h2 (some p) (t + c)
    · rw [if_neg hs, if_neg hs, if_neg hs]
      obtain ⟨prev', e⟩ := ih h2 (some p) c
      exact ⟨prev', by rw [e]; rfl⟩

theorem rounds_bad {n : Nat} (m : Nat) {p : List Nat} {rs : File} (hp : p.length = n) (hl : ∀ x ∈ rs, x.1.length = n)
    (h : ¬ Ordered ((p, 0) :: rs)) (prev : Option (List Nat)) (t : Int) : rounds m prev (some p) t rs = none := by
  induction rs generalizing p t prev with
  | nil => exact absurd trivial h
  | cons x rs ih =>
    obtain ⟨g, c⟩ := x
    have hg : g.length = n := hl _ List.mem_cons_self
    have hl' := fun y hy => hl y (List.mem_cons_of_mem (g, c) hy)
    rw [rounds]
    by_cases h1 : g < p
    · rw [if_neg]
      intro e
      exact (ordered_iff (by rw [hp, hg])).1 e h1
    · rw [if_pos ((ordered_iff (by rw [hp, hg])).2 h1)]
      have h2 : ¬ Ordered ((g, 0) :: rs) := by
        intro e
        refine h ⟨h1, ?_⟩
        cases rs with
        | nil => trivial
        | cons y rs => exact e
      rw [ih hg hl' h2, ih hg hl' h2]
      split <;> rfl

theorem full_total (m : Nat) (p : List Nat) (t : Int) (rs : File) (h : List Nat) : total h (full m p t rs) = (if p.take m = h then t else 0) + under m h rs := by
  induction rs generalizing p t with
  | nil => simp [full, total, under]
  | cons x rs ih =>
    obtain ⟨g, c⟩ := x
    unfold full
    by_cases hs : same m p g = true
    · rw [if_pos hs, ih]
      have e : p.take m = g.take m := by simpa [same] using hs
      rw [under, e]
      split <;> omega
    · rw [if_neg hs, total, ih]
      rfl

theorem full_ge {n : Nat} (m : Nat) {p : List Nat} {rs : File} (h : Good n p rs) (t : Int) : ∀ x ∈ full m p t rs, ¬ x.1 < p.take m := by
  induction rs generalizing p t with
  | nil =>
    intro x hx
    rw [List.mem_singleton.1 hx]
    exact List.lt_irrefl _
  | cons y rs ih =>
    obtain ⟨g, c⟩ := y
    obtain ⟨h1, h2⟩ := good_next h
    have ht := take_not_lt (by rw [h.2.1, h2.2.1]) h1 m
    have hrest : ∀ (t' : Int), ∀ x ∈ full m g t' rs, ¬ x.1 < p.take m := by
      intro t' x hx hlt
      have := ih h2 t' x hx
      rcases Std.lt_trichotomy (g.take m) (p.take m) with q | q | q
      · exact ht q
      · rw [← q] at hlt
        exact this hlt
      · exact this (List.lt_trans hlt q)
    unfold full
    split
    · exact hrest _
    · intro x hx
      rcases List.mem_cons.1 hx with rfl | hx
      · exact List.lt_irrefl _
      · exact hrest _ x hx

theorem full_sorted {n : Nat} (m : Nat) {p : List Nat} {rs : File} (h : Good n p rs) (t : Int) : (full m p t rs).Pairwise (fun a b => a.1 < b.1) := by
  induction rs generalizing p t with
  | nil => exact List.pairwise_singleton _ _
  | cons y rs ih =>
    obtain ⟨g, c⟩ := y
    obtain ⟨h1, h2⟩ := good_next h
    have ht := take_not_lt (by rw [h.2.1, h2.2.1]) h1 m
    unfold full
    by_cases hs : same m p g = true
    · rw [if_pos hs]
      exact ih h2 _
    · rw [if_neg hs]
      refine List.pairwise_cons.2 ⟨?_, ih h2 _⟩
      intro x hx
      have hne : p.take m ≠ g.take m := by simpa [same] using hs
      have hlt : p.take m < g.take m := by
        rcases Std.lt_trichotomy (p.take m) (g.take m) with q | q | q
        · exact q
        · exact absurd q hne
        · exact absurd q ht
      have := full_ge m h2 c x hx
      show p.take m < x.1
      rcases Std.lt_trichotomy x.1 (g.take m) with q | q | q
      · exact absurd q this
      · rw [q]
        exact hlt
      · exact List.lt_trans hlt q

theorem full_mem (m : Nat) (p : List Nat) (t : Int) (rs : File) (h : List Nat) :
    (∃ c, (h, c) ∈ full m p t rs) ↔ p.take m = h ∨ ∃ x ∈ rs, x.1.take m = h := by
  induction rs generalizing p t with
  | nil =>
    simp only [full, List.mem_singleton, Prod.mk.injEq]
    constructor
    · rintro ⟨c, e, _⟩
      exact .inl e.symm
    · rintro (e | ⟨x, hx, _⟩)
      · exact ⟨t, e.symm, rfl⟩
      · cases hx
  | cons y rs ih =>
    obtain ⟨g, c⟩ := y
    unfold full
    by_cases hs : same m p g = true
    · have e : p.take m = g.take m := by simpa [same] using hs
      rw [if_pos hs, ih, e]
      simp
    · rw [if_neg hs]
      constructor
      · rintro ⟨c', hc⟩
        rcases List.mem_cons.1 hc with e | hc
        · injection e with e1 e2
          exact .inl e1.symm
        · rcases (ih g c).1 ⟨c', hc⟩ with q | ⟨x, hx, q⟩
          · exact .inr ⟨(g, c), List.mem_cons_self, q⟩
          · exact .inr ⟨x, List.mem_cons_of_mem _ hx, q⟩
      · rintro (q | ⟨x, hx, q⟩)
        · exact ⟨t, by rw [q]; exact List.mem_cons_self⟩
        · rcases List.mem_cons.1 hx with rfl | hx
          · obtain ⟨c', hc⟩ := (ih g c).2 (.inl q)
            exact ⟨c', List.mem_cons_of_mem _ hc⟩
          · obtain ⟨c', hc⟩ := (ih g c).2 (.inr ⟨x, hx, q⟩)
            exact ⟨c', List.mem_cons_of_mem _ hc⟩

/-- Of records with falling counts those above a limit come first. -/
theorem take_above (c : Int) (l : List (String × Int)) (h : l.Pairwise (fun a b => b.2 ≤ a.2)) :
    l.take (l.filter (fun r => decide (c < r.2))).length = l.filter (fun r => decide (c < r.2)) := by
  induction l with
  | nil => rfl
  | cons a l ih =>
    obtain ⟨h1, h2⟩ := List.pairwise_cons.1 h
    by_cases hc : c < a.2
    · rw [List.filter_cons_of_pos (by simpa using hc), List.length_cons, List.take_succ_cons, ih h2]
    · rw [List.filter_cons_of_neg (by simpa using hc)]
      have : l.filter (fun r => decide (c < r.2)) = [] := by
        rw [List.filter_eq_nil_iff]
        intro x hx
        have := h1 x hx
        simp
        omega
      rw [this]
      rfl

end Verif.Mgram
