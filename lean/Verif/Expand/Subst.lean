import Verif.Expand.Spec
/-!
# Replacing a token of a graph by a graph
-/
set_option autoImplicit false
namespace Verif.Expand
open Verif.LineStyle (Word)

/-- The graph `E'`, `F'`, `L'` is the graph `E`, `F`, `L` with the token `t` replaced by the graph `R`, `S`, `T`, whose tokens are those
of `N`. -/
structure Replaced (E E' : Nat → Nat → Prop) (F F' L L' : Nat → Prop) (t : Nat) (N : Nat → Prop) (R : Nat → Nat → Prop) (S T : Nat → Prop) :
    Prop where
  links : ∀ x y, E' x y ↔ x ≠ t ∧ y ≠ t ∧ (E x y ∨ R x y ∨ (E x t ∧ S y) ∨ (T x ∧ E t y))
  first : ∀ y, F' y ↔ (F y ∧ y ≠ t) ∨ (F t ∧ S y)
  last : ∀ y, L' y ↔ (L y ∧ y ≠ t) ∨ (L t ∧ T y)
  old : ∀ x y, E x y → ¬ N x ∧ ¬ N y
  new : ∀ x y, R x y → N x ∧ N y
  starts : ∀ x, S x → N x
  ends : ∀ x, T x → N x
  oldF : ∀ x, F x → ¬ N x
  oldL : ∀ x, L x → ¬ N x
  self : ¬ N t
  noloop : ¬ E t t

variable {E E' : Nat → Nat → Prop} {F F' L L' : Nat → Prop} {t : Nat} {N : Nat → Prop} {R : Nat → Nat → Prop} {S T : Nat → Prop}
variable {V V' : Nat → List Word → Prop}

theorem subst_fwd (h : Replaced E E' F F' L L' t N R S T) (hV : ∀ x, x ≠ t → ¬ N x → ∀ u, (V' x u ↔ V x u))
    (ht : ∀ u, V t u ↔ ∃ n, S n ∧ Reads R T V' n u) {x : Nat} {u : List Word} (hr : Reads E' L' V' x u) :
    x ≠ t → (¬ N x → Reads E L V x u) ∧
      (N x → ∃ a b, u = a ++ b ∧ Reads R T V' x a ∧ ((b = [] ∧ L t) ∨ ∃ y, E t y ∧ Reads E L V y b)) := by
  induction hr with
  | @last x u hl hv =>
    intro hx
    constructor
    · intro hn
      rcases (h.last x).1 hl with ⟨h1, _⟩ | ⟨_, h1⟩
      · exact .last h1 ((hV x hx hn u).1 hv)
      · exact absurd (h.ends x h1) hn
    · intro hn
      rcases (h.last x).1 hl with ⟨h1, _⟩ | ⟨h0, h1⟩
      · exact absurd hn (h.oldL x h1)
      · exact ⟨u, [], by simp, .last h1 hv, Or.inl ⟨rfl, h0⟩⟩
  | @step x y u v hv he _ ih =>
    intro hx
    obtain ⟨_, hy, hc⟩ := (h.links x y).1 he
    obtain ⟨ih1, ih2⟩ := ih hy
    constructor
    · intro hn
      have hv' := (hV x hx hn u).1 hv
      rcases hc with hc | hc | ⟨hc, hs⟩ | ⟨hc, _⟩
      · exact .step hv' hc (ih1 (h.old x y hc).2)
      · exact absurd (h.new x y hc).1 hn
      · obtain ⟨a, b, rfl, ha, hb⟩ := ih2 (h.starts y hs)
        have hta : V t a := (ht a).2 ⟨y, hs, ha⟩
        refine .step hv' hc ?_
        rcases hb with ⟨rfl, hb⟩ | ⟨z, hz, hb⟩
        · rw [List.append_nil]
          exact .last hb hta
        · exact .step hta hz hb
      · exact absurd (h.ends x hc) hn
    · intro hn
      rcases hc with hc | hc | ⟨hc, _⟩ | ⟨hc, hz⟩
      · exact absurd hn (h.old x y hc).1
      · obtain ⟨a, b, rfl, ha, hb⟩ := ih2 (h.new x y hc).2
        exact ⟨u ++ a, b, by simp, .step hv hc ha, hb⟩
      · exact absurd hn (h.old x t hc).1
      · exact ⟨u, v, rfl, .last hc hv, Or.inr ⟨y, hz, ih1 (h.old t y hz).2⟩⟩

theorem glue_end (h : Replaced E E' F F' L L' t N R S T) (hl : L t) {n : Nat} {a : List Word} (hr : Reads R T V' n a) :
    Reads E' L' V' n a := by
  induction hr with
  | @last x u h1 hv => exact .last ((h.last x).2 (Or.inr ⟨hl, h1⟩)) hv
  | @step x y u v hv he _ ih =>
    have hn := h.new x y he
    refine .step hv ((h.links x y).2 ⟨?_, ?_, Or.inr (Or.inl he)⟩) ih
    · rintro rfl; exact h.self hn.1
    · rintro rfl; exact h.self hn.2

theorem glue_on (h : Replaced E E' F F' L L' t N R S T) {y : Nat} {b : List Word} (hy : E t y) (hb : Reads E' L' V' y b) {n : Nat}
    {a : List Word} (hr : Reads R T V' n a) : Reads E' L' V' n (a ++ b) := by
  induction hr with
  | @last x u h1 hv =>
    refine .step hv ((h.links x y).2 ⟨?_, ?_, Or.inr (Or.inr (Or.inr ⟨h1, hy⟩))⟩) hb
    · rintro rfl; exact h.self (h.ends _ h1)
    · rintro rfl; exact h.noloop hy
  | @step x z u v hv he _ ih =>
    have hn := h.new x z he
    rw [List.append_assoc]
    refine .step hv ((h.links x z).2 ⟨?_, ?_, Or.inr (Or.inl he)⟩) ih
    · rintro rfl; exact h.self hn.1
    · rintro rfl; exact h.self hn.2

theorem subst_bwd (h : Replaced E E' F F' L L' t N R S T) (hV : ∀ x, x ≠ t → ¬ N x → ∀ u, (V' x u ↔ V x u))
    (ht : ∀ u, V t u ↔ ∃ n, S n ∧ Reads R T V' n u) {x : Nat} {u : List Word} (hr : Reads E L V x u) (hn : ¬ N x) :
    (x ≠ t → Reads E' L' V' x u) ∧ (x = t → ∃ n, S n ∧ Reads E' L' V' n u) := by
  induction hr with
  | @last x u hl hv =>
    constructor
    · intro hx
      exact .last ((h.last x).2 (Or.inl ⟨hl, hx⟩)) ((hV x hx hn u).2 hv)
    · rintro rfl
      obtain ⟨n, hs, hr⟩ := (ht u).1 hv
      exact ⟨n, hs, glue_end h hl hr⟩
  | @step x y u v hv he _ ih =>
    obtain ⟨ih1, ih2⟩ := ih (h.old x y he).2
    constructor
    · intro hx
      have hv' := (hV x hx hn u).2 hv
      by_cases hy : y = t
      · subst hy
        obtain ⟨n, hs, hr⟩ := ih2 rfl
        refine .step hv' ((h.links x n).2 ⟨hx, ?_, Or.inr (Or.inr (Or.inl ⟨he, hs⟩))⟩) hr
        rintro rfl
        exact h.self (h.starts _ hs)
      · exact .step hv' ((h.links x y).2 ⟨hx, hy, Or.inl he⟩) (ih1 hy)
    · rintro rfl
      obtain ⟨n, hs, hr⟩ := (ht u).1 hv
      have hy : y ≠ x := by
        rintro rfl
        exact h.noloop he
      exact ⟨n, hs, glue_on h he (ih1 hy) hr⟩

/-- Replacing a token does not change what can be read, if the token stands for what can be read in its replacement. -/
theorem subst_lang (h : Replaced E E' F F' L L' t N R S T) (hV : ∀ x, x ≠ t → ¬ N x → ∀ u, (V' x u ↔ V x u))
    (ht : ∀ u, V t u ↔ ∃ n, S n ∧ Reads R T V' n u) (u : List Word) : Lang E' F' L' V' u ↔ Lang E F L V u := by
  constructor
  · rintro ⟨x, hx, hr⟩
    rcases (h.first x).1 hx with ⟨hf, hxt⟩ | ⟨hf, hs⟩
    · exact ⟨x, hf, (subst_fwd h hV ht hr hxt).1 (h.oldF x hf)⟩
    · have hn := h.starts x hs
      have hxt : x ≠ t := by
        rintro rfl
        exact h.self hn
      obtain ⟨a, b, rfl, ha, hb⟩ := (subst_fwd h hV ht hr hxt).2 hn
      have hta : V t a := (ht a).2 ⟨x, hs, ha⟩
      refine ⟨t, hf, ?_⟩
      rcases hb with ⟨rfl, hb⟩ | ⟨z, hz, hb⟩
      · rw [List.append_nil]
        exact .last hb hta
      · exact .step hta hz hb
  · rintro ⟨x, hx, hr⟩
    have h1 := subst_bwd h hV ht hr (h.oldF x hx)
    by_cases hxt : x = t
    · subst hxt
      obtain ⟨n, hs, hr'⟩ := h1.2 rfl
      exact ⟨n, (h.first n).2 (Or.inr ⟨hx, hs⟩), hr'⟩
    · exact ⟨x, (h.first x).2 (Or.inl ⟨hx, hxt⟩), h1.1 hxt⟩

theorem reads_congr (hE : ∀ x y, E x y ↔ E' x y) (hL : ∀ x, L x ↔ L' x) (hV : ∀ x u, V x u ↔ V' x u) {x : Nat} {u : List Word}
    (h : Reads E L V x u) : Reads E' L' V' x u := by
  induction h with
  | last h1 h2 => exact .last ((hL _).1 h1) ((hV _ _).1 h2)
  | step h1 h2 _ ih => exact .step ((hV _ _).1 h1) ((hE _ _).1 h2) ih

theorem lang_congr (hE : ∀ x y, E x y ↔ E' x y) (hF : ∀ x, F x ↔ F' x) (hL : ∀ x, L x ↔ L' x) (hV : ∀ x u, V x u ↔ V' x u) (u : List Word) :
    Lang E F L V u ↔ Lang E' F' L' V' u := by
  constructor
  · rintro ⟨x, hx, hr⟩
    exact ⟨x, (hF x).1 hx, reads_congr hE hL hV hr⟩
  · rintro ⟨x, hx, hr⟩
    exact ⟨x, (hF x).2 hx, reads_congr (fun x y => (hE x y).symm) (fun x => (hL x).symm) (fun x u => (hV x u).symm) hr⟩

end Verif.Expand
