import Verif.Corresp.Model
/-!
# Lemmas about the comparison of systems
-/
set_option autoImplicit false
namespace Verif.Corresp
variable {W : Type}

theorem rowOf_spec {A : Type} (p : A → Bool) : ∀ (ss : List (List A)) (r : List Nat), rowOf p ss = some r →
    r.length = ss.length ∧ ∀ (k : Nat) (s : List A) (i : Nat), ss[k]? = some s → r[k]? = some i →
      (∃ x, s[i]? = some x ∧ p x = true) ∧ ∀ (j : Nat) (y : A), j < i → s[j]? = some y → p y = false
  | [], r, h => by unfold rowOf at h; cases h; exact ⟨rfl, by intro k s i h; simp at h⟩
  | s :: ss, r, h => by
    unfold rowOf at h
    cases hf : s.findIdx? p with
    | none => rw [hf] at h; cases h
    | some i =>
      rw [hf] at h
      simp only [Option.map_eq_some_iff] at h
      obtain ⟨r', h1, h2⟩ := h
      subst h2
      obtain ⟨a, b⟩ := rowOf_spec p ss r' h1
      refine ⟨by simp [a], ?_⟩
      intro k s' i' hs hi
      cases k with
      | zero =>
        simp only [List.getElem?_cons_zero, Option.some.injEq] at hs hi
        subst hs hi
        rw [List.findIdx?_eq_some_iff_getElem] at hf
        obtain ⟨hl, hp, hn⟩ := hf
        refine ⟨⟨s[i], List.getElem?_eq_getElem hl, hp⟩, ?_⟩
        intro j y hj hy
        have := hn j hj
        rw [List.getElem?_eq_getElem (by omega)] at hy
        simp only [Option.some.injEq] at hy
        rw [← hy]
        simpa using this
      | succ k =>
        simp only [List.getElem?_cons_succ] at hs hi
        exact b k s' i' hs hi

theorem rowOf_none {A : Type} (p : A → Bool) : ∀ (ss : List (List A)), rowOf p ss = none ↔ ∃ s ∈ ss, ∀ x ∈ s, p x = false
  | [] => by simp [rowOf]
  | s :: ss => by
    unfold rowOf
    cases hf : s.findIdx? p with
    | none =>
      simp only [true_iff]
      rw [List.findIdx?_eq_none_iff] at hf
      exact ⟨s, by simp, fun x hx => by simpa using hf x hx⟩
    | some i =>
      simp only [Option.map_eq_none_iff]
      rw [rowOf_none p ss]
      constructor
      · rintro ⟨t, h1, h2⟩; exact ⟨t, by simp [h1], h2⟩
      · rintro ⟨t, h1, h2⟩
        rcases List.mem_cons.mp h1 with rfl | h1
        · rw [List.findIdx?_eq_some_iff_getElem] at hf
          obtain ⟨hl, hp, _⟩ := hf
          have := h2 _ (List.getElem_mem hl)
          rw [this] at hp; cases hp
        · exact ⟨t, h1, h2⟩

theorem refs_skip : ∀ es : List (Entry W), refs (skip es) = refs es
  | [] => rfl
  | .ins _ :: es => by show refs (skip es) = refs es; exact refs_skip es
  | .ref _ _ :: _ => rfl

theorem skip_nil : ∀ es : List (Entry W), skip es = [] ↔ refs es = []
  | [] => by simp [skip, refs]
  | .ins _ :: es => by unfold skip refs; exact skip_nil es
  | .ref _ _ :: _ => by simp [skip, refs]

theorem skip_not_ins : ∀ (es l : List (Entry W)) (h : W), skip es ≠ .ins h :: l
  | [], l, h => by simp [skip]
  | .ins _ :: es, l, h => by unfold skip; exact skip_not_ins es l h
  | .ref _ _ :: _, l, h => by simp [skip]

theorem skip_length : ∀ es : List (Entry W), (skip es).length ≤ es.length
  | [] => by simp [skip]
  | .ins _ :: es => by unfold skip; have := skip_length es; simp; omega
  | .ref _ _ :: _ => by simp [skip]

theorem noTail_skip : ∀ (es : List (Entry W)), skip es ≠ [] → (NoTail (skip es) ↔ NoTail es)
  | [], h => by simp [skip] at h
  | .ins x :: es, h => by
    unfold skip at h ⊢
    rw [noTail_skip es h]
    unfold NoTail
    cases es with
    | nil => simp [skip] at h
    | cons e es => simp [List.getLast?_cons_cons]
  | .ref _ _ :: _, h => by simp [skip]

theorem noTail_cons_ref (r : W) (ok : Bool) (es : List (Entry W)) : NoTail (.ref r ok :: es) ↔ NoTail es := by
  unfold NoTail
  cases es with
  | nil => simp
  | cons e es => simp [List.getLast?_cons_cons]

theorem noTail_refs_nil : ∀ (es : List (Entry W)), refs es = [] → NoTail es → es = []
  | [], _, _ => rfl
  | .ins x :: es, h, hn => by
    exfalso
    cases es with
    | nil => exact hn x rfl
    | cons e es =>
      have := noTail_refs_nil (e :: es) h (by intro y hy; exact hn y (by rw [List.getLast?_cons_cons]; exact hy))
      cases this
  | .ref _ _ :: _, h, _ => by simp [refs] at h

theorem prefix_cons_iff (r s : W) (a b : List W) : (r :: a) <+: (s :: b) ↔ r = s ∧ a <+: b := List.cons_prefix_cons

/-- The loop over two alignments, exactly. -/
theorem refLoop_spec [DecidableEq W] : ∀ (f : Nat) (a b : List (Entry W)), a.length < f →
    (refLoop f a b = .differ ↔ ¬ refs a <+: refs b ∧ ¬ refs b <+: refs a) ∧
    (refLoop f a b = .same ↔ refs a = refs b ∨ (refs a <+: refs b ∧ NoTail a) ∨ (refs b <+: refs a ∧ NoTail b))
  | 0, a, b, h => by omega
  | f + 1, a, b, hf => by
    unfold refLoop
    by_cases hab : a = [] ∨ b = []
    · rw [if_pos hab]
      rcases hab with rfl | rfl
      · refine ⟨by simp [refs], iff_of_true rfl (Or.inr (Or.inl ⟨by simp [refs], by intro h; simp⟩))⟩
      · refine ⟨by simp [refs], iff_of_true rfl (Or.inr (Or.inr ⟨by simp [refs], by intro h; simp⟩))⟩
    · rw [if_neg hab]
      have hane : a ≠ [] := fun h => hab (Or.inl h)
      have hbne : b ≠ [] := fun h => hab (Or.inr h)
      have ra := refs_skip a
      have rb := refs_skip b
      have la := skip_length a
      cases hsa : skip a with
      | nil =>
        have hra : refs a = [] := (skip_nil a).mp hsa
        cases hsb : skip b with
        | nil =>
          have hrb : refs b = [] := (skip_nil b).mp hsb
          simp [hra, hrb]
        | cons y b' =>
          have hrb : refs b ≠ [] := fun h => by rw [(skip_nil b).mpr h] at hsb; cases hsb
          refine ⟨?_, ?_⟩
          · simp [hra]
          · constructor
            · intro h; simp at h
            · rintro (h | ⟨_, h⟩ | ⟨h, _⟩)
              · rw [hra] at h; exact absurd h.symm hrb
              · exact absurd (noTail_refs_nil a hra h) hane
              · rw [hra, List.prefix_nil] at h; exact absurd h hrb
      | cons x a' =>
        have hra : refs a ≠ [] := fun h => by rw [(skip_nil a).mpr h] at hsa; cases hsa
        cases x with
        | ins h => exact absurd hsa (skip_not_ins a a' h)
        | ref r ok =>
          cases hsb : skip b with
          | nil =>
            have hrb : refs b = [] := (skip_nil b).mp hsb
            refine ⟨?_, ?_⟩
            · simp [hrb]
            · constructor
              · intro h; simp at h
              · rintro (h | ⟨h, _⟩ | ⟨_, h⟩)
                · rw [hrb] at h; exact absurd h hra
                · rw [hrb, List.prefix_nil] at h; exact absurd h hra
                · exact absurd (noTail_refs_nil b hrb h) hbne
          | cons y b' =>
            cases y with
            | ins h => exact absurd hsb (skip_not_ins b b' h)
            | ref s ok' =>
              rw [hsa] at ra la
              rw [hsb] at rb
              have ta := noTail_skip a (by rw [hsa]; simp)
              have tb := noTail_skip b (by rw [hsb]; simp)
              rw [hsa, noTail_cons_ref] at ta
              rw [hsb, noTail_cons_ref] at tb
              have ra' : refs a = r :: refs a' := ra.symm
              have rb' : refs b = s :: refs b' := rb.symm
              simp only
              by_cases hrs : r = s
              · rw [if_pos hrs]
                subst hrs
                obtain ⟨i1, i2⟩ := refLoop_spec f a' b' (by simp only [List.length_cons] at la; omega)
                rw [i1, i2, ra', rb', List.cons_prefix_cons, List.cons_prefix_cons, ta, tb]
                simp
              · rw [if_neg hrs, ra', rb', List.cons_prefix_cons, List.cons_prefix_cons]
                constructor
                · simp only [true_iff]
                  exact ⟨fun h => hrs h.1, fun h => hrs h.1.symm⟩
                · constructor
                  · intro h; cases h
                  · rintro (h | ⟨h, _⟩ | ⟨h, _⟩)
                    · exact absurd (List.cons.inj h).1 hrs
                    · exact absurd h.1 hrs
                    · exact absurd h.1.symm hrs

end Verif.Corresp
