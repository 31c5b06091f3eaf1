import Verif.Infer.Words
import Verif.Lines.Props
import Verif.Text.Case
/-!
# The lexicon
-/
set_option autoImplicit false
namespace Verif.Infer
open Verif.Net Verif.Text Verif.Lines Verif.CharNet

theorem spn_chars (e : Enc) (set : List Nat) (hset : ∀ b ∈ set, b < 128) (cs : List (List Nat)) (hc : ∀ c ∈ cs, IsChar e c) :
    spn e set cs.flatten = some (cs.dropWhile (sepB set)).flatten := by
  induction cs with
  | nil => rfl
  | cons c cs ih =>
    obtain ⟨b, rest, e1, hn⟩ := isChar_cons (hc c (by simp))
    subst e1
    have hs := sepB_char hset hn
    simp only [List.flatten_cons, List.cons_append]
    unfold spn
    simp only [hn]
    by_cases hr : 1 < rest.length + 1
    · rw [if_pos hr]
      have : sepB set (b :: rest) = false := by
        cases rest with
        | nil => simp at hr
        | cons _ _ => rfl
      rw [List.dropWhile_cons_of_neg (by rw [this]; simp)]
      rfl
    · rw [if_neg hr]
      have hr' : rest = [] := by
        cases rest with
        | nil => rfl
        | cons _ _ => simp at hr
      subst hr'
      by_cases hb : b ∈ set
      · rw [if_pos hb, List.dropWhile_cons_of_pos (by simp [hs, hb]), List.nil_append, ih fun c h => hc c (by simp [h])]
      · rw [if_neg hb, List.dropWhile_cons_of_neg (by simp [hs, hb])]
        rfl

theorem takeWhile_all {α : Type} (p : α → Bool) : ∀ (l : List α) (x : α), x ∈ l.takeWhile p → p x = true := by
  intro l
  induction l with
  | nil => intro x h; cases h
  | cons a l ih =>
    intro x h
    by_cases hp : p a = true
    · rw [List.takeWhile_cons_of_pos hp] at h
      rcases List.mem_cons.1 h with h | h
      · rw [h]; exact hp
      · exact ih x h
    · rw [List.takeWhile_cons_of_neg hp] at h; cases h

theorem dropWhile_head {α : Type} (p : α → Bool) : ∀ (l : List α) (x : α), (l.dropWhile p).head? = some x → p x = false := by
  intro l
  induction l with
  | nil => intro x h; cases h
  | cons a l ih =>
    intro x h
    by_cases hp : p a = true
    · rw [List.dropWhile_cons_of_pos hp] at h; exact ih x h
    · rw [List.dropWhile_cons_of_neg hp] at h
      cases h
      exact Bool.eq_false_iff.2 hp

theorem firstField_spec (e : Enc) (l m : List Nat) (hm : Valid e m) (hn : xnewline l = m) :
    ∃ w, firstField e l = some w ∧ FirstWord e m w := by
  obtain ⟨cs, rfl, hc⟩ := hm
  have hset : ∀ b ∈ [32, 9, 10], b < 128 := by decide
  unfold firstField
  rw [hn, spn_chars e _ hset cs hc]
  dsimp only
  have hc2 : ∀ c ∈ cs.dropWhile (sepB [32, 9, 10]), IsChar e c := fun c h => hc c ((List.dropWhile_sublist _).subset h)
  rw [cspn_spec e _ hset _ hc2 _ (Nat.le_refl _)]
  refine ⟨_, rfl, cs.takeWhile (sepB [32, 9, 10]), (cs.dropWhile (sepB [32, 9, 10])).takeWhile (fun c => !sepB [32, 9, 10] c),
    (cs.dropWhile (sepB [32, 9, 10])).dropWhile (fun c => !sepB [32, 9, 10] c), ?_, ?_, ?_, ?_, ?_, ?_, rfl⟩
  · rw [List.append_assoc, List.takeWhile_append_dropWhile, List.takeWhile_append_dropWhile]
  · rw [List.append_assoc, List.takeWhile_append_dropWhile, List.takeWhile_append_dropWhile]; exact hc
  · intro c h; rw [← sepB_iff]; exact takeWhile_all _ _ _ h
  · intro c h
    have := takeWhile_all _ _ _ h
    rw [← sepB_iff]
    simpa using this
  · intro c h
    have := dropWhile_head _ _ _ h
    rw [← sepB_iff]
    simpa using this
  · intro h
    cases hd : cs.dropWhile (sepB [32, 9, 10]) with
    | nil => rfl
    | cons c ds =>
      have hh := dropWhile_head (sepB [32, 9, 10]) cs c (by rw [hd]; rfl)
      rw [hd, List.takeWhile_cons_of_pos (by simp [hh])] at h
      cases h

theorem mapM_spec {α β : Type} (f : α → Option β) (R : α → β → Prop) : ∀ l : List α, (∀ x ∈ l, ∃ y, f x = some y ∧ R x y) →
    ∃ ys, l.mapM f = some ys ∧ ys.length = l.length ∧ ∀ (i : Nat) (x : α) (y : β), l[i]? = some x → ys[i]? = some y → R x y := by
  intro l
  induction l with
  | nil => intro _; exact ⟨[], by simp, rfl, fun i x y h => by simp at h⟩
  | cons a l ih =>
    intro h
    obtain ⟨y, h1, h2⟩ := h a (by simp)
    obtain ⟨ys, g1, g2, g3⟩ := ih fun x hx => h x (by simp [hx])
    refine ⟨y :: ys, by rw [List.mapM_cons, h1, g1]; rfl, by simp [g2], ?_⟩
    intro i x z hx hz
    cases i with
    | zero => simp at hx hz; subst hx hz; exact h2
    | succ i => simp at hx hz; exact g3 i x z hx hz

theorem maxLen_go (e : Enc) : ∀ (lex : List (List Nat)) (m : Nat), (∀ w ∈ lex, Valid e w) →
    ∃ k, lex.foldlM (fun m w => (chrlen e w.length w).map fun s => if s > m then s else m) m = some k ∧ m ≤ k ∧
      (∀ cs : List (List Nat), (∀ c ∈ cs, IsChar e c) → cs.flatten ∈ lex → cs.length ≤ k) ∧
      (k = m ∨ ∃ cs : List (List Nat), (∀ c ∈ cs, IsChar e c) ∧ cs.flatten ∈ lex ∧ cs.length = k) := by
  intro lex
  induction lex with
  | nil => intro m _; exact ⟨m, rfl, Nat.le_refl _, fun cs _ h => (List.not_mem_nil h).elim, Or.inl rfl⟩
  | cons w lex ih =>
    intro m hv
    obtain ⟨cs, rfl, hc⟩ := hv w (by simp)
    rw [List.foldlM_cons, chrlen_ok e cs hc _ (Nat.le_refl _)]
    obtain ⟨k, h1, h2, h3, h4⟩ := ih (if cs.length > m then cs.length else m) fun w hw => hv w (by simp [hw])
    have hm : m ≤ k ∧ cs.length ≤ k := by
      by_cases hg : cs.length > m
      · rw [if_pos hg] at h2; omega
      · rw [if_neg hg] at h2; omega
    refine ⟨k, h1, hm.1, ?_, ?_⟩
    · intro ds hd hmem
      rcases List.mem_cons.1 hmem with he | hmem
      · have h5 := chrlen_ok e ds hd _ (Nat.le_refl _)
        rw [he, chrlen_ok e cs hc _ (Nat.le_refl _)] at h5
        rw [← Option.some.inj h5]
        exact hm.2
      · exact h3 ds hd hmem
    · rcases h4 with h4 | ⟨ds, d1, d2, d3⟩
      · by_cases hg : cs.length > m
        · rw [if_pos hg] at h4; exact Or.inr ⟨cs, hc, by simp, h4.symm⟩
        · rw [if_neg hg] at h4; exact Or.inl h4
      · exact Or.inr ⟨ds, d1, by simp [d2], d3⟩

theorem maxLen_spec (e : Enc) (lex : List (List Nat)) (hv : ∀ w ∈ lex, Valid e w) : ∃ k, maxLen e lex = some k ∧ Longest e lex k := by
  obtain ⟨k, h1, h2, h3, h4⟩ := maxLen_go e lex 1 hv
  exact ⟨k, h1, h2, h3, h4⟩

theorem text_chars {e : Enc} : ∀ xs : List CW, (∀ x ∈ xs, Valid e (textOf x) ∧ textOf x ≠ []) →
    ∃ cs : List (List Nat), xs.flatMap textOf = cs.flatten ∧ (∀ c ∈ cs, IsChar e c) ∧ xs.length ≤ cs.length := by
  intro xs
  induction xs with
  | nil => intro _; exact ⟨[], rfl, fun _ h => (List.not_mem_nil h).elim, Nat.le_refl _⟩
  | cons x xs ih =>
    intro h
    obtain ⟨⟨ds, h1, h2⟩, h3⟩ := h x (by simp)
    obtain ⟨cs, g1, g2, g3⟩ := ih fun y hy => h y (by simp [hy])
    refine ⟨ds ++ cs, by rw [List.flatMap_cons, g1, h1, List.flatten_append], ?_, ?_⟩
    · intro c hc
      rcases List.mem_append.1 hc with hc | hc
      · exact h2 c hc
      · exact g2 c hc
    · cases ds with
      | nil => exact absurd h1 h3
      | cons d ds => simp only [List.length_cons, List.length_append]; omega

theorem run_short {e : Enc} {lex : List (List Nat)} {k : Nat} (hk : Longest e lex k) {xs : List CW} (hne : xs ≠ []) (hj : ∀ x ∈ xs, Joinable e x)
    (hn : ∀ x ∈ xs, ¬ IsNull x) (hs : spelling xs ∈ lex) : xs.length ≤ k := by
  obtain ⟨cs, h1, h2, h3⟩ := text_chars xs fun x hx => (hj x hx).text
  have h4 : ¬ ∀ x ∈ xs, IsNull x := by
    obtain ⟨x, hx⟩ := List.exists_mem_of_ne_nil _ hne
    exact fun h => hn x hx (h x hx)
  have h5 : xs.filter (fun x => ¬ IsNull x) = xs := by
    rw [List.filter_eq_self]
    intro x hx
    simp [hn x hx]
  rw [spelling_real h4, h5, h1] at hs
  exact Nat.le_trans h3 (hk.bound cs h2 hs)

end Verif.Infer
