import Verif.Rfilter.File
import Verif.Lines.Tok
/-!
# Facts on rewriting
-/
set_option autoImplicit false
namespace Verif.Rfilter
open Verif.Lines (isSpace cstr fgets takeLine takeLine_spec Ended cstr_eq)

/-- The number of rules used. -/
theorem rewrites_used {cs keep : Bool} {rules : List SRule} {b a out used : List Nat} (h : Rewrites cs keep rules b a out used) :
    used.length ≤ a.length := by
  induction h with
  | done => simp
  | replace b s rest out used i r hf hl _ ih =>
    have : r.source ≠ [] := hf.2.1.1
    have := List.length_pos_iff.2 this
    simp only [List.length_cons, List.length_append]
    omega
  | pass b c rest out used _ _ ih =>
    simp only [List.length_cons]
    omega

/-- Nothing applies anywhere. -/
theorem rewrites_same {cs : Bool} {rules : List SRule} {b a out used : List Nat} (h : Rewrites cs true rules b a out used)
    (hn : ∀ x y, a = x ++ y → ∀ r ∈ rules, ¬ Applies cs r (b ++ x) y) : out = a ∧ used = [] := by
  induction h with
  | done => exact ⟨rfl, rfl⟩
  | replace b s rest out used i r hf hl _ ih =>
    have := hn [] (s ++ rest) rfl r (List.mem_of_getElem? hf.1)
    rw [List.append_nil] at this
    exact absurd hf.2.1 this
  | pass b c rest out used _ _ ih =>
    obtain ⟨h1, h2⟩ := ih (fun x y e r hr => by
      have := hn (c :: x) y (by rw [e]; rfl) r hr
      simpa using this)
    rw [h1, h2]
    simp

theorem alike_nl {cs : Bool} {s t : List Nat} (h : Alike cs s t) : 10 ∈ s ↔ 10 ∈ t := by
  induction h with
  | nil => simp
  | cons a b s t hab _ ih =>
    have : 10 = a ↔ 10 = b := by
      split at hab
      · rw [hab]
      · rcases hab with h | h | h
        · rw [h]
        · omega
        · omega
    simp [ih, this]

/-- Newlines are neither made nor lost. -/
theorem rewrites_newlines {cs : Bool} {rules : List SRule} {b a out used : List Nat} (h : Rewrites cs true rules b a out used)
    (hn : ∀ r ∈ rules, 10 ∉ r.source ∧ 10 ∉ r.target) : out.count 10 = a.count 10 ∧ (∀ x, a = x ++ [10] → ∃ y, out = y ++ [10]) := by
  induction h with
  | done => simp
  | replace b s rest out used i r hf hl _ ih =>
    have hr := hn r (List.mem_of_getElem? hf.1)
    have hs : 10 ∉ s := by
      obtain ⟨_, _, _, s', rt, rest', _, e, _, h2, _⟩ := hf.2.1
      have : s = s' := (List.append_inj e (by rw [hl, h2.length])).1
      rw [this, alike_nl h2]
      exact hr.1
    refine ⟨?_, ?_⟩
    · rw [List.count_append, List.count_append, ih.1, List.count_eq_zero.2 hr.2, List.count_eq_zero.2 hs]
    · intro x e
      have hrest : ∃ x', rest = x' ++ [10] := by
        rcases List.eq_nil_or_concat rest with h | ⟨l', c, h⟩
        · rw [h, List.append_nil] at e
          exact absurd (by rw [e]; simp) hs
        · rw [List.concat_eq_append] at h
          rw [h, ← List.append_assoc] at e
          have := (List.append_inj' e rfl).2
          exact ⟨l', by rw [h, this]⟩
      obtain ⟨x', hx'⟩ := hrest
      obtain ⟨y, hy⟩ := ih.2 x' hx'
      exact ⟨r.target ++ y, by rw [hy]; simp⟩
  | pass b c rest out used _ hrec ih =>
    refine ⟨?_, ?_⟩
    · simp only [if_true, List.singleton_append, List.count_cons, ih.1]
    · intro x e
      cases x with
      | nil =>
        simp only [List.nil_append, List.cons.injEq] at e
        obtain ⟨rfl, rfl⟩ := e
        rcases rewrites_inv hrec with ⟨_, h, _⟩ | ⟨s, rest, _, _, i, r, e, _, _, hf, hl, _⟩ | ⟨c, rest, _, e, _⟩
        · exact ⟨[], by rw [h]; rfl⟩
        · have h1 := (List.append_eq_nil_iff.1 e.symm).1
          rw [h1] at hl
          exact absurd (List.length_eq_zero_iff.1 hl.symm) hf.2.1.1
        · cases e
      | cons z x =>
        simp only [List.cons_append, List.cons.injEq] at e
        obtain ⟨y, hy⟩ := ih.2 x e.2
        exact ⟨c :: y, by rw [hy]; simp⟩

/-! ## Texts that are alike up to case -/

theorem alike_append {cs : Bool} {s s' t t' : List Nat} (h : Alike cs s s') (h2 : Alike cs t t') : Alike cs (s ++ t) (s' ++ t') := by
  rw [alike_iff] at h h2 ⊢
  simp [h, h2]

theorem alike_split {cs : Bool} {s t u : List Nat} (h : Alike cs (s ++ t) u) :
    ∃ s' t', u = s' ++ t' ∧ Alike cs s s' ∧ Alike cs t t' := by
  refine ⟨u.take s.length, u.drop s.length, (List.take_append_drop _ _).symm, ?_, ?_⟩
  · rw [alike_iff] at h ⊢
    rw [List.map_take, ← h]
    simp
  · rw [alike_iff] at h ⊢
    rw [List.map_drop, ← h]
    simp

theorem applies_alike {cs : Bool} {r : SRule} {b a b' a' : List Nat} (hb : Alike cs b b') (ha : Alike cs a a')
    (h : Applies cs r b a) : Applies cs r b' a' := by
  obtain ⟨h0, f, l, s, rt, rest, e1, e2, h1, h2, h3⟩ := h
  subst e1 e2
  obtain ⟨f', l', rfl, _, hl⟩ := alike_split hb
  obtain ⟨s', q, rfl, hs, hq⟩ := alike_split ha
  obtain ⟨rt', rest', rfl, hrt, _⟩ := alike_split hq
  exact ⟨h0, f', l', s', rt', rest', rfl, rfl, hl.symm.trans h1, hs.symm.trans h2, hrt.symm.trans h3⟩

theorem firstApplies_alike {cs : Bool} {rules : List SRule} {i : Nat} {r : SRule} {b a b' a' : List Nat} (hb : Alike cs b b')
    (ha : Alike cs a a') (h : FirstApplies cs rules b a i r) : FirstApplies cs rules b' a' i r :=
  ⟨h.1, applies_alike hb ha h.2.1, fun j r' hj hr' hap => h.2.2 j r' hj hr' (applies_alike hb.symm ha.symm hap)⟩

/-- The rules used on alike texts are the same, and the results are alike. -/
theorem rewrites_alike {cs keep : Bool} {rules : List SRule} {b a out used : List Nat} (h : Rewrites cs keep rules b a out used)
    {b' a' : List Nat} (hb : Alike cs b b') (ha : Alike cs a a') :
    ∃ out', Rewrites cs keep rules b' a' out' used ∧ Alike cs out out' := by
  induction h generalizing b' a' with
  | done b =>
    cases ha
    exact ⟨[], .done _, .nil⟩
  | replace b s rest out used i r hf hl _ ih =>
    obtain ⟨s', rest', rfl, hs, hrest⟩ := alike_split ha
    obtain ⟨out', h1, h2⟩ := ih (alike_append hb hs) hrest
    exact ⟨r.target ++ out', .replace _ _ _ _ _ _ _ (firstApplies_alike hb ha hf) (by rw [← hl, hs.length]) h1,
      alike_append (Alike.refl ..) h2⟩
  | pass b c rest out used hn _ ih =>
    cases ha with
    | cons _ c' _ rest' hc hrest =>
      have hcc : Alike cs [c] [c'] := .cons _ _ _ _ hc .nil
      obtain ⟨out', h1, h2⟩ := ih (alike_append hb hcc) hrest
      refine ⟨(if keep = true then [c'] else []) ++ out', .pass _ _ _ _ _ ?_ h1, ?_⟩
      · intro r hr hap
        exact hn r hr (applies_alike hb.symm (Alike.cons _ _ _ _ hc hrest).symm hap)
      · apply alike_append _ h2
        split
        · exact hcc
        · exact .nil

/-! ## No loops -/

theorem parseRule_hang (l : List Nat) : parseRule l ≠ .hang := by
  rw [parseRule]
  split
  · intro h; cases h
  · split
    · intro h; cases h
    · split <;> intro h <;> cases h

theorem ruleLine_hang (flag : List Nat) (st : Rd) (raw : List Nat) : ruleLine flag st raw ≠ .hang := by
  rw [ruleLine]
  split
  · split
    · rw [auxLine]
      split <;> intro h <;> cases h
    · split
      · intro h; cases h
      · rw [dataLine]
        split
        · intro h; cases h
        · split <;> intro h <;> cases h
        · intro h; cases h
        · rename_i h
          exact absurd h (parseRule_hang _)
        · split
          · rw [store]
            split
            · split <;> intro h <;> cases h
            · intro h; cases h
          · intro h; cases h
  · intro h; cases h

theorem ruleLines_hang (flag : List Nat) (raws : List (List Nat)) (st : Rd) : ruleLines flag raws st ≠ .hang := by
  induction raws generalizing st with
  | nil => intro h; cases h
  | cons raw raws ih =>
    rw [ruleLines]
    split
    · exact ih _
    · intro h; cases h
    · intro h; cases h
    · rename_i h
      exact absurd h (ruleLine_hang _ _ _)

theorem getRules_hang (file : List Nat) : getRules file ≠ .hang := by
  rw [getRules]
  split
  · intro h; cases h
  · split
    · split <;> intro h <;> cases h
    · intro h; cases h
    · intro h; cases h
    · rename_i h
      exact absurd h (ruleLines_hang _ _ _)

theorem getLines_nul (n fuel : Nat) (s : List Nat) : ∀ t ∈ getLines n fuel s, ∀ b ∈ t, b ≠ 0 := by
  induction fuel generalizing s with
  | zero => simp [getLines]
  | succ fuel ih =>
    intro raw hraw
    rw [getLines] at hraw
    split at hraw
    · simp at hraw
    · rename_i l rest hg
      rcases List.mem_cons.1 hraw with hraw | hraw
      · intro b hb
        rw [hraw, cstr] at hb
        simpa using (Verif.Lines.mem_takeWhile hb).1
      · exact ih rest raw hraw

theorem filterLines_hang (rs : RuleSet) (hb : rs.Built) (ts : List (List Nat)) (h0 : ∀ t ∈ ts, ∀ b ∈ t, b ≠ 0) : filterLines rs ts ≠ .hang := by
  induction ts with
  | nil => intro h; cases h
  | cons t ts ih =>
    have hap : applyRules 100000 rs t ≠ .hang := by
      rw [applyRules]
      split
      · intro h; cases h
      · rcases applyLoop_spec 100000 rs hb t (h0 t (List.mem_cons_self ..)) (t.length + 1) 0 [] [] (by omega) (by omega) (by simp) with
          ⟨out, used, e, _⟩ | ⟨e, _⟩
        · rw [e]; intro h; cases h
        · rw [e]; intro h; cases h
    rw [filterLines]
    split
    · intro h; cases h
    · split
      · split
        · intro h; cases h
        · intro h; cases h
        · intro h; cases h
        · rename_i h
          exact absurd h (ih (fun t' ht' => h0 t' (List.mem_cons_of_mem _ ht')))
      · intro h; cases h
      · intro h; cases h
      · rename_i h
        exact absurd h hap

end Verif.Rfilter
