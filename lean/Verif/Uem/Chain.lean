import Verif.Uem.Remove
/-!
# Lemmas on the removal of segments from a chain of tokens
-/
set_option autoImplicit false
namespace Verif.Uem
open Segmentor

/-- The segments hold the tokens `toks`, one after the other. -/
structure InChain (toks : Seg → List Nat) (w : World) : Prop where
  segs : w.segs.Nodup
  firsts : ∀ g ∈ w.segs, w.firsts g = (toks g).head?.toList
  lasts : ∀ g ∈ w.segs, w.lasts g = (toks g).getLast?.toList
  nodup : (w.segs.flatMap toks).Nodup
  linked : Linked w.prec w.next (w.segs.flatMap toks)

theorem split_at (l : List Nat) : l = [] ∨ ∃ a x, l = a ++ [x] := by
  rcases List.eq_nil_or_concat l with h | ⟨a, x, h⟩
  · exact Or.inl h
  · exact Or.inr ⟨a, x, by rw [h, List.concat_eq_append]⟩

theorem last_snoc (l : List Nat) (z : Nat) : (l ++ [z]).getLast? = some z := by simp

/-- The links after a removal of the stretch `f … l` between `a` and `b`. -/
theorem links_after (w : World) (g : Seg) (f l : Nat) (a b : List Nat)
    (hf : w.firsts g = [f]) (hl : w.lasts g = [l])
    (pf : w.prec f = a.getLast?.toList) (nl : w.next l = b.head?.toList)
    (na : ∀ p, a.getLast? = some p → w.next p = [f]) (pb : ∀ n, b.head? = some n → w.prec n = [l])
    (hg : g ∈ w.segs) :
    removeSegment w g = some { w with
      segs := w.segs.erase g,
      prec := fun y => if b.head? = some y then a.getLast?.toList else w.prec y,
      next := fun y => if a.getLast? = some y then b.head?.toList else w.next y } := by
  have e1 : before w g = a.getLast?.toList.map fun p => (p, f) := by
    unfold before; rw [hf]; simp [pf]
  have e2 : after w g = b.head?.toList.map fun n => (n, l) := by
    unfold after; rw [hl]; simp [nl]
  unfold removeSegment
  rw [e1, e2]
  cases ha : a.getLast? with
  | none =>
    cases hb : b.head? with
    | none => simp [unlink, reattach, hg]
    | some n =>
      have := pb n hb
      simp [unlink, reattach, hg, this]
      funext y
      by_cases hy : y = n
      · subst hy; simp [upd]
      · have : ¬ n = y := fun e => hy e.symm
        simp [upd, hy, this]
  | some p =>
    have hp := na p ha
    cases hb : b.head? with
    | none =>
      simp [unlink, reattach, attach, hg, hp]
      funext y
      by_cases hy : y = p
      · subst hy; simp [upd]
      · have : ¬ p = y := fun e => hy e.symm
        simp [upd, hy, this]
    | some n =>
      have hn := pb n hb
      simp [unlink, reattach, attach, hg, hp, hn]
      constructor
      · funext y
        by_cases hy : y = n
        · subst hy; simp [upd]
        · have : ¬ n = y := fun e => hy e.symm
          simp [upd, hy, this]
      · funext y
        by_cases hy : y = p
        · subst hy; simp [upd]
        · have : ¬ p = y := fun e => hy e.symm
          simp [upd, hy, this]

theorem removeSegment_chain (toks : Seg → List Nat) (w : World) (h : InChain toks w) (g : Seg) (hg : g ∈ w.segs) :
    ∃ w', removeSegment w g = some w' ∧ w'.segs = w.segs.erase g ∧ InChain toks w' := by
  obtain ⟨A, B, hAB, hgA⟩ : ∃ A B, w.segs = A ++ g :: B ∧ g ∉ A := by
    obtain ⟨A, B, e⟩ := List.append_of_mem hg
    refine ⟨A, B, e, ?_⟩
    intro hm
    have := h.segs
    rw [e, List.nodup_append] at this
    exact this.2.2 g hm g (by simp) rfl
  have herase : w.segs.erase g = A ++ B := by
    rw [hAB, List.erase_append_right _ hgA, List.erase_cons_head]
  have hmemE : ∀ q ∈ w.segs.erase g, q ∈ w.segs := fun q hq => List.mem_of_mem_erase hq
  have hts : w.segs.flatMap toks = A.flatMap toks ++ (toks g ++ B.flatMap toks) := by rw [hAB]; simp
  have hts' : (w.segs.erase g).flatMap toks = A.flatMap toks ++ B.flatMap toks := by rw [herase]; simp
  have hnd : ((w.segs.erase g).flatMap toks).Nodup := by
    rw [hts']
    have := h.nodup
    rw [hts] at this
    refine List.Nodup.sublist ?_ this
    exact List.Sublist.append (List.Sublist.refl _) (List.sublist_append_right _ _)
  generalize hga : A.flatMap toks = a at hts hts'
  generalize hgb : B.flatMap toks = b at hts hts'
  cases hT : toks g with
  | nil =>
    refine ⟨{ w with segs := w.segs.erase g }, ?_, rfl, h.segs.erase g, fun q hq => h.firsts q (hmemE q hq),
      fun q hq => h.lasts q (hmemE q hq), hnd, ?_⟩
    · unfold removeSegment
      have e1 : before w g = [] := by unfold before; rw [h.firsts g hg, hT]; rfl
      have e2 : after w g = [] := by unfold after; rw [h.lasts g hg, hT]; rfl
      rw [e1, e2]
      simp [unlink, reattach, hg]
    · have := h.linked
      rw [hts, hT, List.nil_append] at this
      show Linked w.prec w.next ((w.segs.erase g).flatMap toks)
      rw [hts']; exact this
  | cons f T0 =>
    obtain ⟨T1, l, hl⟩ : ∃ T1 l, f :: T0 = T1 ++ [l] := by
      rcases split_at (f :: T0) with e | e
      · cases e
      · exact e
    have hlk := h.linked
    have hnodup := h.nodup
    rw [hts, hT] at hlk hnodup
    have hF : w.firsts g = [f] := by rw [h.firsts g hg, hT]; rfl
    have hL : w.lasts g = [l] := by rw [h.lasts g hg, hT, hl]; simp
    have l1 := hlk a f (T0 ++ b) (by simp)
    have l2 := hlk (a ++ T1) l b (by rw [hl]; simp)
    have na : ∀ p, a.getLast? = some p → w.next p = [f] := by
      intro p hp
      rcases split_at a with e | ⟨a0, x, e⟩
      · subst e; cases hp
      · subst e
        simp at hp
        subst hp
        have := hlk a0 x ((f :: T0) ++ b) (by simp)
        rw [this.1]; rfl
    have pb : ∀ n, b.head? = some n → w.prec n = [l] := by
      intro n hn
      cases b with
      | nil => cases hn
      | cons x b0 =>
        simp at hn
        subst hn
        have := hlk (a ++ (f :: T0)) x b0 (by simp)
        rw [this.2, hl]; simp
    refine ⟨_, links_after w g f l a b hF hL l1.2 l2.1 na pb hg, rfl, h.segs.erase g,
      fun q hq => h.firsts q (hmemE q hq), fun q hq => h.lasts q (hmemE q hq), hnd, ?_⟩
    show Linked _ _ ((w.segs.erase g).flatMap toks)
    rw [hts']
    have hdis : ∀ x ∈ a, x ∉ b := by
      intro x hx hxb
      rw [List.nodup_append] at hnodup
      exact hnodup.2.2 x hx x (by simp [hxb]) rfl
    have hnda : a.Nodup := (List.nodup_append.1 hnodup).1
    have hndb : b.Nodup := (List.nodup_append.1 (List.nodup_append.1 hnodup).2.1).2.1
    intro u x v huv
    show (if a.getLast? = some x then b.head?.toList else w.next x) = _ ∧
      (if b.head? = some x then a.getLast?.toList else w.prec x) = _
    -- where is `x`?
    have hcase : (∃ v', a = u ++ x :: v' ∧ v = v' ++ b) ∨ (∃ u', b = u' ++ x :: v ∧ u = a ++ u') := by
      rcases List.append_eq_append_iff.1 huv with ⟨c, h1, h2⟩ | ⟨c, h1, h2⟩
      · exact Or.inr ⟨c, h2, h1⟩
      · cases c with
        | nil =>
          simp only [List.nil_append, List.append_nil] at h1 h2
          exact Or.inr ⟨[], by rw [List.nil_append]; exact h2.symm, by simp [h1]⟩
        | cons y c =>
          simp at h2
          obtain ⟨h2, h3⟩ := h2
          subst h2
          exact Or.inl ⟨c, h1, h3⟩
    rcases hcase with ⟨v', h1, h2⟩ | ⟨u', h1, h2⟩
    · have hxa : x ∈ a := by rw [h1]; simp
      have hxb : ¬ b.head? = some x := by
        intro e
        exact hdis x hxa (List.mem_of_mem_head? e)
      have := hlk u x (v' ++ ((f :: T0) ++ b)) (by rw [h1]; simp)
      rw [if_neg hxb]
      refine ⟨?_, this.2⟩
      rw [h2]
      cases v' with
      | nil =>
        have : a.getLast? = some x := by rw [h1]; simp
        rw [if_pos this]; rfl
      | cons y v' =>
        have hne : ¬ a.getLast? = some x := by
          intro e
          have hx2 : x ∈ y :: v' := by
            rcases split_at (y :: v') with e' | ⟨c, z, e'⟩
            · cases e'
            · rw [h1, e', show u ++ x :: (c ++ [z]) = (u ++ x :: c) ++ [z] by simp, last_snoc] at e
              rw [e', ← Option.some.inj e]; simp
          rw [h1, List.nodup_append, List.nodup_cons] at hnda
          exact hnda.2.1.1 hx2
        rw [if_neg hne, this.1]; rfl
    · have hxb : x ∈ b := by rw [h1]; simp
      have hxa : ¬ a.getLast? = some x := by
        intro e
        exact hdis x (List.mem_of_getLast? e) hxb
      have := hlk (a ++ ((f :: T0) ++ u')) x v (by rw [h1]; simp)
      rw [if_neg hxa]
      refine ⟨this.1, ?_⟩
      rw [h2]
      cases u' with
      | nil =>
        have : b.head? = some x := by rw [h1]; rfl
        rw [if_pos this]; simp
      | cons y u' =>
        have hne : ¬ b.head? = some x := by
          intro e
          rw [h1] at e
          simp at e
          rw [h1, e] at hndb
          simp at hndb
        rw [if_neg hne, this.2]
        rcases split_at (y :: u') with e | ⟨c, z, e⟩
        · cases e
        · rw [e, show a ++ (f :: T0 ++ (c ++ [z])) = (a ++ (f :: T0) ++ c) ++ [z] by simp,
            show a ++ (c ++ [z]) = (a ++ c) ++ [z] by simp, last_snoc, last_snoc]

theorem removeAll_chain (toks : Seg → List Nat) : ∀ (rs : List Seg) (w : World), InChain toks w →
    rs.Nodup → (∀ g ∈ rs, g ∈ w.segs) → ∃ w', removeAll rs w = some w' ∧
      w'.segs = w.segs.filter (fun g => decide (g ∉ rs)) ∧ InChain toks w' := by
  intro rs
  induction rs with
  | nil =>
    intro w h _ _
    refine ⟨w, rfl, ?_, h⟩
    rw [List.filter_eq_self.2]; simp
  | cons g rs ih =>
    intro w h hn hs
    rw [List.nodup_cons] at hn
    obtain ⟨w1, r1, r2, r3⟩ := removeSegment_chain toks w h g (hs g (by simp))
    obtain ⟨w2, q1, q2, q3⟩ := ih w1 r3 hn.2 (by
      intro x hx
      rw [r2, h.segs.mem_erase_iff]
      exact ⟨fun e => hn.1 (e ▸ hx), hs x (by simp [hx])⟩)
    refine ⟨w2, by unfold removeAll; rw [r1]; exact q1, ?_, q3⟩
    rw [q2, r2, h.segs.erase_eq_filter, List.filter_filter]
    apply List.filter_congr
    intro x _
    by_cases e : x = g <;> simp [e]

end Verif.Uem
