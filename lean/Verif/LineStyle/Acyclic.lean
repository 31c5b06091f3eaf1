import Verif.LineStyle.Lang
import Verif.LineStyle.Term
/-!
# Links lead from earlier to later tokens
-/
set_option autoImplicit false
namespace Verif.LineStyle

/-- Numbers of the tokens and direction of the links. -/
structure Fwd (p : Piece) (lo hi : Nat) : Prop where
  inside : Inside p lo hi
  le : lo ≤ hi
  up : ∀ e ∈ p.edges, e.1.id < e.2.id

/-- The same for the loop. -/
structure FwdSt (st : LoopSt) (lo : Nat) : Prop where
  out : Fwd st.out lo st.next
  prec : ∀ x ∈ st.prec.getD [], lo ≤ x.id ∧ x.id < st.next

theorem fwd_empty (c : Nat) : Fwd Piece.empty c c := ⟨inside_empty c c _, Nat.le_refl c, by simp [Piece.empty]⟩

theorem fwd_place {st : LoopSt} {lo : Nat} (h : FwdSt st lo) (q : Piece) (c : Nat) (hq : Fwd q st.next c) : FwdSt (place st q c) lo := by
  have ho := h.out.inside.mono (Nat.le_refl lo) hq.le
  have hi := hq.inside.mono h.out.le (Nat.le_refl c)
  refine ⟨⟨⟨?_, ?_, ?_⟩, Nat.le_trans h.out.le hq.le, ?_⟩, ?_⟩
  · intro x hx
    rcases List.mem_append.mp hx with hh | hh
    · exact ho.starts x hh
    · split at hh
      · exact hi.starts x hh
      · simp at hh
  · intro x hx
    rcases List.mem_append.mp hx with hh | hh
    · split at hh
      · exact ho.ends x hh
      · simp at hh
    · exact hi.ends x hh
  · intro e he
    rcases List.mem_append.mp he with hh | hh
    · rcases List.mem_append.mp hh with hh | hh
      · exact ho.edges e hh
      · exact hi.edges e hh
    · have hp := h.prec
      cases hpr : st.prec with
      | none => rw [hpr] at hh; simp at hh
      | some F =>
        rw [hpr] at hh hp
        obtain ⟨e1, e2⟩ := e
        have hl := mem_links.mp hh
        have h1 := hp e1 hl.1
        have h2 := hi.starts e2 hl.2
        have := hq.le
        exact ⟨⟨h1.1, by show e1.id < c; omega⟩, h2⟩
  · intro e he
    rcases List.mem_append.mp he with hh | hh
    · rcases List.mem_append.mp hh with hh | hh
      · exact h.out.up e hh
      · exact hq.up e hh
    · have hp := h.prec
      cases hpr : st.prec with
      | none => rw [hpr] at hh; simp at hh
      | some F =>
        rw [hpr] at hh hp
        obtain ⟨e1, e2⟩ := e
        have hl := mem_links.mp hh
        have h1 := hp e1 hl.1
        have h2 := hq.inside.starts e2 hl.2
        show e1.id < e2.id
        omega
  · intro x hx
    have hp := h.prec
    have hle := hq.le
    unfold place at hx
    simp only at hx
    show lo ≤ x.id ∧ x.id < c
    cases hpr : st.prec with
    | none => rw [hpr] at hx; exact hi.ends x hx
    | some F =>
      rw [hpr] at hx hp
      simp only at hx
      split at hx
      · rcases List.mem_append.mp hx with hh | hh
        · have := hp x hh; omega
        · exact hi.ends x hh
      · exact hi.ends x hx

theorem fwd_skip {st : LoopSt} {lo : Nat} (h : FwdSt st lo) : FwdSt st.skip lo :=
  ⟨⟨⟨h.out.inside.starts, h.out.inside.ends, h.out.inside.edges⟩, h.out.le, h.out.up⟩, h.prec⟩

theorem fwd_turn (par : List Word → Nat → Option (Piece × Nat)) (hpar : ∀ x c p c', par x c = some (p, c') → Fwd p c c') (n i : Nat)
    (x : List Word) (st st' : LoopSt) (lo : Nat) (h : FwdSt st lo) (ht : turn par n i x st = some st') : FwdSt st' lo := by
  unfold turn at ht
  split at ht
  · cases hx : par x st.next with
    | none => rw [hx] at ht; simp at ht
    | some r =>
      obtain ⟨p, c'⟩ := r
      rw [hx] at ht
      simp only [Option.some.injEq] at ht
      subst ht
      split
      · exact fwd_place (fwd_skip h) p c' (hpar _ _ _ _ hx)
      · exact fwd_place h p c' (hpar _ _ _ _ hx)
  · split at ht
    · split at ht
      · cases ht
        exact fwd_place (fwd_skip h) _ _ (fwd_empty _)
      · cases ht; exact h
    · cases ht
      refine fwd_place h _ _ ⟨?_, by omega, by simp⟩
      exact inside_one ⟨st.next, x.flatten, i, n⟩ false

theorem fwd_turns (par : List Word → Nat → Option (Piece × Nat)) (hpar : ∀ x c p c', par x c = some (p, c') → Fwd p c c') (n : Nat) :
    ∀ (items : List (List Word)) (i : Nat) (st st' : LoopSt) (lo : Nat), FwdSt st lo → turns par n i items st = some st' → FwdSt st' lo
  | [], i, st, st', lo, h, ht => by cases ht; exact h
  | x :: items, i, st, st', lo, h, ht => by
    rw [turns] at ht
    cases hx : turn par n i x st with
    | none => rw [hx] at ht; simp at ht
    | some s1 =>
      rw [hx] at ht
      exact fwd_turns par hpar n items (i + 1) s1 st' lo (fwd_turn par hpar n i x st s1 lo h hx) ht

theorem fwd_or (par : List Word → Nat → Option (Piece × Nat)) (hpar : ∀ x c p c', par x c = some (p, c') → Fwd p c c') :
    ∀ (ss : List (List Word)) (c : Nat) (p : Piece) (c' : Nat), orLoop par ss c = some (p, c') → Fwd p c c'
  | [], c, p, c', h => by cases h; exact fwd_empty c
  | x :: ss, c, p, c', h => by
    rw [orLoop] at h
    cases hx : par x c with
    | none => rw [hx] at h; simp at h
    | some r =>
      obtain ⟨q, c1⟩ := r
      rw [hx] at h
      simp only at h
      cases hy : orLoop par ss c1 with
      | none => rw [hy] at h; simp at h
      | some r2 =>
        obtain ⟨q2, c2⟩ := r2
        rw [hy] at h
        simp only [Option.some.injEq, Prod.mk.injEq] at h
        obtain ⟨rfl, rfl⟩ := h
        have h1 := hpar _ _ _ _ hx
        have h2 := fwd_or par hpar ss c1 q2 c2 hy
        have g1 := h1.inside.mono (Nat.le_refl c) h2.le
        have g2 := h2.inside.mono h1.le (Nat.le_refl c2)
        refine ⟨⟨?_, ?_, ?_⟩, Nat.le_trans h1.le h2.le, ?_⟩
        · intro y hy
          rcases List.mem_append.mp hy with h | h
          · exact g1.starts y h
          · exact g2.starts y h
        · intro y hy
          rcases List.mem_append.mp hy with h | h
          · exact g1.ends y h
          · exact g2.ends y h
        · intro y hy
          rcases List.mem_append.mp hy with h | h
          · exact g1.edges y h
          · exact g2.edges y h
        · intro y hy
          rcases List.mem_append.mp hy with h | h
          · exact h1.up y h
          · exact h2.up y h

theorem fwd_parse : ∀ (f : Nat) (ws : List Word) (c : Nat) (p : Piece) (c' : Nat), parse f ws c = some (p, c') → Fwd p c c'
  | 0, ws, c, p, c', h => by simp [parse] at h
  | f + 1, ws, c, p, c', h => by
    have ih := fwd_parse f
    rw [parse] at h
    split at h
    · rename_i s he
      cases hx : turns (parse f) (tokenise s).length 0 (tokenise s) ⟨Piece.empty, true, none, c⟩ with
      | none => rw [hx] at h; simp at h
      | some st =>
        rw [hx] at h
        simp only [Option.some.injEq, Prod.mk.injEq] at h
        obtain ⟨rfl, rfl⟩ := h
        exact (fwd_turns (parse f) ih _ (tokenise s) 0 _ st c ⟨fwd_empty c, by simp⟩ hx).out
    · exact fwd_or (parse f) ih _ _ _ _ h

end Verif.LineStyle
