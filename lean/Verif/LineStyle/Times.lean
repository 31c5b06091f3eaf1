import Verif.LineStyle.Term
/-!
# The places of the tokens
-/
set_option autoImplicit false
namespace Verif.LineStyle

/-- Every token of the piece satisfies the condition. -/
structure All (P : Node → Prop) (p : Piece) : Prop where
  starts : ∀ x ∈ p.starts, P x
  ends : ∀ x ∈ p.ends, P x
  edges : ∀ e ∈ p.edges, P e.1 ∧ P e.2

/-- The tokens of the loop. -/
def AllSt (P : Node → Prop) (st : LoopSt) : Prop := All P st.out ∧ ∀ x ∈ st.prec.getD [], P x

theorem all_place (P : Node → Prop) (st : LoopSt) (q : Piece) (c : Nat) (h : AllSt P st) (hq : All P q) : AllSt P (place st q c) := by
  obtain ⟨ho, hp⟩ := h
  refine ⟨⟨?_, ?_, ?_⟩, ?_⟩
  · intro x hx
    rcases List.mem_append.mp hx with h | h
    · exact ho.starts x h
    · split at h
      · exact hq.starts x h
      · simp at h
  · intro x hx
    rcases List.mem_append.mp hx with h | h
    · split at h
      · exact ho.ends x h
      · simp at h
    · exact hq.ends x h
  · intro e he
    rcases List.mem_append.mp he with h | h
    · rcases List.mem_append.mp h with h | h
      · exact ho.edges e h
      · exact hq.edges e h
    · cases hpr : st.prec with
      | none => rw [hpr] at h; simp at h
      | some F =>
        rw [hpr] at h hp
        obtain ⟨e1, e2⟩ := e
        have hl : e1 ∈ F ∧ e2 ∈ q.starts := by
          simp only [links, List.mem_flatMap, List.mem_map, Prod.mk.injEq] at h
          obtain ⟨a, ha, b, hb, rfl, rfl⟩ := h
          exact ⟨ha, hb⟩
        exact ⟨hp e1 hl.1, hq.starts e2 hl.2⟩
  · intro x hx
    unfold place at hx
    simp only at hx
    cases hpr : st.prec with
    | none => rw [hpr] at hx; exact hq.ends x hx
    | some F =>
      rw [hpr] at hx hp
      simp only at hx
      split at hx
      · rcases List.mem_append.mp hx with h | h
        · exact hp x h
        · exact hq.ends x h
      · exact hq.ends x hx

theorem all_skip (P : Node → Prop) (st : LoopSt) (h : AllSt P st) : AllSt P st.skip := ⟨⟨h.1.starts, h.1.ends, h.1.edges⟩, h.2⟩

theorem all_empty (P : Node → Prop) : All P Piece.empty := ⟨by simp [Piece.empty], by simp [Piece.empty], by simp [Piece.empty]⟩

theorem all_turn (P : Node → Prop) (par : List Word → Nat → Option (Piece × Nat)) (hpar : ∀ x c p c', par x c = some (p, c') → All P p) (n i : Nat)
    (x : List Word) (st st' : LoopSt) (hP : ∀ c w, P ⟨c, w, i, n⟩) (h : AllSt P st) (ht : turn par n i x st = some st') : AllSt P st' := by
  unfold turn at ht
  split at ht
  · cases hx : par x st.next with
    | none => rw [hx] at ht; simp at ht
    | some r =>
      obtain ⟨p, c'⟩ := r
      rw [hx] at ht
      simp only [Option.some.injEq] at ht
      subst ht
      refine all_place P _ p c' ?_ (hpar _ _ _ _ hx)
      split
      · exact all_skip P st h
      · exact h
  · split at ht
    · split at ht
      · cases ht
        exact all_place P _ _ _ (all_skip P st h) (all_empty P)
      · cases ht; exact h
    · cases ht
      refine all_place P _ _ _ h ⟨?_, ?_, by simp⟩
      · intro y hy; simp only [List.mem_singleton] at hy; subst hy; exact hP _ _
      · intro y hy; simp only [List.mem_singleton] at hy; subst hy; exact hP _ _

theorem all_turns (P : Node → Prop) (par : List Word → Nat → Option (Piece × Nat)) (hpar : ∀ x c p c', par x c = some (p, c') → All P p) (n : Nat)
    (hP : ∀ i c w, i < n → P ⟨c, w, i, n⟩) : ∀ (items : List (List Word)) (i : Nat) (st st' : LoopSt), i + items.length = n → AllSt P st →
    turns par n i items st = some st' → AllSt P st'
  | [], i, st, st', _, h, ht => by cases ht; exact h
  | x :: items, i, st, st', hi, h, ht => by
    simp only [List.length_cons] at hi
    rw [turns] at ht
    cases hx : turn par n i x st with
    | none => rw [hx] at ht; simp at ht
    | some s1 =>
      rw [hx] at ht
      exact all_turns P par hpar n hP items (i + 1) s1 st' (by omega) (all_turn P par hpar n i x st s1 (fun c w => hP i c w (by omega)) h hx) ht

theorem all_or (P : Node → Prop) (par : List Word → Nat → Option (Piece × Nat)) (hpar : ∀ x c p c', par x c = some (p, c') → All P p) :
    ∀ (ss : List (List Word)) (c : Nat) (p : Piece) (c' : Nat), orLoop par ss c = some (p, c') → All P p
  | [], c, p, c', h => by cases h; exact all_empty P
  | x :: ss, c, p, c', h => by
    rw [orLoop] at h
    cases hx : par x c with
    | none => rw [hx] at h; simp at h
    | some r =>
      obtain ⟨q, c1⟩ := r
      rw [hx] at h
      simp only at h
      cases hy : orLoop par ss c1 with
      | none => rw [hy] at h; simp at h
      | some r2 =>
        obtain ⟨q2, c2⟩ := r2
        rw [hy] at h
        simp only [Option.some.injEq, Prod.mk.injEq] at h
        obtain ⟨rfl, rfl⟩ := h
        have h1 := hpar _ _ _ _ hx
        have h2 := all_or P par hpar ss c1 q2 c2 hy
        refine ⟨?_, ?_, ?_⟩
        · intro y hy
          rcases List.mem_append.mp hy with h | h
          · exact h1.starts y h
          · exact h2.starts y h
        · intro y hy
          rcases List.mem_append.mp hy with h | h
          · exact h1.ends y h
          · exact h2.ends y h
        · intro y hy
          rcases List.mem_append.mp hy with h | h
          · exact h1.edges y h
          · exact h2.edges y h

theorem all_parse (P : Node → Prop) (hP : ∀ i n c w, i < n → P ⟨c, w, i, n⟩) : ∀ (f : Nat) (ws : List Word) (c : Nat) (p : Piece) (c' : Nat),
    parse f ws c = some (p, c') → All P p
  | 0, ws, c, p, c', h => by simp [parse] at h
  | f + 1, ws, c, p, c', h => by
    have ih := all_parse P hP f
    rw [parse] at h
    split at h
    · rename_i s he
      cases hx : turns (parse f) (tokenise s).length 0 (tokenise s) ⟨Piece.empty, true, none, c⟩ with
      | none => rw [hx] at h; simp at h
      | some st =>
        rw [hx] at h
        simp only [Option.some.injEq, Prod.mk.injEq] at h
        obtain ⟨rfl, rfl⟩ := h
        exact (all_turns P (parse f) ih _ (fun i c w hi => hP i _ c w hi) (tokenise s) 0 _ st (by omega) ⟨all_empty P, by simp⟩ hx).1
    · exact all_or P (parse f) ih _ _ _ _ h

end Verif.LineStyle
