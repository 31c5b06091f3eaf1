import Verif.Net.DP
/-!
# The loops fill the table according to the recursion
-/
set_option autoImplicit false
namespace Verif.Net
variable {W : Type}

/-- A network with the given arc numbering. -/
def viewOf (n : Net W) (l : List Nat) : View W :=
  ⟨l.length, fun a => (predIds n l a).getD [], fun a => (l[a]?).bind n.data⟩

theorem set_self (t : Table) (a b : Nat) (c : Cell) : t.set a b c a b = c := by simp [Table.set]
theorem set_ne (t : Table) (a b i j : Nat) (c : Cell) (h : i ≠ a ∨ j ≠ b) : t.set a b c i j = t i j := by
  unfold Table.set
  rw [if_neg]
  rintro ⟨h1, h2⟩
  rcases h with h | h
  · exact h h1
  · exact h h2

theorem pred_get {n : Net W} {l : List Nat} {a : Nat} (h : ∃ ids, predIds n l a = some ids) :
    predIds n l a = some ((viewOf n l).preds a) := by
  obtain ⟨ids, h⟩ := h
  simp [viewOf, h]

theorem marginB_ok (F : Funcs W) (nb : Net W) (lb : List Nat)
    (hp : ∀ b, b < lb.length → ∃ ids, predIds nb lb b = some ids)
    (hlt : ∀ b p, p ∈ (viewOf nb lb).preds b → p < b) :
    ∀ (k c : Nat) (t : Table), c + k ≤ lb.length →
      ∃ t', marginB F nb lb (List.range' c k) t = some t' ∧
        (∀ i j, (i ≠ 0 ∨ j < c ∨ c + k ≤ j) → t' i j = t i j) ∧
        (∀ b, c ≤ b → b < c + k → t' 0 b =
          ⟨(minOver (fun i => (t' 0 i).d) bigCell ((viewOf nb lb).preds b)).1 + F.dist none ((viewOf nb lb).word b), 0,
            toShort (minOver (fun i => (t' 0 i).d) bigCell ((viewOf nb lb).preds b)).2⟩) := by
  intro k
  induction k with
  | zero =>
    intro c t _
    exact ⟨t, rfl, fun _ _ _ => rfl, fun b h1 h2 => by omega⟩
  | succ k ih =>
    intro c t hc
    have hcl : c < lb.length := by omega
    rw [List.range'_succ]
    unfold marginB
    rw [pred_get (hp c hcl), List.getElem?_eq_getElem hcl]
    simp only
    obtain ⟨t', e1, e2, e3⟩ := ih (c + 1) (t.set 0 c
      ⟨(minOver (fun i => (t 0 i).d) bigCell ((viewOf nb lb).preds c)).1 + F.dist none (nb.data lb[c]), 0,
        toShort (minOver (fun i => (t 0 i).d) bigCell ((viewOf nb lb).preds c)).2⟩) (by omega)
    refine ⟨t', e1, ?_, ?_⟩
    · intro i j hij
      rw [e2 i j (by omega), set_ne _ _ _ _ _ _ (by omega)]
    · intro b h1 h2
      by_cases hb : b = c
      · subst hb
        have hcongr : minOver (fun i => (t' 0 i).d) bigCell ((viewOf nb lb).preds b) =
            minOver (fun i => (t 0 i).d) bigCell ((viewOf nb lb).preds b) := by
          apply minOver_congr
          intro i hi
          have := hlt b i hi
          rw [e2 0 i (by omega), set_ne _ _ _ _ _ _ (by omega)]
        rw [hcongr, e2 0 b (by omega), set_self]
        simp [viewOf, List.getElem?_eq_getElem hcl]
      · exact e3 b (by omega) (by omega)

theorem marginA_ok (F : Funcs W) (na : Net W) (la : List Nat)
    (hp : ∀ b, b < la.length → ∃ ids, predIds na la b = some ids)
    (hlt : ∀ b p, p ∈ (viewOf na la).preds b → p < b) :
    ∀ (k c : Nat) (t : Table), c + k ≤ la.length →
      ∃ t', marginA F na la (List.range' c k) t = some t' ∧
        (∀ i j, (j ≠ 0 ∨ i < c ∨ c + k ≤ i) → t' i j = t i j) ∧
        (∀ a, c ≤ a → a < c + k → t' a 0 =
          ⟨(minOver (fun i => (t' i 0).d) bigCell ((viewOf na la).preds a)).1 + F.dist ((viewOf na la).word a) none,
            toShort (minOver (fun i => (t' i 0).d) bigCell ((viewOf na la).preds a)).2, 0⟩) := by
  intro k
  induction k with
  | zero =>
    intro c t _
    exact ⟨t, rfl, fun _ _ _ => rfl, fun b h1 h2 => by omega⟩
  | succ k ih =>
    intro c t hc
    have hcl : c < la.length := by omega
    rw [List.range'_succ]
    unfold marginA
    rw [pred_get (hp c hcl), List.getElem?_eq_getElem hcl]
    simp only
    obtain ⟨t', e1, e2, e3⟩ := ih (c + 1) (t.set c 0
      ⟨(minOver (fun i => (t i 0).d) bigCell ((viewOf na la).preds c)).1 + F.dist (na.data la[c]) none,
        toShort (minOver (fun i => (t i 0).d) bigCell ((viewOf na la).preds c)).2, 0⟩) (by omega)
    refine ⟨t', e1, ?_, ?_⟩
    · intro i j hij
      rw [e2 i j (by omega), set_ne _ _ _ _ _ _ (by omega)]
    · intro b h1 h2
      by_cases hb : b = c
      · subst hb
        have hcongr : minOver (fun i => (t' i 0).d) bigCell ((viewOf na la).preds b) =
            minOver (fun i => (t i 0).d) bigCell ((viewOf na la).preds b) := by
          apply minOver_congr
          intro i hi
          have := hlt b i hi
          rw [e2 i 0 (by omega), set_ne _ _ _ _ _ _ (by omega)]
        rw [hcongr, e2 b 0 (by omega), set_self]
        simp [viewOf, List.getElem?_eq_getElem hcl]
      · exact e3 b (by omega) (by omega)

theorem cellOf_congr (F : Funcs W) (t1 t2 : Table) (a b : Nat) (x y : Option W) (idsA idsB : List Nat)
    (h1 : ∀ j ∈ idsB, t1 a j = t2 a j) (h2 : ∀ i ∈ idsA, t1 i b = t2 i b)
    (h3 : ∀ i ∈ idsA, ∀ j ∈ idsB, t1 i j = t2 i j) :
    cellOf F t1 a b x y idsA idsB = cellOf F t2 a b x y idsA idsB := by
  have e1 : minOver (fun i => (t1 a i).d) bigCell idsB = minOver (fun i => (t2 a i).d) bigCell idsB :=
    minOver_congr _ _ _ _ (fun j hj => by rw [h1 j hj])
  have e2 : minOver (fun i => (t1 i b).d) bigCell idsA = minOver (fun i => (t2 i b).d) bigCell idsA :=
    minOver_congr _ _ _ _ (fun j hj => by rw [h2 j hj])
  have e3 : minOver (fun p : Nat × Nat => (t1 p.1 p.2).d) bigCell (idsA.flatMap fun i => idsB.map fun j => (i, j)) =
      minOver (fun p : Nat × Nat => (t2 p.1 p.2).d) bigCell (idsA.flatMap fun i => idsB.map fun j => (i, j)) :=
    minOver_congr _ _ _ _ (fun p hp => by
      obtain ⟨i, hi, hp⟩ := List.mem_flatMap.1 hp
      obtain ⟨j, hj, hp⟩ := List.mem_map.1 hp
      subst hp
      simp only
      rw [h3 i hi j hj])
  unfold cellOf
  rw [e1, e2, e3]

theorem internalRow_ok (F : Funcs W) (na nb : Net W) (la lb : List Nat) (a : Nat)
    (ha : a < la.length)
    (hpA : ∀ b, b < la.length → ∃ ids, predIds na la b = some ids)
    (hltA : ∀ b p, p ∈ (viewOf na la).preds b → p < b)
    (hpB : ∀ b, b < lb.length → ∃ ids, predIds nb lb b = some ids)
    (hltB : ∀ b p, p ∈ (viewOf nb lb).preds b → p < b) :
    ∀ (k c : Nat) (t : Table), c + k ≤ lb.length →
      ∃ t', internalRow F na nb la lb a (List.range' c k) t = some t' ∧
        (∀ i j, (i ≠ a ∨ j < c ∨ c + k ≤ j) → t' i j = t i j) ∧
        (∀ b, c ≤ b → b < c + k → t' a b = cellOf F t' a b ((viewOf na la).word a) ((viewOf nb lb).word b)
          ((viewOf na la).preds a) ((viewOf nb lb).preds b)) := by
  intro k
  induction k with
  | zero =>
    intro c t _
    exact ⟨t, rfl, fun _ _ _ => rfl, fun b h1 h2 => by omega⟩
  | succ k ih =>
    intro c t hc
    have hcl : c < lb.length := by omega
    rw [List.range'_succ]
    unfold internalRow
    rw [pred_get (hpA a ha), pred_get (hpB c hcl), List.getElem?_eq_getElem hcl, List.getElem?_eq_getElem ha]
    simp only
    obtain ⟨t', e1, e2, e3⟩ := ih (c + 1) (t.set a c
      (cellOf F t a c (na.data la[a]) (nb.data lb[c]) ((viewOf na la).preds a) ((viewOf nb lb).preds c))) (by omega)
    refine ⟨t', e1, ?_, ?_⟩
    · intro i j hij
      rw [e2 i j (by omega), set_ne _ _ _ _ _ _ (by omega)]
    · intro b h1 h2
      by_cases hb : b = c
      · subst hb
        have hagree : ∀ i j, (i ≠ a ∨ j < b) → t' i j = t i j := by
          intro i j hij
          rw [e2 i j (by omega), set_ne _ _ _ _ _ _ (by omega)]
        rw [cellOf_congr F t' t a b]
        · rw [e2 a b (by omega), set_self]
          simp [viewOf, List.getElem?_eq_getElem hcl, List.getElem?_eq_getElem ha]
        · intro j hj; exact hagree a j (Or.inr (hltB b j hj))
        · intro i hi; exact hagree i b (Or.inl (by have := hltA a i hi; omega))
        · intro i hi j _; exact hagree i j (Or.inl (by have := hltA a i hi; omega))
      · exact e3 b (by omega) (by omega)

theorem internal_ok (F : Funcs W) (na nb : Net W) (la lb : List Nat) (hlb : 0 < lb.length)
    (hpA : ∀ b, b < la.length → ∃ ids, predIds na la b = some ids)
    (hltA : ∀ b p, p ∈ (viewOf na la).preds b → p < b)
    (hpB : ∀ b, b < lb.length → ∃ ids, predIds nb lb b = some ids)
    (hltB : ∀ b p, p ∈ (viewOf nb lb).preds b → p < b) :
    ∀ (k c : Nat) (t : Table), c + k ≤ la.length →
      ∃ t', internal F na nb la lb (List.range' c k) t = some t' ∧
        (∀ i j, (i < c ∨ c + k ≤ i ∨ j = 0) → t' i j = t i j) ∧
        (∀ a b, c ≤ a → a < c + k → 0 < b → b < lb.length → t' a b = cellOf F t' a b ((viewOf na la).word a)
          ((viewOf nb lb).word b) ((viewOf na la).preds a) ((viewOf nb lb).preds b)) := by
  intro k
  induction k with
  | zero =>
    intro c t _
    exact ⟨t, rfl, fun _ _ _ => rfl, fun a b h1 h2 => by omega⟩
  | succ k ih =>
    intro c t hc
    have hcl : c < la.length := by omega
    rw [List.range'_succ]
    unfold internal
    obtain ⟨t1, f1, f2, f3⟩ := internalRow_ok F na nb la lb c hcl hpA hltA hpB hltB (lb.length - 1) 1 t (by omega)
    rw [f1]
    simp only
    obtain ⟨t', e1, e2, e3⟩ := ih (c + 1) t1 (by omega)
    refine ⟨t', e1, ?_, ?_⟩
    · intro i j hij
      rw [e2 i j (by omega), f2 i j (by omega)]
    · intro a b h1 h2 h3 h4
      by_cases hac : a = c
      · subst hac
        have hagree : ∀ i j, i ≤ a → t' i j = t1 i j := fun i j hij => e2 i j (by omega)
        rw [cellOf_congr F t' t1 a b]
        · rw [hagree a b (by omega)]; exact f3 b (by omega) (by omega)
        · intro j _; exact hagree a j (by omega)
        · intro i hi; exact hagree i b (by have := hltA a i hi; omega)
        · intro i hi j _; exact hagree i j (by have := hltA a i hi; omega)
      · exact e3 a b (by omega) (by omega) h3 h4

theorem fill_ok (F : Funcs W) (na nb : Net W) (la lb : List Nat) (t0 : Table)
    (hla : 0 < la.length) (hlb : 0 < lb.length)
    (hpA : ∀ b, b < la.length → ∃ ids, predIds na la b = some ids)
    (hltA : ∀ b p, p ∈ (viewOf na la).preds b → p < b)
    (hpB : ∀ b, b < lb.length → ∃ ids, predIds nb lb b = some ids)
    (hltB : ∀ b p, p ∈ (viewOf nb lb).preds b → p < b) :
    ∃ t, fillTable F na nb la lb t0 = some t ∧ Filled F (viewOf na la) (viewOf nb lb) t := by
  obtain ⟨t1, a1, a2, a3⟩ := marginB_ok F nb lb hpB hltB (lb.length - 1) 1
    (t0.set 0 0 ⟨0, 65535, 65535⟩) (by omega)
  obtain ⟨t2, b1, b2, b3⟩ := marginA_ok F na la hpA hltA (la.length - 1) 1 t1 (by omega)
  obtain ⟨t3, c1, c2, c3⟩ := internal_ok F na nb la lb hlb hpA hltA hpB hltB (la.length - 1) 1 t2 (by omega)
  refine ⟨t3, by unfold fillTable; rw [a1]; simp only; rw [b1]; exact c1, ?_⟩
  have hrow : ∀ j, t3 0 j = t1 0 j := by
    intro j
    rw [c2 0 j (by omega), b2 0 j (by omega)]
  have hcol : ∀ i, t3 i 0 = t2 i 0 := fun i => c2 i 0 (by omega)
  refine ⟨?_, ?_, ?_, ?_⟩
  · rw [hrow, a2 0 0 (by omega), set_self]
  · intro b h1 h2
    have h2' : b < lb.length := h2
    have := a3 b (by omega) (by omega)
    simp only [← hrow] at this
    exact this
  · intro a h1 h2
    have h2' : a < la.length := h2
    have := b3 a (by omega) (by omega)
    simp only [← hcol] at this
    exact this
  · intro a b h1 h2 h3 h4
    have h2' : a < la.length := h2
    have h4' : b < lb.length := h4
    exact c3 a b (by omega) (by omega) h3 h4'

end Verif.Net
