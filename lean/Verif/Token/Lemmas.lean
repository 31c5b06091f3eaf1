import Verif.Token.Spec
import Verif.Token.Model
/-! Lemmas: recursive Levenshtein function is the edit distance; `find` facts. -/
set_option autoImplicit false
namespace Verif.Token
variable {α : Type} [DecidableEq α]

/-- Recursive Levenshtein. -/
def lev : List α → List α → Nat
  | [], t => t.length
  | s, [] => s.length
  | a :: s, b :: t =>
    min (min (lev s (b :: t) + 1) (lev (a :: s) t + 1)) (lev s t + if a = b then 0 else 1)

omit [DecidableEq α] in
theorem Edits.trans' {n m : Nat} {s t u : List α} (h : Edits n s t) (h' : Edits m t u) :
    Edits (n + m) s u := by
  induction h with
  | refl => simpa using h'
  | step n s v t e _ ih =>
    have := Edits.step _ _ _ _ e (ih h')
    rw [show n + 1 + m = n + m + 1 by omega]; exact this

omit [DecidableEq α] in
theorem Edit.cons {s t : List α} (a : α) (h : Edit s t) : Edit (a :: s) (a :: t) := by
  cases h with
  | insert p q c => exact Edit.insert (a :: p) q c
  | delete p q c => exact Edit.delete (a :: p) q c
  | subst p q b c => exact Edit.subst (a :: p) q b c

omit [DecidableEq α] in
theorem Edits.cons {n : Nat} {s t : List α} (a : α) (h : Edits n s t) : Edits n (a :: s) (a :: t) := by
  induction h with
  | refl => exact .refl _
  | step n s u t e _ ih => exact .step _ _ _ _ (e.cons a) ih

omit [DecidableEq α] in
theorem edits_from_nil : ∀ t : List α, Edits t.length [] t
  | [] => .refl _
  | a :: t => .step _ _ _ _ (Edit.insert [] [] a) ((edits_from_nil t).cons a)

omit [DecidableEq α] in
theorem edits_to_nil : ∀ s : List α, Edits s.length s []
  | [] => .refl _
  | a :: s => .step _ _ _ _ (Edit.delete [] s a) (edits_to_nil s)

theorem lev_nil_left (t : List α) : lev [] t = t.length := by cases t <;> simp [lev]
theorem lev_nil_right (s : List α) : lev s [] = s.length := by cases s <;> simp [lev]

theorem lev_cons (a b : α) (s t : List α) : lev (a :: s) (b :: t) =
    min (min (lev s (b :: t) + 1) (lev (a :: s) t + 1)) (lev s t + if a = b then 0 else 1) := by
  rw [lev]

theorem edits_lev : ∀ (s t : List α), Edits (lev s t) s t
  | [], t => by rw [lev_nil_left]; exact edits_from_nil t
  | a :: s, [] => by rw [lev_nil_right]; exact edits_to_nil _
  | a :: s, b :: t => by
    rw [lev_cons]
    have h1 := edits_lev s (b :: t)
    have h2 := edits_lev (a :: s) t
    have h3 := edits_lev s t
    have g1 : Edits (lev s (b :: t) + 1) (a :: s) (b :: t) := .step _ _ _ _ (Edit.delete [] s a) h1
    have g2 : Edits (lev (a :: s) t + 1) (a :: s) (b :: t) :=
      h2.trans' (.step 0 _ _ _ (Edit.insert [] t b) (.refl _))
    have g3 : Edits (lev s t + if a = b then 0 else 1) (a :: s) (b :: t) := by
      by_cases e : a = b
      · subst e; simpa using h3.cons a
      · rw [if_neg e]; exact .step _ _ _ _ (Edit.subst [] s a b) (h3.cons b)
    rcases Nat.le_total (lev s (b :: t) + 1) (lev (a :: s) t + 1) with h | h
    · rw [Nat.min_eq_left h]
      rcases Nat.le_total (lev s (b :: t) + 1) (lev s t + if a = b then 0 else 1) with h' | h'
      · rw [Nat.min_eq_left h']; exact g1
      · rw [Nat.min_eq_right h']; exact g3
    · rw [Nat.min_eq_right h]
      rcases Nat.le_total (lev (a :: s) t + 1) (lev s t + if a = b then 0 else 1) with h' | h'
      · rw [Nat.min_eq_left h']; exact g2
      · rw [Nat.min_eq_right h']; exact g3
  termination_by s t => s.length + t.length

theorem lev_cons_right_le (s : List α) (b : α) (t : List α) : lev s (b :: t) ≤ lev s t + 1 := by
  cases s with
  | nil => simp [lev_nil_left]
  | cons a s => rw [lev_cons]; omega

theorem lev_cons_left_le (a : α) (s t : List α) : lev (a :: s) t ≤ lev s t + 1 := by
  cases t with
  | nil => simp [lev_nil_right]
  | cons b t => rw [lev_cons]; omega

theorem lev_le_cons_left (c : α) (q : List α) : ∀ u, lev q u ≤ lev (c :: q) u + 1
  | [] => by simp [lev_nil_right]; omega
  | b :: u => by
    have ih := lev_le_cons_left c q u
    have h1 := lev_cons_right_le q b u
    rw [lev_cons]
    split <;> omega

theorem lev_subst_head (a b : α) (q : List α) : ∀ u, lev (a :: q) u ≤ lev (b :: q) u + 1
  | [] => by simp [lev_nil_right]
  | x :: u => by
    have ih := lev_subst_head a b q u
    rw [lev_cons, lev_cons]
    split <;> split <;> omega

theorem lev_lipschitz_cons {s s' : List α} (y : α) (h : ∀ u, lev s u ≤ lev s' u + 1) :
    ∀ u, lev (y :: s) u ≤ lev (y :: s') u + 1
  | [] => by have := h []; simp [lev_nil_right] at this ⊢; omega
  | x :: u => by
    have ih := lev_lipschitz_cons y h u
    have h1 := h (x :: u)
    have h2 := h u
    rw [lev_cons, lev_cons]
    omega

theorem lev_lipschitz {s s' : List α} (h : Edit s s') : ∀ u, lev s u ≤ lev s' u + 1 := by
  cases h with
  | insert p q c =>
    induction p with
    | nil => exact lev_le_cons_left c q
    | cons y p ih => exact lev_lipschitz_cons y ih
  | delete p q c =>
    induction p with
    | nil => exact lev_cons_left_le c q
    | cons y p ih => exact lev_lipschitz_cons y ih
  | subst p q a b =>
    induction p with
    | nil => exact lev_subst_head a b q
    | cons y p ih => exact lev_lipschitz_cons y ih

theorem lev_self : ∀ s : List α, lev s s = 0
  | [] => lev_nil_left []
  | a :: s => by rw [lev_cons, lev_self s]; simp

theorem lev_le_of_edits {n : Nat} {s t : List α} (h : Edits n s t) : lev s t ≤ n := by
  induction h with
  | refl s => rw [lev_self]; exact Nat.le_refl _
  | step n s u t e _ ih =>
    have := lev_lipschitz e t
    omega

omit [DecidableEq α] in
theorem Edit.reverse {s t : List α} (h : Edit s t) : Edit s.reverse t.reverse := by
  cases h with
  | insert p q c => simpa using Edit.insert q.reverse p.reverse c
  | delete p q c => simpa using Edit.delete q.reverse p.reverse c
  | subst p q a b => simpa using Edit.subst q.reverse p.reverse a b

omit [DecidableEq α] in
theorem Edits.reverse {n : Nat} {s t : List α} (h : Edits n s t) : Edits n s.reverse t.reverse := by
  induction h with
  | refl => exact .refl _
  | step n s u t e _ ih => exact .step _ _ _ _ e.reverse ih

/-- The cell `(i, j)` of the dynamic programme. -/
def cellVal (s t : List α) (i j : Nat) : Nat := lev (s.take i).reverse (t.take j).reverse

theorem cellVal_isEditDistance (s t : List α) : IsEditDistance s t (cellVal s t s.length t.length) := by
  unfold cellVal
  rw [List.take_length, List.take_length]
  constructor
  · have := (edits_lev s.reverse t.reverse).reverse
    simpa using this
  · intro k hk
    exact lev_le_of_edits hk.reverse

theorem cellVal_zero_left (s t : List α) (j : Nat) (h : j ≤ t.length) : cellVal s t 0 j = j := by
  unfold cellVal; simp [lev_nil_left]; omega

theorem cellVal_zero_right (s t : List α) (i : Nat) (h : i ≤ s.length) : cellVal s t i 0 = i := by
  unfold cellVal; simp [lev_nil_right]; omega

omit [DecidableEq α] in
theorem take_succ_reverse (s : List α) (i : Nat) {a : α} (h : s[i]? = some a) :
    (s.take (i + 1)).reverse = a :: (s.take i).reverse := by
  rw [List.take_add_one, h]; simp

theorem cellVal_succ (s t : List α) (i j : Nat) {a b : α} (ha : s[i]? = some a) (hb : t[j]? = some b) :
    cellVal s t (i + 1) (j + 1) =
      min (min (cellVal s t (i + 1) j + 1) (cellVal s t i (j + 1) + 1))
        (cellVal s t i j + if a = b then 0 else 1) := by
  unfold cellVal
  rw [take_succ_reverse s i ha, take_succ_reverse t j hb, lev_cons]
  omega

/-! ### loops -/

/-- Which cells hold their final value. -/
def Filled (s t : List α) (n mm : Nat) (mem : Mem) (i0 j0 : Nat) : Prop :=
  mem.size = mm * n ∧ ∀ i j, i < n → j < mm → (i = 0 ∨ j = 0 ∨ i < i0 ∨ (i = i0 ∧ j < j0)) →
    mem.cell (j * n + i) = some (cellVal s t i j)

omit [DecidableEq α] in
theorem addr_lt {n mm i j : Nat} (hi : i < n) (hj : j < mm) : j * n + i < mm * n := by
  have : (j + 1) * n ≤ mm * n := Nat.mul_le_mul_right n hj
  rw [Nat.succ_mul] at this; omega

omit [DecidableEq α] in
theorem addr_inj {n i j i' j' : Nat} (hi : i < n) (hi' : i' < n) (h : j * n + i = j' * n + i') :
    i = i' ∧ j = j' := by
  have h1 : (j * n + i) % n = i := by
    rw [Nat.add_comm, Nat.add_mul_mod_self_right, Nat.mod_eq_of_lt hi]
  have h2 : (j' * n + i') % n = i' := by
    rw [Nat.add_comm, Nat.add_mul_mod_self_right, Nat.mod_eq_of_lt hi']
  have e : i = i' := by rw [← h1, h, h2]
  subst e
  refine ⟨rfl, ?_⟩
  have : j * n = j' * n := by omega
  exact Nat.eq_of_mul_eq_mul_right (by omega) this

theorem innerLoop_spec (s t : List α) (i : Nat) (hi0 : 0 < i) (hi : i < s.length + 1) :
    ∀ (k : Nat) (mem : Mem), k ≤ t.length →
      Filled s t (s.length + 1) (t.length + 1) mem i (t.length + 1 - k) →
      ∃ mem', innerLoop s t (s.length + 1) i ((List.range (t.length + 1)).drop (t.length + 1 - k)) mem =
        some mem' ∧ Filled s t (s.length + 1) (t.length + 1) mem' i (t.length + 1)
  | 0, mem, _, h => by
    refine ⟨mem, ?_, h⟩
    rw [List.drop_of_length_le (by simp)]
    rw [innerLoop]
  | k + 1, mem, hk, h => by
    generalize hj : t.length + 1 - (k + 1) = j at h ⊢
    have hjl : j < t.length + 1 := by omega
    have hj0 : 0 < j := by omega
    have hdrop : (List.range (t.length + 1)).drop j = j :: (List.range (t.length + 1)).drop (j + 1) := by
      rw [List.drop_eq_getElem_cons (by simpa using hjl)]; simp
    rw [hdrop, innerLoop]
    obtain ⟨i', rfl⟩ : ∃ i', i = i' + 1 := ⟨i - 1, by omega⟩
    obtain ⟨j', rfl⟩ : ∃ j', j = j' + 1 := ⟨j - 1, by omega⟩
    have ha : s[i']? = some (s[i']'(by omega)) := List.getElem?_eq_getElem _
    have hb : t[j']? = some (t[j']'(by omega)) := List.getElem?_eq_getElem _
    simp only [Nat.add_sub_cancel, ha, hb]
    obtain ⟨hsz, hf⟩ := h
    have rd : ∀ x y, x < s.length + 1 → y < t.length + 1 →
        (x = 0 ∨ y = 0 ∨ x < i' + 1 ∨ (x = i' + 1 ∧ y < j' + 1)) →
        mem.read (y * (s.length + 1) + x) = some (cellVal s t x y) := by
      intro x y hx hy hc
      unfold Mem.read
      rw [if_pos (by rw [hsz]; exact addr_lt hx hy)]
      exact hf x y hx hy hc
    have r1 := rd (i' + 1) j' hi (by omega) (by omega)
    have r2 := rd i' (j' + 1) (by omega) hjl (by omega)
    have r3 := rd i' j' (by omega) (by omega) (by omega)
    have e2 : (j' + 1) * (s.length + 1) + (i' + 1) - 1 = (j' + 1) * (s.length + 1) + i' := by omega
    have e3 : j' * (s.length + 1) + (i' + 1) - 1 = j' * (s.length + 1) + i' := by omega
    rw [e2, e3, r1, r2, r3]
    simp only
    have hin : (j' + 1) * (s.length + 1) + (i' + 1) < mem.size := by rw [hsz]; exact addr_lt hi hjl
    unfold Mem.write
    rw [if_pos hin]
    simp only
    have hval := cellVal_succ s t i' j' ha hb
    have key := innerLoop_spec s t (i' + 1) hi0 hi k
      { mem with cell := (fun x => if x = (j' + 1) * (s.length + 1) + (i' + 1)
                                    then some (cellVal s t (i' + 1) (j' + 1))
                                    else mem.cell x) } (by omega)
      ⟨hsz, by
        intro x y hx hy hc
        simp only
        by_cases e : y * (s.length + 1) + x = (j' + 1) * (s.length + 1) + (i' + 1)
        · rw [if_pos e]
          obtain ⟨e1, e2⟩ := addr_inj hx hi e
          rw [e1, e2]
        · rw [if_neg e]
          apply hf x y hx hy
          rcases hc with h | h | h | ⟨h1, h2⟩
          · exact Or.inl h
          · exact Or.inr (Or.inl h)
          · exact Or.inr (Or.inr (Or.inl h))
          · refine Or.inr (Or.inr (Or.inr ⟨h1, ?_⟩))
            have : y ≠ j' + 1 := by
              intro e'; apply e; rw [e', h1]
            omega⟩
    have ed : t.length + 1 - k = j' + 1 + 1 := by omega
    rw [ed] at key
    obtain ⟨mem', h1, h2⟩ := key
    refine ⟨mem', ?_, h2⟩
    rw [← h1, hval]

theorem outerLoop_spec (s t : List α) :
    ∀ (k : Nat) (mem : Mem), k ≤ s.length →
      Filled s t (s.length + 1) (t.length + 1) mem (s.length + 1 - k) 0 →
      ∃ mem', outerLoop s t (s.length + 1) (t.length + 1)
          ((List.range (s.length + 1)).drop (s.length + 1 - k)) mem = some mem' ∧
        Filled s t (s.length + 1) (t.length + 1) mem' (s.length + 1) 0
  | 0, mem, _, h => by
    refine ⟨mem, ?_, h⟩
    rw [List.drop_of_length_le (by simp)]
    rw [outerLoop]
  | k + 1, mem, hk, h => by
    generalize hi : s.length + 1 - (k + 1) = i at h ⊢
    have hil : i < s.length + 1 := by omega
    have hdrop : (List.range (s.length + 1)).drop i = i :: (List.range (s.length + 1)).drop (i + 1) := by
      rw [List.drop_eq_getElem_cons (by simpa using hil)]; simp
    rw [hdrop, outerLoop]
    obtain ⟨m1, h1, h2⟩ := innerLoop_spec s t i (by omega) hil t.length mem (Nat.le_refl _)
      ⟨h.1, fun x y hx hy hc => h.2 x y hx hy (by omega)⟩
    have e1 : t.length + 1 - t.length = 1 := by omega
    rw [e1] at h1
    rw [h1]
    simp only
    obtain ⟨m2, h3, h4⟩ := outerLoop_spec s t k m1 (by omega)
      ⟨h2.1, fun x y hx hy hc => h2.2 x y hx hy (by omega)⟩
    have e2 : s.length + 1 - k = i + 1 := by omega
    rw [e2] at h3
    exact ⟨m2, h3, h4⟩

omit [DecidableEq α] in
theorem initLoop_spec (f : Nat → Nat) : ∀ (ks : List Nat) (m : Mem), (∀ k ∈ ks, f k < m.size) →
    (∀ a b, f a = f b → a = b) →
    ∃ m', initLoop f ks m = some m' ∧ m'.size = m.size ∧ (∀ k ∈ ks, m'.cell (f k) = some k) ∧
      ∀ x, (∀ k ∈ ks, f k ≠ x) → m'.cell x = m.cell x
  | [], m, _, _ => ⟨m, by rw [initLoop], rfl, by simp, fun _ _ => rfl⟩
  | k :: ks, m, hb, hinj => by
    rw [initLoop]
    unfold Mem.write
    rw [if_pos (hb k (by simp))]
    simp only
    obtain ⟨m', h1, h2, h3, h4⟩ := initLoop_spec f ks
      { m with cell := fun x => if x = f k then some k else m.cell x }
      (fun x hx => hb x (by simp [hx])) hinj
    refine ⟨m', h1, h2, ?_, ?_⟩
    · intro x hx
      by_cases hmem : x ∈ ks
      · exact h3 x hmem
      · rcases List.mem_cons.1 hx with rfl | hx
        · rw [h4 (f x) (fun y hy e => hmem (by rw [← hinj _ _ e]; exact hy))]
          simp
        · exact absurd hx hmem
    · intro x hx
      rw [h4 x (fun y hy => hx y (by simp [hy]))]
      simp only
      rw [if_neg (fun e => hx k (by simp) e.symm)]

theorem editDistance_eq (s t : List α) (hs : s ≠ []) (ht : t ≠ []) :
    editDistance s t = some (cellVal s t s.length t.length) := by
  have hs0 : 0 < s.length := List.length_pos_iff.2 hs
  have ht0 : 0 < t.length := List.length_pos_iff.2 ht
  unfold editDistance
  rw [if_pos ⟨by omega, by omega⟩]
  simp only
  obtain ⟨m1, a1, a2, a3, a4⟩ := initLoop_spec (fun k => k) (List.range (s.length + 1))
    ⟨(t.length + 1) * (s.length + 1), fun _ => none⟩
    (fun k hk => by
      have := addr_lt (List.mem_range.1 hk) (Nat.succ_pos t.length)
      simpa using this)
    (fun a b h => h)
  rw [a1]
  simp only
  obtain ⟨m2, b1, b2, b3, b4⟩ := initLoop_spec (fun k => k * (s.length + 1)) (List.range (t.length + 1)) m1
    (fun k hk => by
      rw [a2]
      have := addr_lt (i := 0) (Nat.succ_pos s.length) (List.mem_range.1 hk)
      simpa using this)
    (fun a b h => Nat.eq_of_mul_eq_mul_right (Nat.succ_pos s.length) h)
  rw [b1]
  simp only
  have hfill : Filled s t (s.length + 1) (t.length + 1) m2 1 0 := by
    refine ⟨by rw [b2, a2], ?_⟩
    intro i j hi hj hc
    by_cases hi0 : i = 0
    · subst hi0
      have := b3 j (List.mem_range.2 hj)
      rw [Nat.add_zero, this, cellVal_zero_left s t j (by omega)]
    · have hj0 : j = 0 := by omega
      subst hj0
      rw [b4 _ (fun k _ e => by
        have := addr_inj (n := s.length + 1) (i := 0) (j := k) (i' := i) (j' := 0) (by omega) hi
          (by simpa using e)
        omega)]
      have := a3 i (List.mem_range.2 hi)
      simp only [Nat.zero_mul, Nat.zero_add] at this ⊢
      rw [this, cellVal_zero_right s t i (by omega)]
  obtain ⟨m3, c1, c2⟩ := outerLoop_spec s t s.length m2 (Nat.le_refl _)
    (by rw [show s.length + 1 - s.length = 1 by omega]; exact hfill)
  rw [show s.length + 1 - s.length = 1 by omega] at c1
  rw [c1]
  simp only
  have e : (s.length + 1) * (t.length + 1) - 1 = t.length * (s.length + 1) + s.length := by
    rw [Nat.mul_comm, Nat.succ_mul]; omega
  rw [e]
  unfold Mem.read
  rw [if_pos (by rw [c2.1]; exact addr_lt (by omega) (by omega))]
  exact c2.2 _ _ (by omega) (by omega) (by omega)

/-! ### find -/

theorem occursAt_iff {s sub : List Char} {i : Nat} :
    occursAt s sub i = true ↔ i ≤ s.length ∧ sub <+: s.drop i := by
  unfold occursAt
  rw [Bool.and_eq_true, decide_eq_true_eq, List.isPrefixOf_iff_prefix]

theorem find_isSome {s sub : List Char} {pos : Nat} :
    (find s sub pos).isSome = true ↔ ∃ i, pos ≤ i ∧ i ≤ s.length ∧ sub <+: s.drop i := by
  unfold find
  rw [List.find?_isSome]
  constructor
  · rintro ⟨i, hi, ho⟩
    rw [List.mem_filter, decide_eq_true_eq] at hi
    obtain ⟨h1, h2⟩ := occursAt_iff.1 ho
    exact ⟨i, hi.2, h1, h2⟩
  · rintro ⟨i, h1, h2, h3⟩
    refine ⟨i, ?_, occursAt_iff.2 ⟨h2, h3⟩⟩
    rw [List.mem_filter, decide_eq_true_eq, List.mem_range]
    exact ⟨by omega, h1⟩

theorem find_zero {s sub : List Char} : find s sub 0 = some 0 ↔ sub <+: s := by
  unfold find
  rw [List.filter_eq_self.2 (by simp), List.range_succ_eq_map, List.find?_cons]
  cases h : occursAt s sub 0 with
  | true => have := (occursAt_iff.1 h).2; simpa using this
  | false =>
    constructor
    · intro hf
      have := List.mem_of_find?_eq_some hf
      simp at this
    · intro hp
      have : occursAt s sub 0 = true := occursAt_iff.2 ⟨Nat.zero_le _, by simpa using hp⟩
      rw [h] at this; simp at this

theorem findTail_iff {s sub : List Char} : findTail s sub = true ↔ sub <:+ s := by
  unfold findTail
  split
  · rename_i h
    constructor
    · intro h'; simp at h'
    · intro h'; have := h'.length_le; omega
  · rename_i h
    rw [find_isSome]
    constructor
    · rintro ⟨i, h1, h2, h3⟩
      have hl := h3.length_le
      rw [List.length_drop] at hl
      have hi : i = s.length - sub.length := by omega
      subst hi
      have := h3.eq_of_length (by rw [List.length_drop]; omega)
      rw [this]; exact List.drop_suffix _ _
    · intro h'
      refine ⟨s.length - sub.length, Nat.le_refl _, by omega, ?_⟩
      rw [List.suffix_iff_eq_drop.1 h' |>.symm]
      exact List.prefix_refl _

end Verif.Token
