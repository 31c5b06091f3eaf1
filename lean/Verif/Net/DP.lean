import Verif.Net.Spec
/-!
# The table of the network alignment holds minimal costs
-/
set_option autoImplicit false
namespace Verif.Net
variable {W : Type}

/-- A network seen through its arc numbering: number of arcs, numbers of the preceding arcs, data. -/
structure View (W : Type) where
  len : Nat
  preds : Nat → List Nat
  word : Nat → Option W

/-- Arc 0 has no predecessor, all others have some, all with smaller numbers. -/
structure View.OK (v : View W) : Prop where
  pos : 0 < v.len
  lt : ∀ a p, p ∈ v.preds a → p < a
  ne : ∀ a, 0 < a → a < v.len → v.preds a ≠ []

/-- Arc numbers on the way from arc 0 (not listed) to arc `a`. -/
inductive View.Chain (v : View W) : Nat → List Nat → Prop where
  | nil : v.Chain 0 []
  | snoc (p a : Nat) (l : List Nat) : p ∈ v.preds a → a < v.len → v.Chain p l → v.Chain a (l ++ [a])

/-- Arcs of the first network in a list of moves. -/
def aIds (ms : List Move) : List Nat :=
  ms.filterMap fun m => match m with
    | .ins _ => none
    | .del a => some a
    | .sub a _ => some a

/-- Arcs of the second network in a list of moves. -/
def bIds (ms : List Move) : List Nat :=
  ms.filterMap fun m => match m with
    | .ins b => some b
    | .del _ => none
    | .sub _ b => some b

/-- Cost of a move. -/
def moveCost (F : Funcs W) (A B : View W) : Move → Int
  | .ins b => F.dist none (B.word b)
  | .del a => F.dist (A.word a) none
  | .sub a b => F.dist (A.word a) (B.word b)

/-- Cost of moves. -/
def movesCost (F : Funcs W) (A B : View W) (ms : List Move) : Int := (ms.map (moveCost F A B)).sum

theorem movesCost_snoc (F : Funcs W) (A B : View W) (ms : List Move) (m : Move) :
    movesCost F A B (ms ++ [m]) = movesCost F A B ms + moveCost F A B m := by simp [movesCost]

/-- The moves lead to arcs `a` and `b`. -/
def AlM (A B : View W) (a b : Nat) (ms : List Move) : Prop := A.Chain a (aIds ms) ∧ B.Chain b (bIds ms)

theorem chain_nil {v : View W} {a : Nat} (h : v.Chain a []) : a = 0 := by
  generalize hl : ([] : List Nat) = l at h
  cases h with
  | nil => rfl
  | snoc p a l => simp at hl

theorem chain_snoc {v : View W} {a x : Nat} {l : List Nat} (h : v.Chain a (l ++ [x])) :
    x = a ∧ a < v.len ∧ ∃ p ∈ v.preds a, v.Chain p l := by
  generalize hl : l ++ [x] = l' at h
  cases h with
  | nil => simp at hl
  | snoc p a l2 h1 h2 h3 =>
    obtain ⟨e1, e2⟩ := List.append_inj' hl rfl
    injection e2 with e2 _
    exact ⟨e2, h2, p, h1, by rw [e1]; exact h3⟩

/-! ### minimum search -/

theorem minOver_fold {α : Type} (val : α → Int) : ∀ (ids : List α) (m : Int × Option α),
    let r := ids.foldl (fun m i => if val i < m.1 then (val i, some i) else m) m
    r.1 ≤ m.1 ∧ (∀ i ∈ ids, r.1 ≤ val i) ∧ (r = m ∨ ∃ i ∈ ids, r = (val i, some i)) := by
  intro ids
  induction ids with
  | nil => intro m; exact ⟨Int.le_refl _, by simp, Or.inl rfl⟩
  | cons i ids ih =>
    intro m
    simp only [List.foldl_cons]
    by_cases h : val i < m.1
    · rw [if_pos h]
      obtain ⟨h1, h2, h3⟩ := ih (val i, some i)
      refine ⟨by simp only at h1; omega, ?_, ?_⟩
      · intro j hj
        rcases List.mem_cons.1 hj with e | hj
        · rw [e]; exact h1
        · exact h2 j hj
      · rcases h3 with h3 | ⟨j, hj, h3⟩
        · exact Or.inr ⟨i, by simp, h3⟩
        · exact Or.inr ⟨j, by simp [hj], h3⟩
    · rw [if_neg h]
      obtain ⟨h1, h2, h3⟩ := ih m
      refine ⟨h1, ?_, ?_⟩
      · intro j hj
        rcases List.mem_cons.1 hj with e | hj
        · rw [e]; omega
        · exact h2 j hj
      · rcases h3 with h3 | ⟨j, hj, h3⟩
        · exact Or.inl h3
        · exact Or.inr ⟨j, by simp [hj], h3⟩

theorem minOver_spec {α : Type} (val : α → Int) (big : Int) (ids : List α) (hne : ids ≠ [])
    (hb : ∀ i ∈ ids, val i < big) :
    ∃ i ∈ ids, minOver val big ids = (val i, some i) ∧ ∀ j ∈ ids, val i ≤ val j := by
  obtain ⟨h1, h2, h3⟩ := minOver_fold val ids (big, none)
  obtain ⟨i0, hi0⟩ := List.exists_mem_of_ne_nil _ hne
  rcases h3 with h3 | ⟨i, hi, h3⟩
  · have := h2 i0 hi0
    have := hb i0 hi0
    rw [h3] at h2
    have := h2 i0 hi0
    simp only at this
    omega
  · refine ⟨i, hi, h3, ?_⟩
    intro j hj
    have := h2 j hj
    rw [h3] at this
    exact this

theorem minOver_congr {α : Type} (v1 v2 : α → Int) (big : Int) (ids : List α) (h : ∀ i ∈ ids, v1 i = v2 i) :
    minOver v1 big ids = minOver v2 big ids := by
  unfold minOver
  generalize ((big, none) : Int × Option α) = m
  induction ids generalizing m with
  | nil => rfl
  | cons i ids ih =>
    simp only [List.foldl_cons]
    rw [h i (by simp)]
    exact ih (fun j hj => h j (by simp [hj])) _

/-! ### what the filled table satisfies -/

/-- All pairs of predecessors. -/
def pairs (A B : View W) (a b : Nat) : List (Nat × Nat) := (A.preds a).flatMap fun i => (B.preds b).map fun j => (i, j)

theorem mem_pairs {A B : View W} {a b : Nat} {p : Nat × Nat} :
    p ∈ pairs A B a b ↔ p.1 ∈ A.preds a ∧ p.2 ∈ B.preds b := by
  unfold pairs
  simp only [List.mem_flatMap, List.mem_map]
  constructor
  · rintro ⟨i, hi, j, hj, e⟩; rw [← e]; exact ⟨hi, hj⟩
  · rintro ⟨h1, h2⟩; exact ⟨p.1, h1, p.2, h2, rfl⟩

/-- The equations of the filled table. -/
structure Filled (F : Funcs W) (A B : View W) (t : Table) : Prop where
  origin : (t 0 0).d = 0
  rowB : ∀ b, 0 < b → b < B.len → t 0 b =
    ⟨(minOver (fun i => (t 0 i).d) bigCell (B.preds b)).1 + F.dist none (B.word b), 0,
      toShort (minOver (fun i => (t 0 i).d) bigCell (B.preds b)).2⟩
  colA : ∀ a, 0 < a → a < A.len → t a 0 =
    ⟨(minOver (fun i => (t i 0).d) bigCell (A.preds a)).1 + F.dist (A.word a) none,
      toShort (minOver (fun i => (t i 0).d) bigCell (A.preds a)).2, 0⟩
  inner : ∀ a b, 0 < a → a < A.len → 0 < b → b < B.len →
    t a b = cellOf F t a b (A.word a) (B.word b) (A.preds a) (B.preds b)

/-- What is known of one cell. -/
structure Local (F : Funcs W) (A B : View W) (t : Table) (m : Int) (a b : Nat) : Prop where
  bound : (t a b).d ≤ m * ((a + b : Nat) : Int)
  step : 0 < a ∨ 0 < b →
    ((t a b).backA = a ∧ 0 < b ∧ (t a b).backB ∈ B.preds b ∧
        (t a b).d = (t a (t a b).backB).d + F.dist none (B.word b)) ∨
    ((t a b).backB = b ∧ 0 < a ∧ (t a b).backA ∈ A.preds a ∧
        (t a b).d = (t (t a b).backA b).d + F.dist (A.word a) none) ∨
    (0 < a ∧ 0 < b ∧ (t a b).backA ∈ A.preds a ∧ (t a b).backB ∈ B.preds b ∧
        (t a b).d = (t (t a b).backA (t a b).backB).d + F.dist (A.word a) (B.word b))
  leIns : 0 < b → ∀ j ∈ B.preds b, (t a b).d ≤ (t a j).d + F.dist none (B.word b)
  leDel : 0 < a → ∀ i ∈ A.preds a, (t a b).d ≤ (t i b).d + F.dist (A.word a) none
  leSub : 0 < a → 0 < b → ∀ i ∈ A.preds a, ∀ j ∈ B.preds b,
    (t a b).d ≤ (t i j).d + F.dist (A.word a) (B.word b)

theorem toShort_some {i : Nat} (h : i < 65536) : toShort (some i) = i := Nat.mod_eq_of_lt h

theorem bigEnd_le : bigEnd ≤ bigCell := by decide

theorem local_all (F : Funcs W) (A B : View W) (t : Table) (m : Int) (hA : A.OK) (hB : B.OK)
    (h : Filled F A B t) (hsA : A.len ≤ 65535) (hsB : B.len ≤ 65535) (N : Nat)
    (hm : F.Below m N) (hN : A.len + B.len ≤ N + 2) :
    ∀ (k a b : Nat), a + b < k → a < A.len → b < B.len → Local F A B t m a b := by
  obtain ⟨hm0, hm1, hm2⟩ := hm
  have mono : ∀ x y : Nat, x ≤ y → m * (x : Int) ≤ m * (y : Int) :=
    fun x y hxy => Int.mul_le_mul_of_nonneg_left (by exact_mod_cast hxy) hm0
  have msucc : ∀ x : Nat, m * ((x + 1 : Nat) : Int) = m * (x : Int) + m := by
    intro x; push_cast; rw [Int.mul_add, Int.mul_one]
  intro k
  induction k with
  | zero => intro a b hk; omega
  | succ k ih =>
    intro a b hk ha hb
    -- values before this cell stay below the limit
    have small : ∀ i j, i + j < a + b → i < A.len → j < B.len → (t i j).d < bigCell := by
      intro i j hij hi hj
      have h1 := (ih i j (by omega) hi hj).bound
      have h2 := mono (i + j) N (by omega)
      have := bigEnd_le
      omega
    have bnd : ∀ i j, i + j < a + b → i < A.len → j < B.len → ∀ z,
        (t i j).d + F.dist z none ≤ m * ((a + b : Nat) : Int) ∧ (t i j).d + F.dist none z ≤ m * ((a + b : Nat) : Int) := by
      intro i j hij hi hj z
      have h1 := (ih i j (by omega) hi hj).bound
      have h2 := mono (i + j + 1) (a + b) (by omega)
      have h3 := msucc (i + j)
      have h4 := hm1 z
      omega
    by_cases ha0 : a = 0
    · subst ha0
      by_cases hb0 : b = 0
      · subst hb0
        refine ⟨?_, ?_, ?_, ?_, ?_⟩
        · rw [h.origin]; simp
        · rintro (h | h) <;> omega
        · intro h; omega
        · intro h; omega
        · intro h; omega
      · have hb1 : 0 < b := by omega
        obtain ⟨j, hj, hje, hjm⟩ := minOver_spec (fun i => (t 0 i).d) bigCell (B.preds b) (hB.ne b hb1 hb)
          (fun i hi => small 0 i (by have := hB.lt b i hi; omega) ha (by have := hB.lt b i hi; omega))
        have hlt := hB.lt b j hj
        have hc := h.rowB b hb1 hb
        rw [hje, toShort_some (by omega)] at hc
        refine ⟨?_, ?_, ?_, ?_, ?_⟩
        · rw [hc]; exact (bnd 0 j (by omega) ha (by omega) _).2
        · intro _
          refine Or.inl ?_
          rw [hc]
          exact ⟨rfl, hb1, hj, rfl⟩
        · intro _ j' hj'
          have := hjm j' hj'
          rw [hc]
          show (t 0 j).d + _ ≤ _
          try simp only at this
          omega
        · intro h; omega
        · intro h; omega
    · have ha1 : 0 < a := by omega
      by_cases hb0 : b = 0
      · subst hb0
        obtain ⟨i, hi, hie, him⟩ := minOver_spec (fun i => (t i 0).d) bigCell (A.preds a) (hA.ne a ha1 ha)
          (fun i hi => small i 0 (by have := hA.lt a i hi; omega) (by have := hA.lt a i hi; omega) hb)
        have hlt := hA.lt a i hi
        have hc := h.colA a ha1 ha
        rw [hie, toShort_some (by omega)] at hc
        refine ⟨?_, ?_, ?_, ?_, ?_⟩
        · rw [hc]; exact (bnd i 0 (by omega) (by omega) hb _).1
        · intro _
          refine Or.inr (Or.inl ?_)
          rw [hc]
          exact ⟨rfl, ha1, hi, rfl⟩
        · intro h; omega
        · intro _ i' hi'
          have := him i' hi'
          rw [hc]
          show (t i 0).d + _ ≤ _
          try simp only at this
          omega
        · intro _ h; omega
      · have hb1 : 0 < b := by omega
        obtain ⟨j, hj, hje, hjm⟩ := minOver_spec (fun i => (t a i).d) bigCell (B.preds b) (hB.ne b hb1 hb)
          (fun i hi => small a i (by have := hB.lt b i hi; omega) ha (by have := hB.lt b i hi; omega))
        obtain ⟨i, hi, hie, him⟩ := minOver_spec (fun i => (t i b).d) bigCell (A.preds a) (hA.ne a ha1 ha)
          (fun i hi => small i b (by have := hA.lt a i hi; omega) (by have := hA.lt a i hi; omega) hb)
        have hpne : pairs A B a b ≠ [] := List.ne_nil_of_mem (mem_pairs.2 (⟨hi, hj⟩ : (i, j).1 ∈ _ ∧ (i, j).2 ∈ _))
        obtain ⟨⟨i2, j2⟩, hp, hpe, hpm⟩ := minOver_spec (fun p : Nat × Nat => (t p.1 p.2).d) bigCell (pairs A B a b) hpne
          (fun p hp => by
            obtain ⟨h1, h2⟩ := mem_pairs.1 hp
            have := hA.lt a _ h1
            have := hB.lt b _ h2
            exact small p.1 p.2 (by omega) (by omega) (by omega))
        obtain ⟨hi2, hj2⟩ := mem_pairs.1 hp
        simp only at hi2 hj2
        have l1 := hB.lt b j hj
        have l2 := hA.lt a i hi
        have l3 := hA.lt a i2 hi2
        have l4 := hB.lt b j2 hj2
        have hc := h.inner a b ha1 ha hb1 hb
        have hpe' : minOver (fun p : Nat × Nat => (t p.1 p.2).d) bigCell
            ((A.preds a).flatMap fun i => (B.preds b).map fun j => (i, j)) = ((t i2 j2).d, some (i2, j2)) := hpe
        unfold cellOf at hc
        simp only [hje, hie, hpe', Option.map_some] at hc
        rw [toShort_some (by omega), toShort_some (by omega), toShort_some (by omega), toShort_some (by omega)] at hc
        have b1 := (bnd a j (by omega) ha (by omega) (B.word b)).2
        have b2 := (bnd i b (by omega) (by omega) hb (A.word a)).1
        have hd : (t a b).d ≤ (t i2 j2).d + F.dist (A.word a) (B.word b) ∧
            (t a b).d ≤ (t i b).d + F.dist (A.word a) none ∧ (t a b).d ≤ (t a j).d + F.dist none (B.word b) := by
          rw [hc]
          split
          · rename_i hcond; simp only; omega
          · split
            · simp only; omega
            · simp only; omega
        refine ⟨by omega, ?_, ?_, ?_, ?_⟩
        · intro _
          by_cases c1 : (t i2 j2).d + F.dist (A.word a) (B.word b) ≤ (t i b).d + F.dist (A.word a) none ∧
              (t i2 j2).d + F.dist (A.word a) (B.word b) ≤ (t a j).d + F.dist none (B.word b)
          · rw [if_pos c1] at hc
            refine Or.inr (Or.inr ?_)
            rw [hc]; exact ⟨ha1, hb1, hi2, hj2, rfl⟩
          · rw [if_neg c1] at hc
            by_cases c2 : (t i b).d + F.dist (A.word a) none < (t a j).d + F.dist none (B.word b)
            · rw [if_pos c2] at hc
              refine Or.inr (Or.inl ?_)
              rw [hc]; exact ⟨rfl, ha1, hi, rfl⟩
            · rw [if_neg c2] at hc
              refine Or.inl ?_
              rw [hc]; exact ⟨rfl, hb1, hj, rfl⟩
        · intro _ j' hj'
          have := hjm j' hj'
          try simp only at this
          omega
        · intro _ i' hi'
          have := him i' hi'
          try simp only at this
          omega
        · intro _ _ i' hi' j' hj'
          have := hpm (i', j') (mem_pairs.2 ⟨hi', hj'⟩)
          simp only at this
          omega

/-! ### optimality -/

theorem aIds_snoc (ms : List Move) (m : Move) : aIds (ms ++ [m]) = aIds ms ++ aIds [m] := by simp [aIds]
theorem bIds_snoc (ms : List Move) (m : Move) : bIds (ms ++ [m]) = bIds ms ++ bIds [m] := by simp [bIds]

theorem chain_lt {v : View W} (hv : v.OK) {a : Nat} {l : List Nat} (h : v.Chain a l) : a < v.len := by
  cases h with
  | nil => exact hv.pos
  | snoc p a l _ h2 _ => exact h2

theorem opt_le (F : Funcs W) (A B : View W) (t : Table) (m : Int) (hA : A.OK) (hB : B.OK)
    (h0 : (t 0 0).d = 0)
    (hl : ∀ a b, a < A.len → b < B.len → Local F A B t m a b) :
    ∀ (k : Nat) (ms : List Move) (a b : Nat), ms.length ≤ k → AlM A B a b ms → (t a b).d ≤ movesCost F A B ms := by
  intro k
  induction k with
  | zero =>
    intro ms a b hk hal
    have : ms = [] := List.length_eq_zero_iff.1 (by omega)
    subst this
    rw [chain_nil hal.1, chain_nil hal.2, h0]
    simp [movesCost]
  | succ k ih =>
    intro ms a b hk hal
    rcases List.eq_nil_or_concat ms with e | ⟨ms', mv, e⟩
    · subst e
      rw [chain_nil hal.1, chain_nil hal.2, h0]
      simp [movesCost]
    · rw [List.concat_eq_append] at e
      subst e
      rw [movesCost_snoc]
      rw [List.length_append] at hk
      simp only [List.length_cons, List.length_nil] at hk
      obtain ⟨h1, h2⟩ := hal
      have hal' := chain_lt hA h1
      have hbl' := chain_lt hB h2
      have L := hl a b hal' hbl'
      rw [aIds_snoc] at h1
      rw [bIds_snoc] at h2
      cases mv with
      | ins x =>
        have e1 : aIds [Move.ins x] = [] := rfl
        have e2 : bIds [Move.ins x] = [x] := rfl
        rw [e1, List.append_nil] at h1
        rw [e2] at h2
        obtain ⟨ex, _, p, hp, hc⟩ := chain_snoc h2
        subst ex
        have := ih ms' a p (by omega) ⟨h1, hc⟩
        have hx := hB.lt _ _ hp
        have := L.leIns (by omega) p hp
        show _ ≤ _ + F.dist none (B.word x)
        omega
      | del x =>
        have e1 : aIds [Move.del x] = [x] := rfl
        have e2 : bIds [Move.del x] = [] := rfl
        rw [e2, List.append_nil] at h2
        rw [e1] at h1
        obtain ⟨ex, _, p, hp, hc⟩ := chain_snoc h1
        subst ex
        have := ih ms' p b (by omega) ⟨hc, h2⟩
        have hx := hA.lt _ _ hp
        have := L.leDel (by omega) p hp
        show _ ≤ _ + F.dist (A.word x) none
        omega
      | sub x y =>
        have e1 : aIds [Move.sub x y] = [x] := rfl
        have e2 : bIds [Move.sub x y] = [y] := rfl
        rw [e1] at h1
        rw [e2] at h2
        obtain ⟨ex, _, p, hp, hc⟩ := chain_snoc h1
        obtain ⟨ey, _, q, hq, hd⟩ := chain_snoc h2
        subst ex; subst ey
        have := ih ms' p q (by omega) ⟨hc, hd⟩
        have hx := hA.lt _ _ hp
        have hy := hB.lt _ _ hq
        have := L.leSub (by omega) (by omega) p hp q hq
        show _ ≤ _ + F.dist (A.word x) (B.word y)
        omega

theorem trace_ok (F : Funcs W) (A B : View W) (t : Table) (m : Int) (hA : A.OK) (hB : B.OK)
    (h0 : (t 0 0).d = 0)
    (hl : ∀ a b, a < A.len → b < B.len → Local F A B t m a b) :
    ∀ (fuel a b : Nat), a + b ≤ fuel → a < A.len → b < B.len →
      ∃ ms, traceBack t fuel a b = some ms ∧ AlM A B a b ms.reverse ∧ movesCost F A B ms.reverse = (t a b).d := by
  intro fuel
  induction fuel with
  | zero =>
    intro a b hk _ _
    have e1 : a = 0 := by omega
    have e2 : b = 0 := by omega
    subst e1; subst e2
    refine ⟨[], by simp [traceBack], ⟨.nil, .nil⟩, ?_⟩
    rw [h0]; simp [movesCost]
  | succ fuel ih =>
    intro a b hk ha hb
    unfold traceBack
    by_cases hpos : a > 0 ∨ b > 0
    · rw [if_pos hpos]
      have L := hl a b ha hb
      rcases L.step hpos with ⟨g1, g2, g3, g4⟩ | ⟨g1, g2, g3, g4⟩ | ⟨g1, g2, g3, g4, g5⟩
      · have hlt := hB.lt _ _ g3
        obtain ⟨ms, e1, e2, e3⟩ := ih a (t a b).backB (by omega) ha (by omega)
        simp only [g1, e1, if_true]
        refine ⟨Move.ins b :: ms, rfl, ?_, ?_⟩
        · rw [List.reverse_cons]
          refine ⟨?_, ?_⟩
          · rw [aIds_snoc]; simpa [aIds] using e2.1
          · rw [bIds_snoc]; exact .snoc _ b _ g3 hb e2.2
        · rw [List.reverse_cons, movesCost_snoc, e3, g4]; rfl
      · have hlt := hA.lt _ _ g3
        obtain ⟨ms, e1, e2, e3⟩ := ih (t a b).backA b (by omega) (by omega) hb
        have hne : ¬ (a = (t a b).backA) := by omega
        simp only [g1, e1, if_neg hne, if_true]
        refine ⟨Move.del a :: ms, rfl, ?_, ?_⟩
        · rw [List.reverse_cons]
          refine ⟨?_, ?_⟩
          · rw [aIds_snoc]; exact .snoc _ a _ g3 ha e2.1
          · rw [bIds_snoc]; simpa [bIds] using e2.2
        · rw [List.reverse_cons, movesCost_snoc, e3, g4]; rfl
      · have hlt := hA.lt _ _ g3
        have hlt2 := hB.lt _ _ g4
        obtain ⟨ms, e1, e2, e3⟩ := ih (t a b).backA (t a b).backB (by omega) (by omega) (by omega)
        have hne : ¬ (a = (t a b).backA) := by omega
        have hne2 : ¬ (b = (t a b).backB) := by omega
        simp only [e1, if_neg hne, if_neg hne2]
        refine ⟨Move.sub a b :: ms, rfl, ?_, ?_⟩
        · rw [List.reverse_cons]
          refine ⟨?_, ?_⟩
          · rw [aIds_snoc]; exact .snoc _ a _ g3 ha e2.1
          · rw [bIds_snoc]; exact .snoc _ b _ g4 hb e2.2
        · rw [List.reverse_cons, movesCost_snoc, e3, g5]; rfl
    · rw [if_neg hpos]
      have e1 : a = 0 := by omega
      have e2 : b = 0 := by omega
      subst e1; subst e2
      refine ⟨[], rfl, ⟨.nil, .nil⟩, ?_⟩
      rw [h0]; simp [movesCost]

/-! ### the number of entries allocated -/

theorem record_len (F : Funcs W) (incl : Bool) (wa wb : Nat → Option W) (mv : Move) (es : List (Entry W))
    (h : record F incl wa wb mv = some es) :
    es.length = (match mv with
      | .del a => match wa a with
        | some x => if !incl && F.isNull x then 0 else 1
        | none => 0
      | .ins b => match wb b with
        | some y => if !incl && F.isNull y then 0 else 1
        | none => 0
      | .sub a b => match wa a, wb b with
        | some x, some y => if !incl && (F.isNull x && F.isNull y) then 0 else 1
        | _, _ => 0) := by
  cases mv with
  | del a =>
    unfold record at h
    simp only at h ⊢
    cases hx : wa a with
    | none => rw [hx] at h; cases h
    | some x =>
      rw [hx] at h
      simp only [Option.some.injEq] at h
      subst h
      cases incl <;> cases hn : F.isNull x <;> cases F.optDel x <;> simp [hn]
  | ins b =>
    unfold record at h
    simp only at h ⊢
    cases hx : wb b with
    | none => rw [hx] at h; cases h
    | some x =>
      rw [hx] at h
      simp only [Option.some.injEq] at h
      subst h
      cases incl <;> cases hn : F.isNull x <;> cases F.optDel x <;> simp [hn]
  | sub a b =>
    unfold record at h
    simp only at h ⊢
    cases hx : wa a with
    | none => rw [hx] at h; cases h
    | some x =>
      cases hy : wb b with
      | none => rw [hx, hy] at h; cases h
      | some y =>
        rw [hx, hy] at h
        simp only [Option.some.injEq] at h
        subst h
        cases incl <;> cases hn : F.isNull x <;> cases hm : F.isNull y <;> simp [hn, hm]

theorem mapM_append_some {α β : Type} (f : α → Option β) (l : List α) (x : α) (r : List β)
    (h : (l ++ [x]).mapM f = some r) : ∃ r' y, l.mapM f = some r' ∧ f x = some y ∧ r = r' ++ [y] := by
  rw [List.mapM_append] at h
  cases h1 : l.mapM f with
  | none => rw [h1] at h; simp at h
  | some r' =>
    cases h2 : f x with
    | none => rw [h1] at h; simp [h2] at h
    | some y =>
      rw [h1] at h
      simp [h2] at h
      exact ⟨r', y, rfl, rfl, h.symm⟩

theorem hops_ok (F : Funcs W) (A B : View W) (t : Table) (m : Int) (incl : Bool) (wa wb : Nat → Option W)
    (hA : A.OK) (hB : B.OK)
    (hl : ∀ a b, a < A.len → b < B.len → Local F A B t m a b) :
    ∀ (fuel a b : Nat) (ms : List Move) (es : List (List (Entry W))), a < A.len → b < B.len →
      traceBack t fuel a b = some ms → ms.reverse.mapM (record F incl wa wb) = some es →
      countHops F incl wa wb t fuel a b = es.flatten.length := by
  intro fuel
  induction fuel with
  | zero =>
    intro a b ms es _ _ h1 h2
    unfold traceBack at h1
    split at h1
    · cases h1
    · injection h1 with h1
      subst h1
      simp at h2
      subst h2
      rfl
  | succ fuel ih =>
    intro a b ms es ha hb h1 h2
    unfold traceBack at h1
    unfold countHops
    by_cases hpos : a > 0 ∨ b > 0
    · rw [if_pos hpos] at h1 ⊢
      simp only at h1
      have L := hl a b ha hb
      have hlt : (t a b).backA < A.len ∧ (t a b).backB < B.len := by
        rcases L.step hpos with ⟨g1, g2, g3, g4⟩ | ⟨g1, g2, g3, g4⟩ | ⟨g1, g2, g3, g4, g5⟩
        · have := hB.lt _ _ g3; omega
        · have := hA.lt _ _ g3; omega
        · have := hA.lt _ _ g3; have := hB.lt _ _ g4; omega
      have hx : ¬ ((a = (t a b).backA) ∧ (b = (t a b).backB)) := by
        rcases L.step hpos with ⟨g1, g2, g3, g4⟩ | ⟨g1, g2, g3, g4⟩ | ⟨g1, g2, g3, g4, g5⟩
        · have := hB.lt _ _ g3; omega
        · have := hA.lt _ _ g3; omega
        · have := hA.lt _ _ g3; omega
      cases htr : traceBack t fuel (t a b).backA (t a b).backB with
      | none => rw [htr] at h1; cases h1
      | some ms' =>
        rw [htr] at h1
        simp only [Option.some.injEq] at h1
        subst h1
        rw [List.reverse_cons] at h2
        obtain ⟨es', y, e1, e2, e3⟩ := mapM_append_some _ _ _ _ h2
        have := ih _ _ ms' es' hlt.1 hlt.2 htr e1
        subst e3
        rw [this, List.flatten_append, List.length_append]
        have hy : hop F incl wa wb t a b = y.length := by
          unfold hop
          simp only
          by_cases c1 : b = (t a b).backB
          · have c2 : ¬ (a = (t a b).backA) := fun e => hx ⟨e, c1⟩
            rw [if_neg c2, if_pos c1] at e2
            rw [record_len F incl wa wb _ y e2, if_pos c1]
            cases hz : wa a <;> simp [hz]
          · by_cases c2 : a = (t a b).backA
            · rw [if_pos c2] at e2
              rw [record_len F incl wa wb _ y e2, if_neg c1, if_pos c2]
              cases hz : wb b <;> simp [hz]
            · rw [if_neg c2, if_neg c1] at e2
              rw [record_len F incl wa wb _ y e2, if_neg c1, if_neg c2]
              cases hz : wa a <;> cases hz' : wb b <;> simp [hz, hz']
        rw [hy]
        simp only [List.flatten_cons, List.flatten_nil, List.append_nil]
        omega
    · rw [if_neg hpos] at h1 ⊢
      injection h1 with h1
      subst h1
      simp at h2
      subst h2
      rfl

end Verif.Net
