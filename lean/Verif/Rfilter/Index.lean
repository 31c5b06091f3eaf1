import Verif.Rfilter.Match
/-!
# The index lists the rules of a key character in file order
-/
set_option autoImplicit false
namespace Verif.Rfilter

/-- The numbers of the entries with key `k`. -/
def block (k : Nat) (l : List (Nat × Nat)) : List Nat := (l.filter (fun p => p.2 = k)).map Prod.fst

theorem block_cons_eq (k i : Nat) (l : List (Nat × Nat)) : block k ((i, k) :: l) = i :: block k l := by simp [block]

theorem block_cons_ne {k k2 : Nat} (i : Nat) (l : List (Nat × Nat)) (h : k2 ≠ k) : block k ((i, k2) :: l) = block k l := by
  simp [block, h]

theorem block_append (k : Nat) (a b : List (Nat × Nat)) : block k (a ++ b) = block k a ++ block k b := by simp [block]

theorem mem_block {k i : Nat} {l : List (Nat × Nat)} : i ∈ block k l ↔ (i, k) ∈ l := by
  simp only [block, List.mem_map, List.mem_filter, decide_eq_true_eq]
  constructor
  · rintro ⟨⟨a, b⟩, ⟨h1, h2⟩, h3⟩
    simp only at h2 h3
    rw [← h2, ← h3]
    exact h1
  · intro h
    exact ⟨(i, k), ⟨h, rfl⟩, rfl⟩

theorem upd_same {α : Type} (f : Nat → α) (k : Nat) (v : α) : upd f k v k = v := by simp [upd]

theorem upd_other {α : Type} (f : Nat → α) {k x : Nat} (v : α) (h : x ≠ k) : upd f k v x = f x := by simp [upd, h]

/-- The inner loop appends the later rules with the key. -/
theorem idxInner_spec (k : Nat) (rest : List (Nat × Nat)) (st : Idx) (hnd : (rest.map Prod.fst).Nodup)
    (hun : ∀ i, (i, k) ∈ rest → st.indexed i = false) (hlast : st.last k = (st.order.length : Int)) :
    (idxInner k rest st).order = st.order ++ block k rest ∧ (idxInner k rest st).first = st.first ∧
    (∀ x, x ≠ k → (idxInner k rest st).last x = st.last x) ∧
    (idxInner k rest st).last k = ((st.order ++ block k rest).length : Int) ∧
    (∀ x, x ≠ k → (idxInner k rest st).count x = st.count x) ∧ st.count k ≤ (idxInner k rest st).count k ∧
    ∀ i, (idxInner k rest st).indexed i = true ↔ st.indexed i = true ∨ i ∈ block k rest := by
  induction rest generalizing st with
  | nil => simp [idxInner, block, hlast]
  | cons p rest ih =>
    obtain ⟨i2, k2⟩ := p
    simp only [List.map_cons, List.nodup_cons] at hnd
    rw [idxInner]
    by_cases hk : k2 = k
    · subst hk
      have h0 : st.indexed i2 = false := hun i2 (List.mem_cons_self ..)
      rw [if_neg (by rw [h0]; decide), if_pos rfl, block_cons_eq]
      obtain ⟨g1, g2, g3, g4, g5, g6, g7⟩ := ih
        { order := st.order ++ [i2], first := st.first, last := upd st.last k2 (st.order.length + 1 : Int),
          count := upd st.count k2 (st.count k2 + 1), indexed := upd st.indexed i2 true } hnd.2
        (by
          intro i hi
          have hne : i ≠ i2 := by
            rintro rfl
            exact hnd.1 (List.mem_map.2 ⟨_, hi, rfl⟩)
          simp only [upd_other _ _ hne]
          exact hun i (List.mem_cons_of_mem _ hi))
        (by simp [upd_same])
      refine ⟨by rw [g1]; simp, g2, ?_, by rw [g4]; simp, ?_, ?_, ?_⟩
      · intro x hx
        rw [g3 x hx]
        exact upd_other _ _ hx
      · intro x hx
        rw [g5 x hx]
        exact upd_other _ _ hx
      · simp only [upd_same] at g6
        omega
      · intro i
        rw [g7 i]
        by_cases hi : i = i2
        · subst hi
          simp [upd_same]
        · simp [upd_other _ _ hi, hi]
    · rw [block_cons_ne _ _ hk]
      have hsame : (if st.indexed i2 then st
       else if k2 = k then
        { order := st.order ++ [i2], first := st.first, last := upd st.last k (st.order.length + 1 : Int),
          count := upd st.count k (st.count k + 1), indexed := upd st.indexed i2 true }
       else st) = st := by
        rw [if_neg hk]
        split <;> rfl
      rw [hsame]
      exact ih st hnd.2 (fun i hi => hun i (List.mem_cons_of_mem _ hi)) hlast

/-- The state of the index building after the rules of `seen`. -/
structure IdxOk (all seen : List (Nat × Nat)) (st : Idx) : Prop where
  zero : ∀ k, st.count k = 0 → st.first k = 0 ∧ st.last k = -1 ∧ block k seen = [] ∧
    ∀ i, (i, k) ∈ all → st.indexed i = false
  pos : ∀ k, st.count k ≠ 0 → ∃ pre post, st.order = pre ++ (block k all ++ post) ∧ st.first k = (pre.length : Int) + 1 ∧
    st.last k = (pre.length : Int) + (block k all).length

theorem fst_inj {all : List (Nat × Nat)} (hnd : (all.map Prod.fst).Nodup) {i k k' : Nat} (h1 : (i, k) ∈ all) (h2 : (i, k') ∈ all) :
    k = k' := by
  induction all with
  | nil => simp at h1
  | cons p all ih =>
    simp only [List.map_cons, List.nodup_cons] at hnd
    rcases List.mem_cons.1 h1 with e1 | m1
    · rcases List.mem_cons.1 h2 with e2 | m2
      · rw [← e1] at e2
        exact (Prod.mk.inj e2).2.symm
      · exact absurd (List.mem_map.2 ⟨_, m2, by rw [← e1]⟩) hnd.1
    · rcases List.mem_cons.1 h2 with e2 | m2
      · exact absurd (List.mem_map.2 ⟨_, m1, by rw [← e2]⟩) hnd.1
      · exact ih hnd.2 m1 m2

theorem idxOuter_spec (all seen rest : List (Nat × Nat)) (st : Idx) (he : all = seen ++ rest) (hnd : (all.map Prod.fst).Nodup)
    (h : IdxOk all seen st) : IdxOk all all (idxOuter rest st) := by
  induction rest generalizing seen st with
  | nil =>
    rw [List.append_nil] at he
    rw [idxOuter]
    rw [← he] at h
    exact h
  | cons p rest ih =>
    obtain ⟨i, k⟩ := p
    rw [idxOuter]
    apply ih (seen ++ [(i, k)]) _ (by rw [he]; simp)
    have hmem : (i, k) ∈ all := by rw [he]; simp
    by_cases hc : st.count k = 0
    · rw [if_pos hc]
      obtain ⟨z1, z2, z3, z4⟩ := h.zero k hc
      have hnd2 : (rest.map Prod.fst).Nodup := by
        rw [he, List.map_append, List.nodup_append] at hnd
        exact (List.nodup_cons.1 hnd.2.1).2
      have hnd3 : i ∉ rest.map Prod.fst := by
        rw [he, List.map_append, List.nodup_append] at hnd
        exact (List.nodup_cons.1 hnd.2.1).1
      obtain ⟨g1, g2, g3, g4, g5, g6, g7⟩ := idxInner_spec k rest
        { order := st.order ++ [i], first := upd st.first k (st.order.length + 1 : Int),
            last := upd st.last k (st.order.length + 1 : Int), count := upd st.count k (st.count k + 1),
            indexed := upd st.indexed i true } hnd2
        (by
          intro j hj
          have hne : j ≠ i := by
            rintro rfl
            exact hnd3 (List.mem_map.2 ⟨_, hj, rfl⟩)
          simp only [upd_other _ _ hne]
          exact z4 j (by rw [he]; simp [hj]))
        (by simp [upd_same])
      have hblk : block k all = i :: block k rest := by
        rw [he, block_append, z3, block_cons_eq]
        rfl
      generalize idxInner k rest _ = st' at g1 g2 g3 g4 g5 g6 g7
      constructor
      · intro x hx
        have hxk : x ≠ k := by
          rintro rfl
          simp only [upd_same] at g6
          omega
        have hx0 : st.count x = 0 := by
          rw [g5 x hxk] at hx
          simpa only [upd_other _ _ hxk] using hx
        obtain ⟨y1, y2, y3, y4⟩ := h.zero x hx0
        refine ⟨by rw [g2]; simpa [upd_other _ _ hxk] using y1, by rw [g3 x hxk]; simpa [upd_other _ _ hxk] using y2, ?_, ?_⟩
        · rw [block_append, y3, block_cons_ne _ _ (Ne.symm hxk)]
          rfl
        · intro j hj
          have hnot : ¬ st'.indexed j = true := by
            rw [g7 j]
            rintro (q | q)
            · by_cases hji : j = i
              · subst hji
                exact hxk (fst_inj hnd hj hmem)
              · simp only [upd_other _ _ hji] at q
                rw [y4 j hj] at q
                cases q
            · have := mem_block.1 q
              exact hxk (fst_inj hnd hj (by rw [he]; simp [this]))
          simpa using hnot
      · intro x hx
        by_cases hxk : x = k
        · subst hxk
          refine ⟨st.order, [], ?_, ?_, ?_⟩
          · rw [g1, hblk]
            simp
          · rw [g2]
            simp [upd_same]
          · rw [g4, hblk]
            simp
        · have hx0 : st.count x ≠ 0 := by
            rw [g5 x hxk] at hx
            simpa only [upd_other _ _ hxk] using hx
          obtain ⟨pre, post, q1, q2, q3⟩ := h.pos x hx0
          refine ⟨pre, post ++ [i] ++ block k rest, ?_, ?_, ?_⟩
          · rw [g1]
            simp only [q1, List.append_assoc]
          · rw [g2]
            simpa [upd_other _ _ hxk] using q2
          · rw [g3 x hxk]
            simpa [upd_other _ _ hxk] using q3
    · rw [if_neg hc]
      constructor
      · intro x hx
        obtain ⟨y1, y2, y3, y4⟩ := h.zero x hx
        have hxk : k ≠ x := by
          rintro rfl
          exact hc hx
        refine ⟨y1, y2, ?_, y4⟩
        rw [block_append, y3, block_cons_ne _ _ hxk]
        rfl
      · exact h.pos

theorem numbered_fst (cs : Bool) (i : Nat) (rules : List Rule) : (numbered cs i rules).map Prod.fst = List.range' i rules.length := by
  induction rules generalizing i with
  | nil => rfl
  | cons r rules ih => simp [numbered, ih, List.range'_succ]

theorem mem_numbered {cs : Bool} {i : Nat} {rules : List Rule} {j k : Nat} :
    (j, k) ∈ numbered cs i rules ↔ ∃ r, i ≤ j ∧ rules[j - i]? = some r ∧ ruleKey cs r = k := by
  induction rules generalizing i with
  | nil => simp [numbered]
  | cons r rules ih =>
    simp only [numbered, List.mem_cons, Prod.mk.injEq, ih]
    constructor
    · rintro (⟨rfl, rfl⟩ | ⟨r', h1, h2, h3⟩)
      · exact ⟨r, Nat.le_refl _, by simp, rfl⟩
      · refine ⟨r', by omega, ?_, h3⟩
        have : j - i = (j - (i + 1)) + 1 := by omega
        rw [this, List.getElem?_cons_succ]
        exact h2
    · rintro ⟨r', h1, h2, h3⟩
      by_cases hj : j = i
      · subst hj
        simp at h2
        subst h2
        exact .inl ⟨rfl, h3.symm⟩
      · right
        refine ⟨r', by omega, ?_, h3⟩
        have : j - i = (j - (i + 1)) + 1 := by omega
        rw [this, List.getElem?_cons_succ] at h2
        exact h2

/-- The block of a key lists the rules with that key in file order. -/
theorem block_sorted (cs : Bool) (k : Nat) (rules : List Rule) : (block k (numbered cs 1 rules)).Pairwise (· < ·) := by
  have h1 : (numbered cs 1 rules).Pairwise (fun a b => a.1 < b.1) := by
    have h0 := List.pairwise_lt_range' (s := 1) (n := rules.length) (step := 1)
    rw [← numbered_fst cs 1 rules] at h0
    exact List.pairwise_map.1 h0
  exact List.pairwise_map.2 (h1.filter _)

/-- What looking up a key character in the finished index yields. -/
theorem buildIndex_spec (cs : Bool) (rules : List Rule) (k : Nat) :
    ∃ pre post, (buildIndex cs rules).order = pre ++ (block k (numbered cs 1 rules) ++ post) ∧
      ((buildIndex cs rules).last k + 1 - (buildIndex cs rules).first k).toNat = (block k (numbered cs 1 rules)).length ∧
      (block k (numbered cs 1 rules) ≠ [] → ((buildIndex cs rules).first k).toNat = pre.length + 1) := by
  have hnd : ((numbered cs 1 rules).map Prod.fst).Nodup := by
    rw [numbered_fst]
    exact List.nodup_range'
  have h := idxOuter_spec (numbered cs 1 rules) [] (numbered cs 1 rules) idx0 rfl hnd
    ⟨fun k _ => ⟨rfl, rfl, rfl, fun _ _ => rfl⟩, fun k hk => absurd rfl hk⟩
  change IdxOk _ _ (buildIndex cs rules) at h
  by_cases hc : (buildIndex cs rules).count k = 0
  · obtain ⟨z1, z2, z3, _⟩ := h.zero k hc
    refine ⟨(buildIndex cs rules).order, [], by rw [z3]; simp, ?_, fun hne => absurd z3 hne⟩
    rw [z1, z2, z3]
    rfl
  · obtain ⟨pre, post, q1, q2, q3⟩ := h.pos k hc
    refine ⟨pre, post, q1, ?_, fun _ => ?_⟩
    · rw [q2, q3]
      omega
    · rw [q2]
      omega

end Verif.Rfilter
