import Verif.Net.Spec
/-!
# The traversal is a topological numbering
-/
set_option autoImplicit false
namespace Verif.Net
variable {W : Type} {n : Net W} {rank : Nat → Nat}

theorem upd_self {α : Type} (f : Nat → α) (i : Nat) (x : α) : upd f i x i = x := by simp [upd]
theorem upd_ne {α : Type} (f : Nat → α) (i j : Nat) (x : α) (h : j ≠ i) : upd f i x j = f j := by simp [upd, h]

theorem nodup_bound {l : List Nat} {N : Nat} (h : l.Nodup) (hb : ∀ x ∈ l, x < N) : l.length ≤ N := by
  have := h.length_le_of_subset (l₂ := List.range N) (fun x hx => List.mem_range.2 (hb x hx))
  simpa using this

/-- Arc of the network. -/
def Net.Live (n : Net W) (a : Nat) : Prop := ∃ v, a ∈ n.out v

theorem Net.WF.live_out (hw : n.WF rank) {a : Nat} (h : n.Live a) : a ∈ n.out (n.src a) := by
  obtain ⟨v, hv⟩ := h
  rw [(hw.out_ok v a hv).2.1]; exact hv

theorem Net.WF.live_inn (hw : n.WF rank) {a : Nat} (h : n.Live a) : a ∈ n.inn (n.dst a) := by
  obtain ⟨v, hv⟩ := h
  exact (hw.out_ok v a hv).2.2.1

theorem Net.WF.dst_lt (hw : n.WF rank) {a : Nat} (h : n.Live a) : n.dst a < n.nNodes := by
  obtain ⟨v, hv⟩ := h
  exact (hw.out_ok v a hv).2.2.2.2.1

theorem Net.WF.src_lt (hw : n.WF rank) {a : Nat} (h : n.Live a) : n.src a < n.nNodes := by
  obtain ⟨v, hv⟩ := h
  rw [(hw.out_ok v a hv).2.1]; exact (hw.out_ok v a hv).2.2.2.1

theorem Net.WF.rank_lt (hw : n.WF rank) {a : Nat} (h : n.Live a) : rank (n.src a) < rank (n.dst a) := by
  obtain ⟨v, hv⟩ := h
  rw [(hw.out_ok v a hv).2.1]; exact (hw.out_ok v a hv).2.2.2.2.2

theorem Net.WF.inn_live (hw : n.WF rank) {v a : Nat} (h : a ∈ n.inn v) : n.Live a :=
  ⟨_, (hw.inn_ok v a h).2⟩

/-- Nodes with incoming arcs are reachable. -/
theorem Net.WF.reach_of_inn (hw : n.WF rank) : ∀ (k : Nat) (v : Nat), rank v < k → n.inn v ≠ [] → n.Reach v := by
  intro k
  induction k with
  | zero => intro v h; omega
  | succ k ih =>
    intro v hk hv
    obtain ⟨a, ha⟩ := List.exists_mem_of_ne_nil _ hv
    obtain ⟨h1, h2⟩ := hw.inn_ok v a ha
    have hr := hw.rank_lt ⟨_, h2⟩
    rw [h1] at hr
    have hs : n.Reach (n.src a) := by
      by_cases he : n.src a = n.start
      · rw [he]; exact .start
      · exact ih _ (by omega) (hw.source _ (List.ne_nil_of_mem h2) he)
    rw [← h1]
    exact .step _ _ hs h2

theorem Net.WF.reach_iff (hw : n.WF rank) (v : Nat) : n.Reach v ↔ v = n.start ∨ n.inn v ≠ [] := by
  constructor
  · intro h
    cases h with
    | start => exact Or.inl rfl
    | step v a _ ha => exact Or.inr (List.ne_nil_of_mem (hw.out_ok v a ha).2.2.1)
  · rintro (h | h)
    · rw [h]; exact .start
    · exact hw.reach_of_inn _ _ (Nat.lt_succ_self _) h

theorem Net.WF.reach_lt (hw : n.WF rank) {v : Nat} (h : n.Reach v) : v < n.nNodes := by
  cases h with
  | start => exact hw.start_lt
  | step v a _ ha => exact hw.dst_lt ⟨v, ha⟩

/-! ### depth first -/

/-- Invariant of the depth-first loop, `P` the arcs looked at. -/
structure DInv (n : Net W) (cur : Bool) (s : TState) (P : List Nat) : Prop where
  flags : ∀ u, n.Reach u → (s.fl.flag2 u ≠ cur ↔ u ∈ s.nodes ++ s.fringe)
  seen : ∀ u, u ∈ s.nodes ++ s.fringe ↔ u = n.start ∨ ∃ a ∈ P, n.dst a = u
  nodup : (s.nodes ++ s.fringe).Nodup

theorem pushNode_depth (cur : Bool) (s : TState) (v : Nat) :
    pushNode false cur s v = if s.fl.flag2 v ≠ cur then s else
      { s with fl := { s.fl with flag2 := upd s.fl.flag2 v (!s.fl.flag2 v) }, fringe := v :: s.fringe } := by
  unfold pushNode
  simp

theorem depth_push (hw : n.WF rank) (cur : Bool) : ∀ (as : List Nat) (s : TState) (P : List Nat),
    DInv n cur s P → (∀ a ∈ as, n.Live a) →
    ∃ s', (as.map n.dst).foldl (pushNode false cur) s = s' ∧ DInv n cur s' (P ++ as) ∧ s'.nodes = s.nodes ∧
      s'.arcs = s.arcs ∧ s'.fl.flag1 = s.fl.flag1 := by
  intro as
  induction as with
  | nil => intro s P h _; exact ⟨s, rfl, by simpa using h, rfl, rfl, rfl⟩
  | cons a as ih =>
    intro s P h hl
    rw [List.map_cons, List.foldl_cons, pushNode_depth]
    have hla := hl a (by simp)
    have hra : n.Reach (n.dst a) := (hw.reach_iff _).2 (Or.inr (List.ne_nil_of_mem (hw.live_inn hla)))
    by_cases hv : s.fl.flag2 (n.dst a) ≠ cur
    · rw [if_pos hv]
      have hmem := (h.flags _ hra).1 hv
      have h' : DInv n cur s (P ++ [a]) := by
        refine ⟨h.flags, ?_, h.nodup⟩
        intro u
        rw [h.seen u]
        constructor
        · rintro (h1 | ⟨b, h1, h2⟩)
          · exact Or.inl h1
          · exact Or.inr ⟨b, by simp [h1], h2⟩
        · rintro (h1 | ⟨b, h1, h2⟩)
          · exact Or.inl h1
          · rcases List.mem_append.1 h1 with h1 | h1
            · exact Or.inr ⟨b, h1, h2⟩
            · rw [List.mem_singleton.1 h1] at h2
              rw [← h2]
              exact (h.seen _).1 hmem
      obtain ⟨s', e1, e2, e3⟩ := ih s (P ++ [a]) h' (fun b hb => hl b (by simp [hb]))
      exact ⟨s', e1, by simpa using e2, e3⟩
    · rw [if_neg hv]
      have hcur : s.fl.flag2 (n.dst a) = cur := Decidable.not_not.1 hv
      have hnot : n.dst a ∉ s.nodes ++ s.fringe := fun hm => hv ((h.flags _ hra).2 hm)
      have h' : DInv n cur ⟨⟨s.fl.flag1, upd s.fl.flag2 (n.dst a) (!s.fl.flag2 (n.dst a))⟩,
          n.dst a :: s.fringe, s.nodes, s.arcs⟩ (P ++ [a]) := by
        refine ⟨?_, ?_, ?_⟩
        · intro u hu
          show upd s.fl.flag2 (n.dst a) _ u ≠ cur ↔ u ∈ s.nodes ++ n.dst a :: s.fringe
          by_cases hue : u = n.dst a
          · subst hue
            rw [upd_self, hcur]
            simp
          · rw [upd_ne _ _ _ _ hue, h.flags u hu]
            simp [hue]
        · intro u
          show u ∈ s.nodes ++ n.dst a :: s.fringe ↔ _
          have : u ∈ s.nodes ++ n.dst a :: s.fringe ↔ u = n.dst a ∨ u ∈ s.nodes ++ s.fringe := by
            simp only [List.mem_append, List.mem_cons]
            constructor
            · rintro (h | h | h)
              · exact Or.inr (Or.inl h)
              · exact Or.inl h
              · exact Or.inr (Or.inr h)
            · rintro (h | h | h)
              · exact Or.inr (Or.inl h)
              · exact Or.inl h
              · exact Or.inr (Or.inr h)
          rw [this, h.seen u]
          constructor
          · rintro (h1 | h1 | ⟨b, h1, h2⟩)
            · exact Or.inr ⟨a, by simp, h1.symm⟩
            · exact Or.inl h1
            · exact Or.inr ⟨b, by simp [h1], h2⟩
          · rintro (h1 | ⟨b, h1, h2⟩)
            · exact Or.inr (Or.inl h1)
            · rcases List.mem_append.1 h1 with h1 | h1
              · exact Or.inr (Or.inr ⟨b, h1, h2⟩)
              · rw [List.mem_singleton.1 h1] at h2
                exact Or.inl h2.symm
        · show (s.nodes ++ n.dst a :: s.fringe).Nodup
          have := h.nodup
          rw [List.nodup_append] at this ⊢
          obtain ⟨h1, h2, h3⟩ := this
          refine ⟨h1, List.nodup_cons.2 ⟨fun hm => hnot (by simp [hm]), h2⟩, ?_⟩
          intro x hx y hy
          rcases List.mem_cons.1 hy with hy | hy
          · rw [hy]; intro e; exact hnot (by simp [← e, hx])
          · exact h3 x hx y hy
      obtain ⟨s', e1, e2, e3⟩ := ih _ (P ++ [a]) h' (fun b hb => hl b (by simp [hb]))
      exact ⟨s', e1, by simpa using e2, e3⟩

theorem pop_nodes {A B : List Nat} {v : Nat} (u : Nat) : u ∈ (A ++ [v]) ++ B ↔ u ∈ A ++ (v :: B) := by simp

/-- The depth-first loop. `Q` is any property of `flag1` and the list of nodes handed to the callback that the callback
maintains. -/
theorem depth_loop (hw : n.WF rank) (cur : Bool) (op : Flags → Nat → Flags)
    (hop : ∀ f v, (op f v).flag2 = f.flag2) (Q : (Nat → Int) → List Nat → Prop)
    (hQ : ∀ (f : Flags) (l : List Nat) (v : Nat), Q f.flag1 l → Q (op f v).flag1 (l ++ [v])) :
    ∀ (fuel : Nat) (s : TState), DInv n cur s s.arcs → s.arcs = s.nodes.flatMap n.out →
      Q s.fl.flag1 s.nodes → n.nNodes ≤ s.nodes.length + fuel →
      ∃ s', travLoop n false cur op fuel s = some s' ∧ s'.fringe = [] ∧ DInv n cur s' s'.arcs ∧
        s'.arcs = s'.nodes.flatMap n.out ∧ Q s'.fl.flag1 s'.nodes := by
  intro fuel
  induction fuel with
  | zero =>
    intro s h1 h2 h3 h4
    have hb : (s.nodes ++ s.fringe).length ≤ n.nNodes := by
      apply nodup_bound h1.nodup
      intro u hu
      rcases (h1.seen u).1 hu with e | ⟨a, ha, e⟩
      · rw [e]; exact hw.start_lt
      · rw [h2] at ha
        obtain ⟨v, _, hv⟩ := List.mem_flatMap.1 ha
        rw [← e]; exact hw.dst_lt ⟨v, hv⟩
    have hf : s.fringe = [] := by
      rw [List.length_append] at hb
      exact List.length_eq_zero_iff.1 (by omega)
    exact ⟨s, by unfold travLoop; rw [if_pos hf], hf, h1, h2, h3⟩
  | succ fuel ih =>
    intro s h1 h2 h3 h4
    unfold travLoop
    cases hf : s.fringe with
    | nil => exact ⟨s, rfl, hf, h1, h2, h3⟩
    | cons v rest =>
      simp only
      have hd : DInv n cur ⟨op s.fl v, rest, s.nodes ++ [v], s.arcs⟩ s.arcs := by
        refine ⟨?_, ?_, ?_⟩
        · intro u hu
          show (op s.fl v).flag2 u ≠ cur ↔ u ∈ (s.nodes ++ [v]) ++ rest
          rw [hop, pop_nodes, ← hf]; exact h1.flags u hu
        · intro u
          show u ∈ (s.nodes ++ [v]) ++ rest ↔ _
          rw [pop_nodes, ← hf]; exact h1.seen u
        · show ((s.nodes ++ [v]) ++ rest).Nodup
          have := h1.nodup
          rw [hf] at this
          simpa using this
      obtain ⟨s', e1, e2, e3, e4, e5⟩ := depth_push hw cur (n.out v) _ _ hd (fun a ha => ⟨v, ha⟩)
      rw [e1]
      apply ih
      · show DInv n cur _ (s'.arcs ++ n.out v)
        rw [e4]
        exact ⟨e2.flags, e2.seen, e2.nodup⟩
      · show s'.arcs ++ n.out v = s'.nodes.flatMap n.out
        rw [e4, e3, h2]; simp
      · show Q s'.fl.flag1 s'.nodes
        rw [e5, e3]; exact hQ _ _ _ h3
      · show n.nNodes ≤ s'.nodes.length + fuel
        rw [e3]
        simp only [List.length_append, List.length_cons, List.length_nil]
        omega

theorem depth_run (hw : n.WF rank) (op : Flags → Nat → Flags)
    (hop : ∀ f v, (op f v).flag2 = f.flag2) (Q : (Nat → Int) → List Nat → Prop)
    (hQ : ∀ (f : Flags) (l : List Nat) (v : Nat), Q f.flag1 l → Q (op f v).flag1 (l ++ [v]))
    (fl : Flags) (hu : fl.Uniform n) (h0 : Q fl.flag1 []) :
    ∃ s, travRun n false op fl = some s ∧ s.nodes.Nodup ∧ (∀ u, u ∈ s.nodes ↔ n.Reach u) ∧
      s.arcs = s.nodes.flatMap n.out ∧ Q s.fl.flag1 s.nodes ∧
      (∀ u, n.Reach u → s.fl.flag2 u = !fl.flag2 n.start) := by
  have hd : DInv n (fl.flag2 n.start)
      ⟨{ fl with flag2 := upd fl.flag2 n.start (!fl.flag2 n.start) }, [n.start], [], []⟩ [] := by
    refine ⟨?_, ?_, ?_⟩
    · intro u hu'
      show upd fl.flag2 n.start _ u ≠ _ ↔ u ∈ [] ++ [n.start]
      by_cases e : u = n.start
      · subst e; rw [upd_self]; simp
      · rw [upd_ne _ _ _ _ e, hu u hu']; simp [e]
    · intro u
      show u ∈ [] ++ [n.start] ↔ _
      simp
    · show ([] ++ [n.start]).Nodup
      simp
  obtain ⟨s, e1, e2, e3, e4, e5⟩ := depth_loop hw _ op hop Q hQ n.nNodes _ hd rfl h0 (by simp)
  have hreach : ∀ u, u ∈ s.nodes ↔ n.Reach u := by
    intro u
    have hseen := e3.seen
    simp only [e2, List.append_nil] at hseen
    constructor
    · -- visited nodes are reachable
      have key : ∀ (k : Nat) (u : Nat), rank u < k → u ∈ s.nodes → n.Reach u := by
        intro k
        induction k with
        | zero => intro u h; omega
        | succ k ih =>
          intro u hk hm
          rcases (hseen u).1 hm with h | ⟨a, ha, h⟩
          · rw [h]; exact .start
          · rw [e4] at ha
            obtain ⟨v, hv, hav⟩ := List.mem_flatMap.1 ha
            have := (hw.out_ok v a hav).2.2.2.2.2
            rw [← h]
            rw [h] at this
            exact .step v a (ih v (by omega) hv) hav
      exact key _ u (Nat.lt_succ_self _)
    · intro h
      induction h with
      | start => exact (hseen _).2 (Or.inl rfl)
      | step v a _ hav ih => exact (hseen _).2 (Or.inr ⟨a, by rw [e4]; exact List.mem_flatMap.2 ⟨v, ih, hav⟩, rfl⟩)
  have hnd := e3.nodup
  rw [e2, List.append_nil] at hnd
  refine ⟨s, e1, hnd, hreach, e4, e5, ?_⟩
  intro u hr
  have := (e3.flags u hr).2 (by rw [e2, List.append_nil]; exact (hreach u).2 hr)
  cases h1 : s.fl.flag2 u <;> cases h2 : fl.flag2 n.start <;> simp_all

/-! ### in order -/

/-- Invariant of the in-order loop, `P` the arcs looked at. -/
structure KInv (n : Net W) (cur : Bool) (s : TState) (P : List Nat) : Prop where
  flags : ∀ u, n.Reach u → (s.fl.flag2 u ≠ cur ↔ u ∈ s.nodes ++ s.fringe)
  seen : ∀ u, u ∈ s.nodes ++ s.fringe ↔ u = n.start ∨ (n.inn u ≠ [] ∧ ∀ a ∈ n.inn u, a ∈ P)
  nodup : (s.nodes ++ s.fringe).Nodup
  count : ∀ u, n.Reach u → s.fl.flag1 u = (n.inn u).length - ((P.filter fun a => n.dst a = u).length : Int)
  arcsNodup : P.Nodup
  live : ∀ a ∈ P, n.Live a

theorem pushNode_inorder (cur : Bool) (s : TState) (v : Nat) :
    pushNode true cur s v = if s.fl.flag1 v - 1 > 0 then
        ⟨⟨upd s.fl.flag1 v (s.fl.flag1 v - 1), s.fl.flag2⟩, s.fringe, s.nodes, s.arcs⟩
      else if s.fl.flag2 v ≠ cur then
        ⟨⟨upd s.fl.flag1 v (s.fl.flag1 v - 1), s.fl.flag2⟩, s.fringe, s.nodes, s.arcs⟩
      else ⟨⟨upd s.fl.flag1 v (s.fl.flag1 v - 1), upd s.fl.flag2 v (!s.fl.flag2 v)⟩, s.fringe ++ [v], s.nodes,
        s.arcs⟩ := by
  unfold pushNode
  simp [upd_self]

theorem inorder_push (hw : n.WF rank) (cur : Bool) : ∀ (as : List Nat) (s : TState) (P : List Nat),
    KInv n cur s P → (∀ a ∈ as, n.Live a) → (P ++ as).Nodup →
    ∃ s', (as.map n.dst).foldl (pushNode true cur) s = s' ∧ KInv n cur s' (P ++ as) ∧ s'.nodes = s.nodes ∧
      s'.arcs = s.arcs := by
  intro as
  induction as with
  | nil => intro s P h _ _; exact ⟨s, rfl, by simpa using h, rfl, rfl⟩
  | cons a as ih =>
    intro s P h hl hnd
    rw [List.map_cons, List.foldl_cons]
    have hla := hl a (by simp)
    have hain := hw.live_inn hla
    have hne : n.inn (n.dst a) ≠ [] := List.ne_nil_of_mem hain
    have hreach : n.Reach (n.dst a) := (hw.reach_iff _).2 (Or.inr hne)
    have haP : a ∉ P := by
      intro hm
      rw [List.nodup_append] at hnd
      exact hnd.2.2 a hm a (by simp) rfl
    have hnd1 : (P ++ [a]).Nodup := by
      have : (P ++ [a]) ++ as = P ++ a :: as := by simp
      rw [← this, List.nodup_append] at hnd
      exact hnd.1
    have hlive1 : ∀ b ∈ P ++ [a], n.Live b := by
      intro b hb
      rcases List.mem_append.1 hb with hb | hb
      · exact h.live b hb
      · rw [List.mem_singleton.1 hb]; exact hla
    -- the arcs into the node that were looked at
    have hsub : ((P ++ [a]).filter fun b => n.dst b = n.dst a) ⊆ n.inn (n.dst a) := by
      intro b hb
      obtain ⟨h1, h2⟩ := List.mem_filter.1 hb
      have := hw.live_inn (hlive1 b h1)
      have e : n.dst b = n.dst a := by simpa using h2
      rw [e] at this; exact this
    have hfn : ((P ++ [a]).filter fun b => n.dst b = n.dst a).Nodup := hnd1.filter _
    have hlen : ((P ++ [a]).filter fun b => n.dst b = n.dst a).length =
        (P.filter fun b => n.dst b = n.dst a).length + 1 := by
      rw [List.filter_append]; simp
    have hcnt : s.fl.flag1 (n.dst a) - 1 =
        (n.inn (n.dst a)).length - (((P ++ [a]).filter fun b => n.dst b = n.dst a).length : Int) := by
      rw [h.count _ hreach, hlen]; push_cast; omega
    have hall : ¬ (s.fl.flag1 (n.dst a) - 1 > 0) ↔ ∀ b ∈ n.inn (n.dst a), b ∈ P ++ [a] := by
      constructor
      · intro hle b hb
        apply Decidable.byContradiction
        intro hb2
        have hn2 : (b :: (P ++ [a]).filter fun b => n.dst b = n.dst a).Nodup :=
          List.nodup_cons.2 ⟨fun hm => hb2 (List.mem_filter.1 hm).1, hfn⟩
        have := hn2.length_le_of_subset (l₂ := n.inn (n.dst a)) (by
          intro c hc
          rcases List.mem_cons.1 hc with e | hc
          · rw [e]; exact hb
          · exact hsub hc)
        simp only [List.length_cons] at this
        omega
      · intro hin
        have := (hw.inn_nodup (n.dst a)).length_le_of_subset
          (l₂ := (P ++ [a]).filter fun b => n.dst b = n.dst a) (by
            intro b hb
            refine List.mem_filter.2 ⟨hin b hb, ?_⟩
            simp [(hw.inn_ok _ _ hb).1])
        omega
    have hcount : ∀ u, n.Reach u → upd s.fl.flag1 (n.dst a) (s.fl.flag1 (n.dst a) - 1) u =
        (n.inn u).length - (((P ++ [a]).filter fun b => n.dst b = u).length : Int) := by
      intro u hu
      by_cases e : u = n.dst a
      · subst e; rw [upd_self]; exact hcnt
      · rw [upd_ne _ _ _ _ e, h.count u hu, List.filter_append]
        have : ([a].filter fun b => n.dst b = u) = [] := by
          simp; exact fun e' => e e'.symm
        rw [this]; simp
    have hseen_other : ∀ u, u ≠ n.dst a → ((n.inn u ≠ [] ∧ ∀ b ∈ n.inn u, b ∈ P) ↔
        (n.inn u ≠ [] ∧ ∀ b ∈ n.inn u, b ∈ P ++ [a])) := by
      intro u hu
      constructor
      · rintro ⟨h1, h2⟩; exact ⟨h1, fun b hb => by simp [h2 b hb]⟩
      · rintro ⟨h1, h2⟩
        refine ⟨h1, fun b hb => ?_⟩
        rcases List.mem_append.1 (h2 b hb) with h3 | h3
        · exact h3
        · rw [List.mem_singleton.1 h3] at hb
          exact absurd (hw.inn_ok _ _ hb).1.symm hu
    have hnotnow : n.dst a ∉ s.nodes ++ s.fringe := by
      intro hm
      rcases (h.seen _).1 hm with e | ⟨_, h2⟩
      · rw [e, hw.start_inn] at hain; cases hain
      · exact haP (h2 a hain)
    have hstart : n.dst a ≠ n.start := by
      intro e; rw [e, hw.start_inn] at hain; cases hain
    have hflag : s.fl.flag2 (n.dst a) = cur := by
      apply Decidable.byContradiction
      intro hc
      exact hnotnow ((h.flags _ hreach).1 hc)
    rw [pushNode_inorder]
    by_cases hpos : s.fl.flag1 (n.dst a) - 1 > 0
    · rw [if_pos hpos]
      have h' : KInv n cur ⟨⟨upd s.fl.flag1 (n.dst a) (s.fl.flag1 (n.dst a) - 1), s.fl.flag2⟩,
          s.fringe, s.nodes, s.arcs⟩ (P ++ [a]) := by
        refine ⟨h.flags, ?_, h.nodup, hcount, hnd1, hlive1⟩
        intro u
        show u ∈ s.nodes ++ s.fringe ↔ _
        by_cases e : u = n.dst a
        · subst e
          constructor
          · intro hm; exact absurd hm hnotnow
          · rintro (e | ⟨_, h2⟩)
            · exact absurd e hstart
            · exact absurd hpos (hall.2 h2)
        · rw [h.seen u, hseen_other u e]
      obtain ⟨s', e1, e2, e3, e4⟩ := ih _ (P ++ [a]) h' (fun b hb => hl b (by simp [hb])) (by simpa using hnd)
      exact ⟨s', e1, by simpa using e2, e3, e4⟩
    · rw [if_neg hpos, if_neg (by rw [hflag]; simp)]
      have h' : KInv n cur ⟨⟨upd s.fl.flag1 (n.dst a) (s.fl.flag1 (n.dst a) - 1),
            upd s.fl.flag2 (n.dst a) (!s.fl.flag2 (n.dst a))⟩,
          s.fringe ++ [n.dst a], s.nodes, s.arcs⟩ (P ++ [a]) := by
        refine ⟨?_, ?_, ?_, hcount, hnd1, hlive1⟩
        · intro u hu
          show upd s.fl.flag2 (n.dst a) _ u ≠ cur ↔ u ∈ s.nodes ++ (s.fringe ++ [n.dst a])
          by_cases e : u = n.dst a
          · subst e; rw [upd_self, hflag]; simp
          · rw [upd_ne _ _ _ _ e, h.flags u hu]; simp [e]
        · intro u
          show u ∈ s.nodes ++ (s.fringe ++ [n.dst a]) ↔ _
          by_cases e : u = n.dst a
          · subst e
            constructor
            · intro _; exact Or.inr ⟨hne, hall.1 hpos⟩
            · intro _; simp
          · have : u ∈ s.nodes ++ (s.fringe ++ [n.dst a]) ↔ u ∈ s.nodes ++ s.fringe := by simp [e]
            rw [this, h.seen u, hseen_other u e]
        · show (s.nodes ++ (s.fringe ++ [n.dst a])).Nodup
          rw [← List.append_assoc, List.nodup_append]
          refine ⟨h.nodup, by simp, ?_⟩
          intro x hx y hy
          rw [List.mem_singleton.1 hy]
          intro e; rw [e] at hx; exact hnotnow hx
      obtain ⟨s', e1, e2, e3, e4⟩ := ih _ (P ++ [a]) h' (fun b hb => hl b (by simp [hb])) (by simpa using hnd)
      exact ⟨s', e1, by simpa using e2, e3, e4⟩

/-- Every node comes after the nodes that have an arc to it. -/
def Ordered (n : Net W) (l : List Nat) : Prop :=
  ∀ A u B, l = A ++ u :: B → ∀ a ∈ n.inn u, n.src a ∈ A

theorem inorder_loop (hw : n.WF rank) (cur : Bool) : ∀ (fuel : Nat) (s : TState),
    KInv n cur s s.arcs → s.arcs = s.nodes.flatMap n.out → Ordered n s.nodes →
    n.nNodes ≤ s.nodes.length + fuel →
    ∃ s', travLoop n true cur (fun f _ => f) fuel s = some s' ∧ s'.fringe = [] ∧ KInv n cur s' s'.arcs ∧
      s'.arcs = s'.nodes.flatMap n.out ∧ Ordered n s'.nodes := by
  intro fuel
  induction fuel with
  | zero =>
    intro s h1 h2 h3 h4
    have hb : (s.nodes ++ s.fringe).length ≤ n.nNodes := by
      apply nodup_bound h1.nodup
      intro u hu
      exact hw.reach_lt ((hw.reach_iff u).2 (((h1.seen u).1 hu).imp id And.left))
    have hf : s.fringe = [] := by
      rw [List.length_append] at hb
      exact List.length_eq_zero_iff.1 (by omega)
    exact ⟨s, by unfold travLoop; rw [if_pos hf], hf, h1, h2, h3⟩
  | succ fuel ih =>
    intro s h1 h2 h3 h4
    unfold travLoop
    cases hf : s.fringe with
    | nil => exact ⟨s, rfl, hf, h1, h2, h3⟩
    | cons v rest =>
      simp only
      have hd : KInv n cur ⟨s.fl, rest, s.nodes ++ [v], s.arcs⟩ s.arcs := by
        refine ⟨?_, ?_, ?_, h1.count, h1.arcsNodup, h1.live⟩
        · intro u hu
          show s.fl.flag2 u ≠ cur ↔ u ∈ (s.nodes ++ [v]) ++ rest
          rw [pop_nodes, ← hf]; exact h1.flags u hu
        · intro u
          show u ∈ (s.nodes ++ [v]) ++ rest ↔ _
          rw [pop_nodes, ← hf]; exact h1.seen u
        · show ((s.nodes ++ [v]) ++ rest).Nodup
          have := h1.nodup
          rw [hf] at this
          simpa using this
      have hvn : v ∉ s.nodes := by
        have := h1.nodup
        rw [hf, List.nodup_append] at this
        exact fun hm => this.2.2 v hm v (by simp) rfl
      have hnd : (s.arcs ++ n.out v).Nodup := by
        rw [List.nodup_append]
        refine ⟨h1.arcsNodup, hw.out_nodup v, ?_⟩
        intro a ha b hb e
        rw [h2] at ha
        obtain ⟨w, hwm, haw⟩ := List.mem_flatMap.1 ha
        rw [e] at haw
        have h5 := (hw.out_ok w b haw).2.1
        have h6 := (hw.out_ok v b hb).2.1
        rw [h6] at h5
        exact hvn (by rw [h5]; exact hwm)
      obtain ⟨s', e1, e2, e3, e4⟩ := inorder_push hw cur (n.out v) _ _ hd (fun a ha => ⟨v, ha⟩) hnd
      rw [e1]
      apply ih
      · show KInv n cur _ (s'.arcs ++ n.out v)
        rw [e4]
        exact ⟨e2.flags, e2.seen, e2.nodup, e2.count, e2.arcsNodup, e2.live⟩
      · show s'.arcs ++ n.out v = s'.nodes.flatMap n.out
        rw [e4, e3, h2]; simp
      · show Ordered n s'.nodes
        rw [e3]
        show Ordered n (s.nodes ++ [v])
        intro A u B hAB a ha
        rcases List.eq_nil_or_concat B with hB | ⟨B', x, hB⟩
        · subst hB
          obtain ⟨e5, e6⟩ := List.append_inj' hAB rfl
          injection e6 with e6 _
          subst e6
          rw [← e5]
          have hs := (h1.seen v).1 (by rw [hf]; simp)
          rcases hs with e | ⟨_, hs⟩
          · rw [e, hw.start_inn] at ha; cases ha
          · have := hs a ha
            rw [h2] at this
            obtain ⟨w, hwm, haw⟩ := List.mem_flatMap.1 this
            rw [(hw.out_ok w a haw).2.1]; exact hwm
        · rw [hB, List.concat_eq_append] at hAB
          rw [← List.cons_append, ← List.append_assoc] at hAB
          obtain ⟨e5, _⟩ := List.append_inj' hAB rfl
          exact h3 A u B' e5 a ha
      · show n.nNodes ≤ s'.nodes.length + fuel
        rw [e3]
        simp only [List.length_append, List.length_cons, List.length_nil]
        omega

/-- The in-order traversal: it ends, hands over every reachable node exactly once and after the nodes before it, hands
over the arcs of the nodes in that order, and leaves the visited bits as uniform as they were. -/
theorem inorder_spec (hw : n.WF rank) (fl : Flags) (hu : fl.Uniform n) :
    ∃ s, inorderTraverse n fl = some s ∧ s.nodes.Nodup ∧ (∀ u, u ∈ s.nodes ↔ n.Reach u) ∧
      s.arcs = s.nodes.flatMap n.out ∧ s.arcs.Nodup ∧ Ordered n s.nodes ∧
      (∀ u, n.Reach u → s.fl.flag2 u = fl.flag2 n.start) := by
  obtain ⟨s1, e1, _, e3, _, e5, e6⟩ := depth_run hw (countOp n) (fun _ _ => rfl)
    (fun f l => ∀ u ∈ l, f u = ((n.inn u).length : Int))
    (by
      intro f l v hq u hm
      show upd f.flag1 v _ u = _
      by_cases e : u = v
      · subst e; rw [upd_self]
      · rw [upd_ne _ _ _ _ e]
        rcases List.mem_append.1 hm with hm | hm
        · exact hq u hm
        · exact absurd (List.mem_singleton.1 hm) e) fl hu (by intro u hm; cases hm)
  have hd : KInv n (s1.fl.flag2 n.start)
      ⟨{ s1.fl with flag2 := upd s1.fl.flag2 n.start (!s1.fl.flag2 n.start) }, [n.start], [], []⟩ [] := by
    refine ⟨?_, ?_, ?_, ?_, List.nodup_nil, by intro a h; cases h⟩
    · intro u hr
      show upd s1.fl.flag2 n.start _ u ≠ _ ↔ u ∈ [] ++ [n.start]
      by_cases e : u = n.start
      · subst e; rw [upd_self]; simp
      · rw [upd_ne _ _ _ _ e, e6 u hr, e6 _ .start]; simp [e]
    · intro u
      show u ∈ [] ++ [n.start] ↔ _
      simp only [List.nil_append, List.mem_singleton]
      constructor
      · exact Or.inl
      · rintro (e | ⟨h1, h2⟩)
        · exact e
        · obtain ⟨a, ha⟩ := List.exists_mem_of_ne_nil _ h1
          exact absurd (h2 a ha) (by simp)
    · show ([] ++ [n.start]).Nodup
      simp
    · intro u hr
      show s1.fl.flag1 u = _
      rw [e5 u ((e3 u).2 hr)]
      simp
  obtain ⟨s, f1, f2, f3, f4, f5⟩ := inorder_loop hw _ n.nNodes _ hd rfl
    (by intro A u B h; exact absurd h (by simp)) (by simp)
  have hreach : ∀ u, u ∈ s.nodes ↔ n.Reach u := by
    have hseen := f3.seen
    simp only [f2, List.append_nil] at hseen
    intro u
    constructor
    · intro hm
      exact (hw.reach_iff u).2 (((hseen u).1 hm).imp id And.left)
    · have key : ∀ (k : Nat) (u : Nat), rank u < k → n.Reach u → u ∈ s.nodes := by
        intro k
        induction k with
        | zero => intro u h; omega
        | succ k ih =>
          intro u hk hr
          rcases (hw.reach_iff u).1 hr with e | hne
          · exact (hseen u).2 (Or.inl e)
          · refine (hseen u).2 (Or.inr ⟨hne, fun a ha => ?_⟩)
            obtain ⟨g1, g2⟩ := hw.inn_ok u a ha
            have hrk := hw.rank_lt ⟨_, g2⟩
            rw [g1] at hrk
            have hsr : n.Reach (n.src a) := by
              by_cases he : n.src a = n.start
              · rw [he]; exact .start
              · exact (hw.reach_iff _).2 (Or.inr (hw.source _ (List.ne_nil_of_mem g2) he))
            rw [f4]
            exact List.mem_flatMap.2 ⟨_, ih _ (by omega) hsr, g2⟩
      exact key _ u (Nat.lt_succ_self _)
  have hnd := f3.nodup
  rw [f2, List.append_nil] at hnd
  refine ⟨s, ?_, hnd, hreach, f4, f3.arcsNodup, f5, ?_⟩
  · unfold inorderTraverse; rw [e1]; exact f1
  · intro u hr
    have := (f3.flags u hr).2 (by rw [f2, List.append_nil]; exact (hreach u).2 hr)
    rw [e6 _ .start] at this
    cases h1 : s.fl.flag2 u <;> cases h2 : fl.flag2 n.start <;> simp_all

end Verif.Net
