import Verif.Net.Bridge
/-!
# Networks built arc by arc
-/
set_option autoImplicit false
namespace Verif.Net
variable {W : Type} {n : Net W} {rank : Nat → Nat}

theorem init_wf : (Net.init W).WF fun _ => 0 := by
  refine ⟨Nat.zero_lt_one, ?_, ?_, ?_, ?_, ?_, rfl, ?_, fun _ => rfl⟩
  · intro v a h; cases h
  · intro v a h; cases h
  · intro v; exact List.nodup_nil
  · intro v; exact List.nodup_nil
  · intro v h; exact absurd rfl h
  · intro s h; cases h

/-! ### an arc in front of a node -/

/-- Ranks after an arc was inserted before node `v`. -/
def beforeRank (n : Net W) (rank : Nat → Nat) (v : Nat) : Nat → Nat :=
  fun u => if u = n.nNodes then 2 * rank v else if u = v then 2 * rank v + 1 else 2 * rank u

section before
variable (d : Option W) {v : Nat}

theorem before_inn (hw : n.WF rank) (u : Nat) :
    (n.insertBefore v d).inn u = if u = v then [n.nArcs] else if u = n.nNodes then n.inn v else n.inn u := by
  have h := foldl_addArc (n.inn v) [] (by simpa using hw.inn_nodup _)
  show upd (upd n.inn n.nNodes ((n.inn v).foldl addArc [])) v (addArc [] n.nArcs) u = _
  rw [h]
  unfold upd
  by_cases h1 : u = v
  · simp [h1, addArc]
  · by_cases h2 : u = n.nNodes
    · rw [if_neg h1, if_pos h2, if_neg h1, if_pos h2]; simp
    · simp [h1, h2]

theorem before_out (u : Nat) : (n.insertBefore v d).out u = if u = n.nNodes then [n.nArcs] else n.out u := by
  show upd n.out n.nNodes (addArc [] n.nArcs) u = _
  simp [upd, addArc]

theorem before_dst (a : Nat) :
    (n.insertBefore v d).dst a = if a = n.nArcs then v else if a ∈ n.inn v then n.nNodes else n.dst a := rfl

theorem before_src (a : Nat) : (n.insertBefore v d).src a = if a = n.nArcs then n.nNodes else n.src a := rfl

theorem before_data (a : Nat) : (n.insertBefore v d).data a = if a = n.nArcs then d else n.data a := rfl

theorem inn_node (hw : n.WF rank) (hv : n.inn v ≠ []) : v < n.nNodes ∧ v ≠ n.start := by
  obtain ⟨a, ha⟩ := List.exists_mem_of_ne_nil _ hv
  obtain ⟨e1, e2⟩ := hw.inn_ok _ _ ha
  have := hw.dst_lt ⟨_, e2⟩
  refine ⟨by omega, ?_⟩
  intro e
  rw [e, hw.start_inn] at hv
  exact hv rfl

theorem before_wf (hw : n.WF rank) (hv : n.inn v ≠ []) : (n.insertBefore v d).WF (beforeRank n rank v) := by
  obtain ⟨hvl, hvs⟩ := inn_node hw hv
  have hsl := hw.start_lt
  have rv : beforeRank n rank v v = 2 * rank v + 1 := by
    unfold beforeRank; rw [if_neg (by omega), if_pos rfl]
  have rw1 : beforeRank n rank v n.nNodes = 2 * rank v := by unfold beforeRank; rw [if_pos rfl]
  have ro : ∀ u, u < n.nNodes → u ≠ v → beforeRank n rank v u = 2 * rank u := by
    intro u h1 h2; unfold beforeRank; rw [if_neg (by omega), if_neg h2]
  have rge : ∀ u, u < n.nNodes → 2 * rank u ≤ beforeRank n rank v u ∧ beforeRank n rank v u ≤ 2 * rank u + 1 := by
    intro u h1
    by_cases h2 : u = v
    · rw [h2, rv]; omega
    · rw [ro u h1 h2]; omega
  refine ⟨?_, ?_, ?_, ?_, ?_, ?_, ?_, ?_, ?_⟩
  · show n.start < n.nNodes + 1
    omega
  · intro u a ha
    show a < n.nArcs + 1 ∧ _ ∧ _ ∧ u < n.nNodes + 1 ∧ _ < n.nNodes + 1 ∧ _
    rw [before_out] at ha
    rw [before_src, before_dst, before_inn d hw]
    by_cases h1 : u = n.nNodes
    · rw [if_pos h1] at ha
      have e := List.mem_singleton.1 ha
      subst e; subst h1
      simp only [if_true]
      rw [rv, rw1]
      exact ⟨by omega, trivial, by simp, by omega, by omega, by omega⟩
    · rw [if_neg h1] at ha
      obtain ⟨g1, g2, g3, g4, g5, g6⟩ := hw.out_ok _ _ ha
      have hne : a ≠ n.nArcs := by omega
      simp only [if_neg hne]
      by_cases hin : a ∈ n.inn v
      · have hd := (hw.inn_ok _ _ hin).1
        rw [if_pos hin, if_neg (by omega), if_pos rfl, rw1]
        have := (rge u g4).2
        rw [hd] at g6
        refine ⟨by omega, g2, hin, by omega, by omega, ?_⟩
        have hu : u ≠ v := by intro e; rw [e] at g6; omega
        rw [ro u g4 hu]; omega
      · have hd : n.dst a ≠ v := fun e => hin (by rw [← e]; exact g3)
        rw [if_neg hin, if_neg hd, if_neg (by omega)]
        have h2 := rge u g4
        rw [ro _ g5 hd]
        exact ⟨by omega, g2, g3, by omega, by omega, by omega⟩
  · intro u a ha
    rw [before_inn d hw] at ha
    rw [before_dst, before_src, before_out]
    by_cases h1 : u = v
    · rw [if_pos h1] at ha
      have e := List.mem_singleton.1 ha
      subst e
      simp [h1]
    · rw [if_neg h1] at ha
      by_cases h2 : u = n.nNodes
      · rw [if_pos h2] at ha
        obtain ⟨g1, g2⟩ := hw.inn_ok _ _ ha
        obtain ⟨k1, k2, k3, k4, k5, k6⟩ := hw.out_ok _ _ g2
        have hne : a ≠ n.nArcs := by omega
        simp only [if_neg hne, if_pos ha]
        rw [if_neg (by omega)]
        exact ⟨h2.symm, g2⟩
      · rw [if_neg h2] at ha
        obtain ⟨g1, g2⟩ := hw.inn_ok _ _ ha
        obtain ⟨k1, k2, k3, k4, k5, k6⟩ := hw.out_ok _ _ g2
        have hin : a ∉ n.inn v := by
          intro h; exact h1 (by rw [← g1, (hw.inn_ok _ _ h).1])
        have hne : a ≠ n.nArcs := by omega
        simp only [if_neg hne, if_neg hin]
        rw [if_neg (by omega)]
        exact ⟨g1, g2⟩
  · intro u
    rw [before_out]
    split
    · simp
    · exact hw.out_nodup _
  · intro u
    rw [before_inn d hw]
    split
    · simp
    · split
      · exact hw.inn_nodup _
      · exact hw.inn_nodup _
  · intro u h1 h2
    have h2' : u ≠ n.start := h2
    rw [before_out] at h1
    rw [before_inn d hw]
    by_cases h3 : u = v
    · rw [if_pos h3]; simp
    · rw [if_neg h3]
      by_cases h4 : u = n.nNodes
      · rw [if_pos h4]; exact hv
      · rw [if_neg h4] at h1 ⊢
        exact hw.source u h1 h2'
  · show (n.insertBefore v d).inn n.start = []
    rw [before_inn d hw, if_neg hvs.symm, if_neg (by omega)]
    exact hw.start_inn
  · intro s hs
    have hs : n.stop = some s := hs
    obtain ⟨g1, g2⟩ := hw.stop_ok s hs
    have := inn_node hw g2
    rw [before_out, before_inn d hw, if_neg (by omega)]
    refine ⟨g1, ?_⟩
    split
    · simp
    · rw [if_neg (by omega)]; exact g2
  · intro hs
    have := hw.no_stop hs
    show (n.insertBefore v d).out n.start = []
    rw [before_out, if_neg (by omega)]
    exact this

/-- The inserted arc follows every arc that led to the node. -/
def thenNew (n : Net W) (v : Nat) (a : Nat) : List Nat := if a ∈ n.inn v then [a, n.nArcs] else [a]

theorem before_walk (hw : n.WF rank) (hv : n.inn v ≠ []) : ∀ (k : Nat) (p : List Nat) (u z : Nat), p.length ≤ k →
    u ≠ n.nNodes → z ≠ n.nNodes →
    ((n.insertBefore v d).Walk u p z ↔ ∃ q, n.Walk u q z ∧ p = q.flatMap (thenNew n v)) := by
  obtain ⟨hvl, hvs⟩ := inn_node hw hv
  intro k p u z hk0 hu hz
  constructor
  · revert p u
    induction k with
    | zero =>
      intro p u hk hu h
      have : p = [] := List.length_eq_zero_iff.1 (by omega)
      subst this
      cases h
      exact ⟨[], .nil _, rfl⟩
    | succ k ih =>
      intro p u hk hu h
      cases h with
      | nil => exact ⟨[], .nil _, rfl⟩
      | cons _ a p _ ha h =>
        rw [before_out, if_neg hu] at ha
        obtain ⟨g1, g2, g3, g4, g5, g6⟩ := hw.out_ok _ _ ha
        rw [before_dst, if_neg (by omega)] at h
        simp only [List.length_cons] at hk
        by_cases hin : a ∈ n.inn v
        · rw [if_pos hin] at h
          cases h with
          | nil => exact absurd rfl hz
          | cons _ b p _ hb h =>
            rw [before_out, if_pos rfl] at hb
            have e := List.mem_singleton.1 hb
            subst e
            rw [before_dst, if_pos rfl] at h
            simp only [List.length_cons] at hk
            obtain ⟨q, hq, e⟩ := ih p v (by omega) (by omega) h
            refine ⟨a :: q, .cons _ _ _ _ ha (by rw [(hw.inn_ok _ _ hin).1]; exact hq), ?_⟩
            rw [List.flatMap_cons, e]
            unfold thenNew
            rw [if_pos hin]
            rfl
        · rw [if_neg hin] at h
          obtain ⟨q, hq, e⟩ := ih p (n.dst a) (by omega) (by omega) h
          refine ⟨a :: q, .cons _ _ _ _ ha hq, ?_⟩
          rw [List.flatMap_cons, e]
          unfold thenNew
          rw [if_neg hin]
          rfl
  · rintro ⟨q, hq, e⟩
    subst e
    clear hk0
    revert hu
    induction hq with
    | nil => intro _; exact .nil _
    | cons u a q z ha hq ih =>
      intro hu
      obtain ⟨g1, g2, g3, g4, g5, g6⟩ := hw.out_ok _ _ ha
      have := ih hz (by omega)
      rw [List.flatMap_cons]
      unfold thenNew
      by_cases hin : a ∈ n.inn v
      · rw [if_pos hin]
        rw [(hw.inn_ok _ _ hin).1] at this
        refine .cons _ _ _ _ (by rw [before_out, if_neg hu]; exact ha) ?_
        rw [before_dst, if_neg (by omega), if_pos hin]
        refine .cons _ _ _ _ (by rw [before_out, if_pos rfl]; simp) ?_
        rw [before_dst, if_pos rfl]
        exact this
      · rw [if_neg hin]
        refine .cons _ _ _ _ (by rw [before_out, if_neg hu]; exact ha) ?_
        rw [before_dst, if_neg (by omega), if_neg hin]
        exact this

end before

/-! ### appending a word -/

theorem tail_wf (d : Option W) (hw : n.WF rank) : ∃ rank', (n.addTail d).WF rank' := by
  unfold Net.addTail
  cases hs : n.stop with
  | none => exact ⟨_, head_wf d hw⟩
  | some s => exact ⟨_, before_wf d hw (hw.stop_ok s hs).2⟩

theorem tail_words (w : W) (hw : n.WF rank) (hd : n.Words) : (n.addTail (some w)).Words := by
  unfold Net.addTail
  cases hs : n.stop with
  | none =>
    intro v a ha
    have ha : a ∈ (n.addHead (some w)).out v := ha
    show ∃ x, (n.addHead (some w)).data a = some x
    rw [head_out _ hw] at ha
    rw [head_data]
    by_cases e : a = n.nArcs
    · rw [if_pos e]; exact ⟨w, rfl⟩
    · rw [if_neg e]
      split at ha
      · exact absurd (List.mem_singleton.1 ha) e
      · split at ha
        · exact hd _ _ ha
        · exact hd _ _ ha
  | some s =>
    intro v a ha
    have ha : a ∈ (n.insertBefore s (some w)).out v := ha
    show ∃ x, (n.insertBefore s (some w)).data a = some x
    rw [before_out] at ha
    rw [before_data]
    by_cases e : a = n.nArcs
    · rw [if_pos e]; exact ⟨w, rfl⟩
    · rw [if_neg e]
      split at ha
      · exact absurd (List.mem_singleton.1 ha) e
      · exact hd _ _ ha

/-- Only the last arc of a walk to the stop node leads to the stop node. -/
theorem walk_last (hw : n.WF rank) {s : Nat} (hs : n.out s = []) : ∀ (q : List Nat) (u : Nat), n.Walk u q s → u ≠ s →
    ∃ q' a, q = q' ++ [a] ∧ a ∈ n.inn s ∧ ∀ b ∈ q', b ∉ n.inn s := by
  intro q
  induction q with
  | nil => intro u h hu; cases h; exact absurd rfl hu
  | cons a q ih =>
    intro u h hu
    cases h with
    | cons _ _ _ _ ha h =>
      by_cases e : n.dst a = s
      · have hq : q = [] := by
          rw [e] at h
          cases h with
          | nil => rfl
          | cons _ b q _ hb _ => rw [hs] at hb; cases hb
        subst hq
        refine ⟨[], a, rfl, ?_, by intro b hb; cases hb⟩
        rw [← e]; exact hw.live_inn ⟨u, ha⟩
      · obtain ⟨q', b, e1, e2, e3⟩ := ih _ h e
        refine ⟨a :: q', b, by rw [e1]; rfl, e2, ?_⟩
        intro c hc
        rcases List.mem_cons.1 hc with ec | hc
        · rw [ec]; intro hm; exact e (hw.inn_ok _ _ hm).1
        · exact e3 c hc

theorem tail_produces (w : W) (hw : n.WF rank) (ws : List W) :
    (n.addTail (some w)).Produces ws ↔ ∃ vs, n.Produces vs ∧ ws = vs ++ [w] := by
  unfold Net.addTail
  cases hs : n.stop with
  | none =>
    show (n.addHead (some w)).Produces ws ↔ _
    have hsw : n.start ≠ n.nNodes := Nat.ne_of_lt hw.start_lt
    unfold Net.Produces
    rw [head_stop, hs]
    show (∃ p, (n.addHead (some w)).Walk n.start p n.nNodes ∧ _) ↔ _
    simp only
    have hempty := hw.no_stop hs
    constructor
    · rintro ⟨p, hp, hd⟩
      refine ⟨[], rfl, ?_⟩
      generalize hz : n.nNodes = z at hp
      cases hp with
      | nil => exact absurd hz.symm hsw
      | cons _ a p _ ha hp =>
        rw [head_out _ hw, if_pos rfl] at ha
        have e := List.mem_singleton.1 ha
        subst e
        rw [head_dst, if_pos rfl] at hp
        subst hz
        cases hp with
        | nil =>
          rw [List.map_cons, List.map_nil, head_data, if_pos rfl] at hd
          cases ws with
          | nil => simp at hd
          | cons x ws => simp at hd; rw [hd.1, hd.2]; rfl
        | cons _ b p _ hb _ =>
          rw [head_out _ hw, if_neg hsw.symm, if_pos rfl, hempty] at hb
          cases hb
    · rintro ⟨vs, e, e2⟩
      subst e
      subst e2
      refine ⟨[n.nArcs], .cons _ _ _ _ (by rw [head_out _ hw, if_pos rfl]; simp) ?_, ?_⟩
      · rw [head_dst, if_pos rfl]; exact .nil _
      · rw [List.map_cons, List.map_nil, head_data, if_pos rfl]; rfl
  | some s =>
    show (n.insertBefore s (some w)).Produces ws ↔ _
    obtain ⟨g1, g2⟩ := hw.stop_ok s hs
    obtain ⟨k1, k2⟩ := inn_node hw g2
    have hsl := hw.start_lt
    unfold Net.Produces
    have est : (n.insertBefore s (some w)).stop = some s := hs
    rw [est, hs]
    simp only
    have hdata : ∀ (q : List Nat) (u : Nat), n.Walk u q s → q.map (n.insertBefore s (some w)).data = q.map n.data := by
      intro q
      induction q with
      | nil => intro u _; rfl
      | cons a q ih =>
        intro u h
        cases h with
        | cons _ _ _ _ ha h =>
          have := (hw.out_ok _ _ ha).1
          rw [List.map_cons, ih _ h, before_data, if_neg (by omega), List.map_cons]
    have hflat : ∀ q' : List Nat, (∀ b ∈ q', b ∉ n.inn s) → q'.flatMap (thenNew n s) = q' := by
      intro q'
      induction q' with
      | nil => intro _; rfl
      | cons a q' ih =>
        intro h
        rw [List.flatMap_cons, ih (fun b hb => h b (by simp [hb]))]
        unfold thenNew
        rw [if_neg (h a (by simp))]
        rfl
    have hexp : ∀ q, n.Walk n.start q s → q.flatMap (thenNew n s) = q ++ [n.nArcs] := by
      intro q hq
      obtain ⟨q', a, e1, e2, e3⟩ := walk_last hw g1 q _ hq k2.symm
      rw [e1, List.flatMap_append, hflat q' e3]
      simp [thenNew, e2]
    have hnew : (n.insertBefore s (some w)).data n.nArcs = some w := by rw [before_data, if_pos rfl]
    constructor
    · rintro ⟨p, hp, hd⟩
      obtain ⟨q, hq, e⟩ := (before_walk (some w) hw g2 _ p n.start s (Nat.le_refl _) (by omega) (by omega)).1 hp
      rw [hexp q hq] at e
      rw [e, List.map_append, hdata q _ hq, List.map_cons, List.map_nil, hnew] at hd
      rcases List.eq_nil_or_concat ws with e3 | ⟨vs, x, e3⟩
      · subst e3; simp at hd
      · rw [List.concat_eq_append] at e3
        subst e3
        rw [List.map_append] at hd
        obtain ⟨h1, h2⟩ := List.append_inj' hd rfl
        refine ⟨vs, ⟨q, hq, h1⟩, ?_⟩
        simp at h2
        rw [h2]
    · rintro ⟨vs, ⟨q, hq, hd⟩, e⟩
      refine ⟨q ++ [n.nArcs], ?_, ?_⟩
      · exact (before_walk (some w) hw g2 _ _ n.start s (Nat.le_refl _) (by omega) (by omega)).2
          ⟨q, hq, (hexp q hq).symm⟩
      · rw [List.map_append, hdata q _ hq, hd, e]
        simp [hnew]

/-! ### plain word sequences -/

/-- The network sclite builds from a plain word sequence: words appended one after the other
(src/sclite/net_adt.c:660-795 with no alternations). -/
def linear (ws : List W) : Net W := ws.foldl (fun n w => n.addTail (some w)) (Net.init W)

theorem linear_snoc (ws : List W) (w : W) : linear (ws ++ [w]) = (linear ws).addTail (some w) := by
  simp [linear]

theorem linear_ok (ws : List W) : (∃ rank, (linear ws).WF rank) ∧ (linear ws).Words ∧
    (∀ vs, (linear ws).Produces vs ↔ vs = ws) ∧ (linear ws).nArcs = ws.length := by
  have key : ∀ (k : Nat) (ws : List W), ws.length = k → (∃ rank, (linear ws).WF rank) ∧ (linear ws).Words ∧
      (∀ vs, (linear ws).Produces vs ↔ vs = ws) ∧ (linear ws).nArcs = ws.length := by
    intro k
    induction k with
    | zero =>
      intro ws hk
      have : ws = [] := List.length_eq_zero_iff.1 hk
      subst this
      exact ⟨⟨_, init_wf⟩, (by intro v a h; cases h), fun vs => Iff.rfl, rfl⟩
    | succ k ih =>
      intro ws hk
      rcases List.eq_nil_or_concat ws with e | ⟨ws', w, e⟩
      · subst e; simp at hk
      · rw [List.concat_eq_append] at e
        subst e
        rw [List.length_append] at hk
        simp only [List.length_cons, List.length_nil] at hk
        obtain ⟨⟨rank, h1⟩, h2, h3, h4⟩ := ih ws' (by omega)
        rw [linear_snoc]
        refine ⟨tail_wf _ h1, tail_words w h1 h2, ?_, ?_⟩
        · intro vs
          rw [tail_produces w h1]
          constructor
          · rintro ⟨us, e1, e2⟩
            rw [(h3 us).1 e1] at e2
            exact e2
          · intro e; exact ⟨ws', (h3 ws').2 rfl, e⟩
        · unfold Net.addTail
          cases (linear ws').stop with
          | none => show (linear ws').nArcs + 1 = _; rw [h4]; simp
          | some s => show (linear ws').nArcs + 1 = _; rw [h4]; simp
  exact key _ ws rfl

end Verif.Net
