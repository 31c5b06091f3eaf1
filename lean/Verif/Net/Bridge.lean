import Verif.Net.Traverse
import Verif.Net.Fill
/-!
# From networks to numbered arcs and back
-/
set_option autoImplicit false
namespace Verif.Net
variable {W : Type} {n : Net W} {rank : Nat → Nat}

/-! ### the null word in front -/

theorem foldl_addArc : ∀ (l acc : List Nat), (acc ++ l).Nodup → l.foldl addArc acc = acc ++ l := by
  intro l
  induction l with
  | nil => intro acc _; simp
  | cons a l ih =>
    intro acc h
    have hn : a ∉ acc := by
      intro hm
      rw [List.nodup_append] at h
      exact h.2.2 a hm a (by simp) rfl
    have ha : addArc acc a = acc ++ [a] := by unfold addArc; rw [if_neg hn]
    rw [List.foldl_cons, ha]
    have := ih (acc ++ [a]) (by simpa using h)
    simpa using this

/-- Ranks after a head was added. -/
def headRank (n : Net W) (rank : Nat → Nat) : Nat → Nat :=
  fun v => if v = n.start then 0 else if v = n.nNodes then 1 else rank v + 2

section head
variable (d : Option W)

theorem head_out (hw : n.WF rank) (v : Nat) :
    (n.addHead d).out v = if v = n.start then [n.nArcs] else if v = n.nNodes then n.out n.start else n.out v := by
  have h := foldl_addArc (n.out n.start) [] (by simpa using hw.out_nodup _)
  show upd (upd n.out n.nNodes ((n.out n.start).foldl addArc [])) n.start (addArc [] n.nArcs) v = _
  rw [h]
  unfold upd
  by_cases h1 : v = n.start
  · simp [h1, addArc]
  · by_cases h2 : v = n.nNodes
    · rw [if_neg h1, if_pos h2, if_neg h1, if_pos h2]; simp
    · simp [h1, h2]

theorem head_inn (v : Nat) : (n.addHead d).inn v = if v = n.nNodes then [n.nArcs] else n.inn v := by
  show upd n.inn n.nNodes (addArc [] n.nArcs) v = _
  simp [upd, addArc]

theorem head_src (a : Nat) :
    (n.addHead d).src a = if a = n.nArcs then n.start else if a ∈ n.out n.start then n.nNodes else n.src a := rfl

theorem head_dst (a : Nat) : (n.addHead d).dst a = if a = n.nArcs then n.nNodes else n.dst a := rfl

theorem head_data (a : Nat) : (n.addHead d).data a = if a = n.nArcs then d else n.data a := rfl

theorem head_stop : (n.addHead d).stop = some (n.stop.getD n.nNodes) := by
  show (match n.stop with | none => some n.nNodes | some s => some s) = _
  cases n.stop <;> rfl

theorem dst_ne_start (hw : n.WF rank) {v a : Nat} (h : a ∈ n.out v) : n.dst a ≠ n.start := by
  intro e
  have := (hw.out_ok v a h).2.2.1
  rw [e, hw.start_inn] at this
  cases this

theorem head_wf (hw : n.WF rank) : (n.addHead d).WF (headRank n rank) := by
  have hsw : n.start ≠ n.nNodes := Nat.ne_of_lt hw.start_lt
  have rk : ∀ u, u ≠ n.start → u < n.nNodes → headRank n rank u = rank u + 2 := by
    intro u h1 h2; unfold headRank; rw [if_neg h1, if_neg (by omega)]
  have rw1 : headRank n rank n.nNodes = 1 := by
    unfold headRank; rw [if_neg hsw.symm, if_pos rfl]
  have rs : headRank n rank n.start = 0 := by unfold headRank; rw [if_pos rfl]
  refine ⟨?_, ?_, ?_, ?_, ?_, ?_, ?_, ?_, ?_⟩
  · show n.start < n.nNodes + 1
    have := hw.start_lt; omega
  · intro v a ha
    show a < n.nArcs + 1 ∧ _ ∧ _ ∧ v < n.nNodes + 1 ∧ _ < n.nNodes + 1 ∧ _
    rw [head_out d hw] at ha
    rw [head_src, head_dst, head_inn]
    by_cases h1 : v = n.start
    · rw [if_pos h1] at ha
      have e := List.mem_singleton.1 ha
      subst e; subst h1
      have := hw.start_lt
      simp only [if_true]
      rw [rs, rw1]
      exact ⟨by omega, trivial, by simp, by omega, by omega, by omega⟩
    · rw [if_neg h1] at ha
      by_cases h2 : v = n.nNodes
      · rw [if_pos h2] at ha
        obtain ⟨g1, g2, g3, g4, g5, g6⟩ := hw.out_ok _ _ ha
        have hne : a ≠ n.nArcs := by omega
        simp only [if_neg hne, if_pos ha]
        rw [if_neg (by omega), h2, rw1, rk _ (dst_ne_start hw ha) g5]
        exact ⟨by omega, rfl, g3, by omega, by omega, by omega⟩
      · rw [if_neg h2] at ha
        obtain ⟨g1, g2, g3, g4, g5, g6⟩ := hw.out_ok _ _ ha
        have hne : a ≠ n.nArcs := by omega
        have hns : a ∉ n.out n.start := by
          intro hm
          have := (hw.out_ok _ _ hm).2.1
          exact h1 (by rw [← g2, this])
        simp only [if_neg hne, if_neg hns]
        rw [if_neg (by omega), rk _ (dst_ne_start hw ha) g5, rk _ h1 g4]
        exact ⟨by omega, g2, g3, by omega, by omega, by omega⟩
  · intro v a ha
    rw [head_inn] at ha
    rw [head_dst, head_src, head_out d hw]
    by_cases h2 : v = n.nNodes
    · rw [if_pos h2] at ha
      have e := List.mem_singleton.1 ha
      subst e
      simp [h2]
    · rw [if_neg h2] at ha
      obtain ⟨g1, g2⟩ := hw.inn_ok _ _ ha
      obtain ⟨k1, k2, k3, k4, k5, k6⟩ := hw.out_ok _ _ g2
      have hne : a ≠ n.nArcs := by omega
      simp only [if_neg hne]
      refine ⟨g1, ?_⟩
      by_cases hs : a ∈ n.out n.start
      · rw [if_pos hs, if_neg hsw.symm, if_pos rfl]; exact hs
      · rw [if_neg hs]
        have : n.src a ≠ n.start := fun e => hs (by rw [← e]; exact g2)
        rw [if_neg this, if_neg (by omega)]; exact g2
  · intro v
    rw [head_out d hw]
    split
    · simp
    · split
      · exact hw.out_nodup _
      · exact hw.out_nodup _
  · intro v
    rw [head_inn]
    split
    · simp
    · exact hw.inn_nodup _
  · intro v h1 h2
    have h2' : v ≠ n.start := h2
    rw [head_out d hw, if_neg h2'] at h1
    rw [head_inn]
    by_cases h3 : v = n.nNodes
    · rw [if_pos h3]; simp
    · rw [if_neg h3] at h1 ⊢
      exact hw.source v h1 h2'
  · show (n.addHead d).inn n.start = []
    rw [head_inn, if_neg hsw]; exact hw.start_inn
  · intro s hs
    rw [head_stop] at hs
    injection hs with hs
    rw [head_out d hw, head_inn]
    cases hst : n.stop with
    | none =>
      rw [hst] at hs
      have hs : n.nNodes = s := hs
      subst hs
      rw [if_neg hsw.symm, if_pos rfl, if_pos rfl]
      exact ⟨hw.no_stop hst, by simp⟩
    | some s' =>
      rw [hst] at hs
      have hs : s' = s := hs
      subst hs
      obtain ⟨g1, g2⟩ := hw.stop_ok _ hst
      have k1 : s' ≠ n.start := by
        intro e; rw [e, hw.start_inn] at g2; exact g2 rfl
      have k2 : s' ≠ n.nNodes := by
        obtain ⟨a, ha⟩ := List.exists_mem_of_ne_nil _ g2
        obtain ⟨e1, e2⟩ := hw.inn_ok _ _ ha
        have := hw.dst_lt ⟨_, e2⟩
        omega
      rw [if_neg k1, if_neg k2, if_neg k2]
      exact ⟨g1, g2⟩
  · intro h
    rw [head_stop] at h
    cases h

/-- Walks from the new node are the walks from the old start. -/
theorem head_walk_in (hw : n.WF rank) {v s : Nat} {p : List Nat} (hv : v < n.nNodes) (hvs : v ≠ n.start) :
    (n.addHead d).Walk v p s ↔ n.Walk v p s := by
  induction p generalizing v with
  | nil =>
    constructor
    · intro h; cases h; exact .nil _
    · intro h; cases h; exact .nil _
  | cons a p ih =>
    have hout : (n.addHead d).out v = n.out v := by
      rw [head_out d hw, if_neg hvs, if_neg (by omega)]
    constructor
    · intro h
      cases h with
      | cons _ _ _ _ ha h =>
        rw [hout] at ha
        obtain ⟨g1, g2, g3, g4, g5, g6⟩ := hw.out_ok _ _ ha
        rw [head_dst, if_neg (by omega)] at h
        exact .cons _ _ _ _ ha ((ih g5 (dst_ne_start hw ha)).1 h)
    · intro h
      cases h with
      | cons _ _ _ _ ha h =>
        obtain ⟨g1, g2, g3, g4, g5, g6⟩ := hw.out_ok _ _ ha
        refine .cons _ _ _ _ (by rw [hout]; exact ha) ?_
        rw [head_dst, if_neg (by omega)]
        exact (ih g5 (dst_ne_start hw ha)).2 h

theorem head_walk (hw : n.WF rank) {s : Nat} {p : List Nat} (hp : p ≠ []) :
    (n.addHead d).Walk n.nNodes p s ↔ n.Walk n.start p s := by
  have hsw : n.nNodes ≠ n.start := Nat.ne_of_gt hw.start_lt
  have hout : (n.addHead d).out n.nNodes = n.out n.start := by
    rw [head_out d hw, if_neg hsw, if_pos rfl]
  cases p with
  | nil => exact absurd rfl hp
  | cons a p =>
    constructor
    · intro h
      cases h with
      | cons _ _ _ _ ha h =>
        rw [hout] at ha
        obtain ⟨g1, g2, g3, g4, g5, g6⟩ := hw.out_ok _ _ ha
        rw [head_dst, if_neg (by omega)] at h
        exact .cons _ _ _ _ ha ((head_walk_in d hw g5 (dst_ne_start hw ha)).1 h)
    · intro h
      cases h with
      | cons _ _ _ _ ha h =>
        obtain ⟨g1, g2, g3, g4, g5, g6⟩ := hw.out_ok _ _ ha
        refine .cons _ _ _ _ (by rw [hout]; exact ha) ?_
        rw [head_dst, if_neg (by omega)]
        exact (head_walk_in d hw g5 (dst_ne_start hw ha)).2 h

end head

theorem grow_uniform (fl : Flags) (d : Option W) (hu : fl.Uniform n) (hw : n.WF rank) :
    (fl.grow n).Uniform (n.addHead d) := by
  intro u hr
  show upd fl.flag2 n.nNodes (fl.flag2 n.start) u = upd fl.flag2 n.nNodes (fl.flag2 n.start) n.start
  have hs := hw.start_lt
  rw [upd_ne _ _ n.start _ (by omega)]
  by_cases e : u = n.nNodes
  · rw [e, upd_self]
  · rw [upd_ne _ _ _ _ e]
    apply hu u
    rw [hw.reach_iff]
    rcases ((head_wf d hw).reach_iff u).1 hr with h | h
    · exact Or.inl h
    · rw [head_inn, if_neg e] at h
      exact Or.inr h

/-! ### the numbering -/

/-- `l` lists the arcs of the network, each one once and after the arcs before it. -/
structure Numbering (n : Net W) (l : List Nat) : Prop where
  nodup : l.Nodup
  live : ∀ a, a ∈ l ↔ n.Live a
  order : ∀ a ∈ l, ∀ p ∈ n.inn (n.src a), l.idxOf p < l.idxOf a

theorem inorder_numbering (hw : n.WF rank) (fl : Flags) (hu : fl.Uniform n) :
    ∃ s, inorderTraverse n fl = some s ∧ Numbering n s.arcs := by
  obtain ⟨s, e1, e2, e3, e4, e5, e6, _⟩ := inorder_spec hw fl hu
  refine ⟨s, e1, e5, ?_, ?_⟩
  · intro a
    rw [e4]
    constructor
    · intro h
      obtain ⟨v, _, hv⟩ := List.mem_flatMap.1 h
      exact ⟨v, hv⟩
    · intro h
      have ho := hw.live_out h
      refine List.mem_flatMap.2 ⟨n.src a, ?_, ho⟩
      rw [e3, hw.reach_iff]
      by_cases hs : n.src a = n.start
      · exact Or.inl hs
      · exact Or.inr (hw.source _ (List.ne_nil_of_mem ho) hs)
  · intro a ha p hp
    rw [e4] at ha ⊢
    obtain ⟨v, hv, hav⟩ := List.mem_flatMap.1 ha
    have hsrc := (hw.out_ok v a hav).2.1
    rw [hsrc] at hp
    obtain ⟨A, B, hAB⟩ := List.append_of_mem hv
    have hpA := e6 A v B hAB p hp
    have hpo := (hw.inn_ok _ _ hp).2
    rw [hAB, List.flatMap_append]
    have hpm : p ∈ A.flatMap n.out := List.mem_flatMap.2 ⟨_, hpA, hpo⟩
    have ham : a ∉ A.flatMap n.out := by
      intro hm
      obtain ⟨u, hu', hau⟩ := List.mem_flatMap.1 hm
      have := (hw.out_ok u a hau).2.1
      rw [hsrc] at this
      subst this
      rw [hAB, List.nodup_append] at e2
      exact e2.2.2 v hu' v (by simp) rfl
    rw [List.idxOf_append, if_pos hpm, List.idxOf_append, if_neg ham]
    have := List.idxOf_lt_length_of_mem hpm
    omega

theorem numbering_len {l : List Nat} (hw : n.WF rank) (h : Numbering n l) : l.length ≤ n.nArcs := by
  apply nodup_bound h.nodup
  intro a ha
  obtain ⟨v, hv⟩ := (h.live a).1 ha
  exact (hw.out_ok v a hv).1

theorem idxOf_at {l : List Nat} (h : l.Nodup) {i : Nat} {a : Nat} (hi : l[i]? = some a) : l.idxOf a = i := by
  induction l generalizing i with
  | nil => simp at hi
  | cons x l ih =>
    cases i with
    | zero => simp at hi; subst hi; simp
    | succ i =>
      simp only [List.getElem?_cons_succ] at hi
      have hne : x ≠ a := by
        intro e
        exact (List.nodup_cons.1 h).1 (e ▸ List.mem_of_getElem? hi)
      rw [List.idxOf_cons]
      have hb : (x == a) = false := by simpa using hne
      rw [hb, ih (List.nodup_cons.1 h).2 hi]
      rfl

theorem at_idxOf {l : List Nat} {a : Nat} (h : a ∈ l) : l[l.idxOf a]? = some a := by
  rw [List.getElem?_eq_getElem (List.idxOf_lt_length_of_mem h), List.getElem_idxOf]

theorem findDown_ok {l : List Nat} (hn : l.Nodup) {arc : Nat} (hm : arc ∈ l) :
    ∀ a, l.idxOf arc ≤ a → findDown l arc a = some (l.idxOf arc) := by
  intro a
  induction a with
  | zero =>
    intro h
    have e : l.idxOf arc = 0 := by omega
    unfold findDown
    have := at_idxOf hm
    rw [e] at this
    rw [if_pos this, e]
  | succ a ih =>
    intro h
    unfold findDown
    by_cases c : l[a + 1]? = some arc
    · rw [if_pos c, idxOf_at hn c]
    · rw [if_neg c]
      apply ih
      have : l.idxOf arc ≠ a + 1 := by
        intro e
        have := at_idxOf hm
        rw [e] at this
        exact c this
      omega

theorem findId_ok {l : List Nat} (hn : l.Nodup) {arc : Nat} (hm : arc ∈ l) (a : Nat) (h : l.idxOf arc ≤ a)
    (ha : a ≤ l.length) : findId l arc a = some (l.idxOf arc) := by
  unfold findId
  have hlt := List.idxOf_lt_length_of_mem hm
  by_cases c : a = l.length
  · rw [if_pos c]
    cases a with
    | zero => omega
    | succ a => exact findDown_ok hn hm a (by omega)
  · rw [if_neg c]; exact findDown_ok hn hm a h

theorem mapM_some_map {α β : Type} (f : α → Option β) (g : α → β) (l : List α) (h : ∀ a ∈ l, f a = some (g a)) :
    l.mapM f = some (l.map g) := by
  induction l with
  | nil => rfl
  | cons a l ih =>
    rw [List.mapM_cons, h a (by simp), ih (fun b hb => h b (by simp [hb]))]
    rfl

theorem predIds_ok {l : List Nat} (hw : n.WF rank) (h : Numbering n l) {a arc : Nat} (ha : l[a]? = some arc) :
    predIds n l a = some ((n.inn (n.src arc)).map l.idxOf) := by
  unfold predIds
  rw [ha]
  apply mapM_some_map
  intro p hp
  have hm := List.mem_of_getElem? ha
  have hlt := h.order arc hm p hp
  rw [idxOf_at h.nodup ha] at hlt
  have hal : a < l.length := by
    rw [List.getElem?_eq_some_iff] at ha
    exact ha.1
  exact findId_ok h.nodup ((h.live p).2 (hw.inn_live hp)) a (by omega) (by omega)

/-- Arc with the given number. -/
def arcAt (l : List Nat) (i : Nat) : Nat := (l[i]?).getD 0

theorem arcAt_some {l : List Nat} {i : Nat} (h : i < l.length) : l[i]? = some (arcAt l i) := by
  unfold arcAt; rw [List.getElem?_eq_getElem h]; rfl

theorem preds_eq {l : List Nat} (hw : n.WF rank) (h : Numbering n l) {a : Nat} (ha : a < l.length) :
    (viewOf n l).preds a = (n.inn (n.src (arcAt l a))).map l.idxOf := by
  show (predIds n l a).getD [] = _
  rw [predIds_ok hw h (arcAt_some ha)]; rfl

theorem preds_lt {l : List Nat} (hw : n.WF rank) (h : Numbering n l) (a p : Nat)
    (hp : p ∈ (viewOf n l).preds a) : p < a := by
  by_cases ha : a < l.length
  · rw [preds_eq hw h ha] at hp
    obtain ⟨q, hq, e⟩ := List.mem_map.1 hp
    have := h.order _ (List.mem_of_getElem? (arcAt_some ha)) q hq
    rw [idxOf_at h.nodup (arcAt_some ha)] at this
    omega
  · have : predIds n l a = none := by
      unfold predIds
      rw [List.getElem?_eq_none (by omega)]
    have e : (viewOf n l).preds a = [] := by
      show (predIds n l a).getD [] = []
      rw [this]; rfl
    rw [e] at hp
    cases hp

section one
variable {h : Nat} {l : List Nat}

/-- The single first arc has number 0. -/
theorem first_zero (hw : n.WF rank) (hn : Numbering n l) (hh : n.out n.start = [h]) : l[0]? = some h := by
  have hm : h ∈ l := (hn.live h).2 ⟨n.start, by rw [hh]; simp⟩
  have hpos : 0 < l.length := List.length_pos_of_mem hm
  have e := arcAt_some hpos
  rw [e]
  have hy := List.mem_of_getElem? e
  have hlive := (hn.live _).1 hy
  have hout := hw.live_out hlive
  by_cases hs : n.src (arcAt l 0) = n.start
  · rw [hs, hh] at hout
    rw [List.mem_singleton.1 hout]
  · have := hw.source _ (List.ne_nil_of_mem hout) hs
    obtain ⟨p, hp⟩ := List.exists_mem_of_ne_nil _ this
    have := hn.order _ hy p hp
    rw [idxOf_at hn.nodup e] at this
    omega

theorem view_ok (hw : n.WF rank) (hn : Numbering n l) (hh : n.out n.start = [h]) : (viewOf n l).OK := by
  have h0 := first_zero hw hn hh
  refine ⟨?_, preds_lt hw hn, ?_⟩
  · show 0 < l.length
    rw [List.getElem?_eq_some_iff] at h0
    exact h0.1
  · intro a ha hal
    have hal : a < l.length := hal
    rw [preds_eq hw hn hal]
    have e := arcAt_some hal
    have hout := hw.live_out ((hn.live _).1 (List.mem_of_getElem? e))
    have hs : n.src (arcAt l a) ≠ n.start := by
      intro hs
      rw [hs, hh] at hout
      have h1 := List.mem_singleton.1 hout
      rw [h1] at e
      have := idxOf_at hn.nodup e
      rw [idxOf_at hn.nodup h0] at this
      omega
    have := hw.source _ (List.ne_nil_of_mem hout) hs
    simpa using this

theorem walk_snoc {v s x : Nat} {p : List Nat} :
    n.Walk v (p ++ [x]) s ↔ ∃ u, n.Walk v p u ∧ x ∈ n.out u ∧ n.dst x = s := by
  induction p generalizing v with
  | nil =>
    constructor
    · intro hx
      cases hx with
      | cons _ _ _ _ ha hb =>
        cases hb
        exact ⟨v, .nil _, ha, rfl⟩
    · rintro ⟨u, h1, h2, h3⟩
      cases h1
      subst h3
      exact .cons _ _ _ _ h2 (.nil _)
  | cons a p ih =>
    constructor
    · intro hx
      cases hx with
      | cons _ _ _ _ ha hb =>
        obtain ⟨u, h1, h2⟩ := ih.1 hb
        exact ⟨u, .cons _ _ _ _ ha h1, h2⟩
    · rintro ⟨u, h1, h2, h3⟩
      cases h1 with
      | cons _ _ _ _ ha hb => exact .cons _ _ _ _ ha (ih.2 ⟨u, hb, h2, h3⟩)

/-- Chains of arc numbers are walks. -/
theorem chain_walk (hw : n.WF rank) (hn : Numbering n l) (hh : n.out n.start = [h]) {a : Nat} {ids : List Nat}
    (hc : (viewOf n l).Chain a ids) : a < l.length ∧ n.Walk (n.dst h) (ids.map (arcAt l)) (n.dst (arcAt l a)) := by
  have h0 := first_zero hw hn hh
  induction hc with
  | nil =>
    have hl : 0 < l.length := (view_ok hw hn hh).pos
    refine ⟨hl, ?_⟩
    have : arcAt l 0 = h := by unfold arcAt; rw [h0]; rfl
    rw [this]
    exact .nil _
  | snoc p a ids hp ha _ ih =>
    have ha : a < l.length := ha
    refine ⟨ha, ?_⟩
    rw [List.map_append]
    refine walk_snoc.2 ⟨_, ih.2, ?_, rfl⟩
    rw [preds_eq hw hn ha] at hp
    obtain ⟨q, hq, e⟩ := List.mem_map.1 hp
    have hqe : arcAt l p = q := by
      have := at_idxOf ((hn.live q).2 (hw.inn_live hq))
      rw [e] at this
      unfold arcAt; rw [this]; rfl
    rw [hqe, (hw.inn_ok _ _ hq).1]
    exact hw.live_out ((hn.live _).1 (List.mem_of_getElem? (arcAt_some ha)))

/-- Walks are chains of arc numbers. -/
theorem walk_chain (hw : n.WF rank) (hn : Numbering n l) (hh : n.out n.start = [h]) :
    ∀ (k : Nat) (p : List Nat) (s : Nat), p.length = k → n.Walk (n.dst h) p s →
      ∃ y, y ∈ n.inn s ∧ (p = [] → y = h) ∧ (viewOf n l).Chain (l.idxOf y) (p.map l.idxOf) := by
  have h0 := first_zero hw hn hh
  have hhl : h ∈ n.out n.start := by rw [hh]; simp
  intro k
  induction k with
  | zero =>
    intro p s hk hwk
    have : p = [] := List.length_eq_zero_iff.1 hk
    subst this
    cases hwk
    refine ⟨h, hw.live_inn ⟨_, hhl⟩, fun _ => rfl, ?_⟩
    rw [idxOf_at hn.nodup h0]
    exact .nil
  | succ k ih =>
    intro p s hk hwk
    rcases List.eq_nil_or_concat p with e | ⟨p', x, e⟩
    · subst e; simp at hk
    · rw [List.concat_eq_append] at e
      subst e
      rw [List.length_append] at hk
      simp only [List.length_cons, List.length_nil] at hk
      obtain ⟨u, g1, g2, g3⟩ := walk_snoc.1 hwk
      obtain ⟨y, hy, _, hc⟩ := ih p' u (by omega) g1
      have hxl : x ∈ l := (hn.live x).2 ⟨u, g2⟩
      have hxi : l.idxOf x < l.length := List.idxOf_lt_length_of_mem hxl
      have hax : arcAt l (l.idxOf x) = x := by unfold arcAt; rw [at_idxOf hxl]; rfl
      refine ⟨x, by rw [← g3]; exact hw.live_inn ⟨u, g2⟩, fun e => by simp at e, ?_⟩
      rw [List.map_append]
      refine .snoc (l.idxOf y) (l.idxOf x) _ ?_ hxi hc
      rw [preds_eq hw hn hxi, hax, (hw.out_ok _ _ g2).2.1]
      exact List.mem_map.2 ⟨y, hy, rfl⟩

end one

/-! ### which words a chain to an end spells -/

/-- Words on the arcs with the given numbers. -/
def Spells (v : View W) (ids : List Nat) (ws : List W) : Prop := ids.map v.word = ws.map some

theorem ids_pos {v : View W} (hv : v.OK) {a : Nat} {ids : List Nat} (h : v.Chain a ids) :
    ∀ i ∈ ids, 0 < i ∧ i < v.len := by
  induction h with
  | nil => intro i hi; cases hi
  | snoc p a l hp ha _ ih =>
    intro i hi
    rcases List.mem_append.1 hi with hi | hi
    · exact ih i hi
    · rw [List.mem_singleton.1 hi]
      have := hv.lt _ _ hp
      exact ⟨by omega, ha⟩

theorem head_out_start (d : Option W) (hw : n.WF rank) : (n.addHead d).out (n.addHead d).start = [n.nArcs] := by
  show (n.addHead d).out n.start = _
  rw [head_out d hw, if_pos rfl]

/-- Numbers of the last arcs. -/
def endIds (n : Net W) (l : List Nat) : List Nat :=
  match n.stop with
  | none => []
  | some s => (n.inn s).map l.idxOf

theorem words_of_chain {l : List Nat} (hw : n.WF rank) (hwd : n.Words) (hn : Numbering (n.addHead none) l)
    {a : Nat} {ids : List Nat} (hc : (viewOf (n.addHead none) l).Chain a ids) :
    ∃ ws, Spells (viewOf (n.addHead none) l) ids ws := by
  have hw' := head_wf none hw
  have hp := ids_pos (view_ok hw' hn (head_out_start none hw)) hc
  have h0 := first_zero hw' hn (head_out_start none hw)
  unfold Spells
  clear hc
  induction ids with
  | nil => exact ⟨[], rfl⟩
  | cons i ids ih =>
    obtain ⟨ws, hws⟩ := ih (fun j hj => hp j (by simp [hj]))
    obtain ⟨hi, hil⟩ := hp i (by simp)
    have hil : i < l.length := hil
    have e := arcAt_some hil
    obtain ⟨v, hv⟩ := (hn.live _).1 (List.mem_of_getElem? e)
    have hne : arcAt l i ≠ n.nArcs := by
      intro e2
      rw [e2] at e
      have := idxOf_at hn.nodup e
      rw [idxOf_at hn.nodup h0] at this
      omega
    have hold : ∃ u, arcAt l i ∈ n.out u := by
      rw [head_out none hw] at hv
      split at hv
      · exact absurd (List.mem_singleton.1 hv) hne
      · split at hv
        · exact ⟨_, hv⟩
        · exact ⟨_, hv⟩
    obtain ⟨u, hu⟩ := hold
    obtain ⟨w, hw2⟩ := hwd u _ hu
    refine ⟨w :: ws, ?_⟩
    rw [List.map_cons, hws, List.map_cons]
    have : (viewOf (n.addHead none) l).word i = some w := by
      show (l[i]?).bind (n.addHead none).data = _
      rw [e]
      show (n.addHead none).data (arcAt l i) = _
      rw [head_data, if_neg hne]; exact hw2
    rw [this]

theorem spells_data {l : List Nat} (hw : n.WF rank) (hn : Numbering (n.addHead none) l) {ids : List Nat}
    (hp : ∀ i ∈ ids, 0 < i ∧ i < l.length) :
    ids.map (viewOf (n.addHead none) l).word = (ids.map (arcAt l)).map n.data := by
  have hw' := head_wf none hw
  have h0 := first_zero hw' hn (head_out_start none hw)
  rw [List.map_map]
  apply List.map_congr_left
  intro i hi
  obtain ⟨hi, hil⟩ := hp i hi
  have e := arcAt_some hil
  have hne : arcAt l i ≠ n.nArcs := by
    intro e2
    rw [e2] at e
    have := idxOf_at hn.nodup e
    rw [idxOf_at hn.nodup h0] at this
    omega
  show (l[i]?).bind (n.addHead none).data = n.data (arcAt l i)
  rw [e]
  show (n.addHead none).data (arcAt l i) = _
  rw [head_data, if_neg hne]

theorem produces_iff {l : List Nat} (hw : n.WF rank) (hn : Numbering (n.addHead none) l) (ws : List W) :
    n.Produces ws ↔ ∃ a ∈ endIds (n.addHead none) l, ∃ ids, (viewOf (n.addHead none) l).Chain a ids ∧
      Spells (viewOf (n.addHead none) l) ids ws := by
  have hw' := head_wf none hw
  have hh := head_out_start none hw
  have h0 := first_zero hw' hn hh
  have hd : (n.addHead none).dst n.nArcs = n.nNodes := by rw [head_dst, if_pos rfl]
  unfold Net.Produces
  cases hst : n.stop with
  | none =>
    have hends : endIds (n.addHead none) l = [0] := by
      unfold endIds
      rw [head_stop, hst]
      show ((n.addHead none).inn n.nNodes).map l.idxOf = [0]
      rw [head_inn, if_pos rfl]
      show [l.idxOf n.nArcs] = [0]
      rw [idxOf_at hn.nodup h0]
    rw [hends]
    constructor
    · intro e
      subst e
      exact ⟨0, by simp, [], .nil, rfl⟩
    · rintro ⟨a, ha, ids, hc, hs⟩
      have ha := List.mem_singleton.1 ha
      subst ha
      rcases List.eq_nil_or_concat ids with e | ⟨ids', x, e⟩
      · subst e
        cases ws with
        | nil => rfl
        | cons w ws => simp [Spells] at hs
      · rw [List.concat_eq_append] at e
        subst e
        obtain ⟨_, _, p, hp, _⟩ := chain_snoc hc
        have := (view_ok hw' hn hh).lt _ _ hp
        omega
  | some s =>
    have hs2 := hw.stop_ok s hst
    have k1 : s ≠ n.start := by
      intro e; rw [e, hw.start_inn] at hs2; exact hs2.2 rfl
    have k2 : s ≠ n.nNodes := by
      obtain ⟨a, ha⟩ := List.exists_mem_of_ne_nil _ hs2.2
      obtain ⟨e1, e2⟩ := hw.inn_ok _ _ ha
      have := hw.dst_lt ⟨_, e2⟩
      omega
    have hends : endIds (n.addHead none) l = ((n.addHead none).inn s).map l.idxOf := by
      unfold endIds
      rw [head_stop, hst]
      rfl
    rw [hends]
    simp only
    constructor
    · rintro ⟨p, hp, hws⟩
      have hpne : p ≠ [] := by
        intro e; subst e; cases hp; exact k1 rfl
      have hp' := (head_walk none hw hpne).2 hp
      rw [← hd] at hp'
      obtain ⟨y, hy, _, hc⟩ := walk_chain hw' hn hh _ p s rfl hp'
      refine ⟨l.idxOf y, List.mem_map.2 ⟨y, hy, rfl⟩, p.map l.idxOf, hc, ?_⟩
      unfold Spells
      rw [spells_data hw hn (ids_pos (view_ok hw' hn hh) hc), ← hws]
      -- the arcs of the walk are listed
      have hin : ∀ (p : List Nat) (v s : Nat), (n.addHead none).Walk v p s → ∀ x ∈ p, x ∈ l := by
        intro p
        induction p with
        | nil => intro v s _ x hx; cases hx
        | cons y p ih =>
          intro v s hwk x hx
          cases hwk with
          | cons _ _ _ _ h1 h2 =>
            rcases List.mem_cons.1 hx with e | hx
            · rw [e]; exact (hn.live y).2 ⟨_, h1⟩
            · exact ih _ _ h2 x hx
      have : (p.map l.idxOf).map (arcAt l) = p.map id := by
        rw [List.map_map]
        apply List.map_congr_left
        intro x hx
        show arcAt l (l.idxOf x) = x
        unfold arcAt
        rw [at_idxOf (hin p _ _ hp' x hx)]; rfl
      rw [this, List.map_id]
    · rintro ⟨a, ha, ids, hc, hs⟩
      obtain ⟨y, hy, e⟩ := List.mem_map.1 ha
      obtain ⟨hal, hwk⟩ := chain_walk hw' hn hh hc
      have hay : arcAt l a = y := by
        have := at_idxOf ((hn.live y).2 (hw'.inn_live hy))
        rw [e] at this
        unfold arcAt; rw [this]; rfl
      rw [hay, (hw'.inn_ok _ _ hy).1, hd] at hwk
      have hpne : ids.map (arcAt l) ≠ [] := by
        intro e2
        rw [e2] at hwk
        cases hwk
        exact k2 rfl
      refine ⟨ids.map (arcAt l), (head_walk none hw hpne).1 hwk, ?_⟩
      rw [← spells_data hw hn (ids_pos (view_ok hw' hn hh) hc)]
      exact hs

end Verif.Net
