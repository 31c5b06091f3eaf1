import Verif.Rover.Lin
/-!
# Editing chain networks
-/
set_option autoImplicit false
namespace Verif.Rover
open Verif.Net
variable {W : Type}

theorem addArc_new {l : List Nat} {x : Nat} (h : x ∉ l) : addArc l x = l ++ [x] := if_neg h

theorem Lin.arcs_lt {n : Net W} {ps : List (Nat × List Nat)} (h : Lin n ps) : ∀ p ∈ ps, ∀ a ∈ p.2, a < n.nArcs := by
  intro p hp a ha
  obtain ⟨pre, post, e⟩ := List.append_of_mem hp
  have e : ps = pre ++ (p.1, p.2) :: post := e
  subst e
  exact (h.at.2.2.2.2 a ha).2.2

/-- A parallel arc. -/
theorem Lin.between {n : Net W} {pre post : List (Nat × List Nat)} {v : Nat} {A : List Nat} (d : Option W)
    (h : Lin n (pre ++ (v, A) :: post)) :
    Lin (n.insertBetween (last n.start pre) v d) (pre ++ (v, A ++ [n.nArcs]) :: post) := by
  obtain ⟨h1, h2, h3, h4, h5⟩ := h.at
  obtain ⟨p1, p2, p3, p4, p5⟩ := h.apart
  have hx : n.nArcs ∉ A := fun hm => Nat.lt_irrefl _ (h5 _ hm).2.2
  have hlt := h.arcs_lt
  have hst : (n.insertBetween (last n.start pre) v d).start = n.start := rfl
  have hout : ∀ w, (n.insertBetween (last n.start pre) v d).out w = if w = last n.start pre then A ++ [n.nArcs] else n.out w := by
    intro w
    show upd _ _ _ w = _
    rw [h1, addArc_new hx]; rfl
  have hinn : ∀ w, (n.insertBetween (last n.start pre) v d).inn w = if w = v then A ++ [n.nArcs] else n.inn w := by
    intro w
    show upd _ _ _ w = _
    rw [h2, addArc_new hx]; rfl
  have hsrc : ∀ a, (n.insertBetween (last n.start pre) v d).src a = if a = n.nArcs then last n.start pre else n.src a :=
    fun _ => rfl
  have hdst : ∀ a, (n.insertBetween (last n.start pre) v d).dst a = if a = n.nArcs then v else n.dst a := fun _ => rfl
  have hnl : last n.start pre ≠ v := fun e => p1 (e ▸ last_mem n.start pre)
  have hnodes : nodes n.start (pre ++ (v, A ++ [n.nArcs]) :: post) = nodes n.start (pre ++ (v, A) :: post) := by
    rw [nodes_append, nodes_append]; rfl
  have hlast : last n.start (pre ++ (v, A ++ [n.nArcs]) :: post) = last n.start (pre ++ (v, A) :: post) := by
    rw [last_append, last_append]; rfl
  have hseg := (seg_append n n.start pre _).1 h.seg
  have harc : ∀ p ∈ pre ++ (v, A) :: post, ∀ a ∈ p.2,
      (n.insertBetween (last n.start pre) v d).src a = n.src a ∧ (n.insertBetween (last n.start pre) v d).dst a = n.dst a := by
    intro p hp a ha
    have := hlt p hp a ha
    rw [hsrc, hdst, if_neg (by omega), if_neg (by omega)]; exact ⟨rfl, rfl⟩
  have hlastv : last v post ∈ v :: post.map Prod.fst := last_mem v post
  have hout' : ∀ w, w ∈ v :: post.map Prod.fst → w ≠ last n.start pre := by
    intro w hw e
    subst e
    rcases List.mem_cons.1 hw with e | hw
    · exact hnl e
    · exact p2 _ (last_mem _ _) hw
  refine ⟨by simp, ?_, ?_, ?_, ?_, ?_, ?_, ?_⟩
  · rw [hst, seg_append]
    refine ⟨?_, ?_⟩
    · apply seg_congr pre n.start (by show n.nArcs ≤ n.nArcs + 1; omega) ?_ ?_ ?_ p4 hseg.1
      · intro w _ hne; rw [hout, if_neg hne]
      · intro w hw
        rw [hinn, if_neg]
        intro e; subst e; exact p1 (by unfold nodes; exact List.mem_cons_of_mem _ hw)
      · intro p hp; exact harc p (List.mem_append_left _ hp)
    · refine ⟨⟨by rw [hout, if_pos rfl], by rw [hinn, if_pos rfl], by simp, ?_, ?_⟩, ?_⟩
      · rw [List.nodup_append]
        exact ⟨h4, by simp, by intro a ha b hb; simp at hb; subst hb; intro e; subst e; exact hx ha⟩
      · intro a ha
        rcases List.mem_append.1 ha with ha | ha
        · obtain ⟨g1, g2, g3⟩ := h5 a ha
          rw [hsrc, hdst, if_neg (by omega), if_neg (by omega)]
          exact ⟨g1, g2, by show a < n.nArcs + 1; omega⟩
        · have : a = n.nArcs := by simpa using ha
          subst this
          rw [hsrc, hdst, if_pos rfl, if_pos rfl]
          exact ⟨rfl, rfl, Nat.lt_succ_self _⟩
      · apply seg_congr post v (by show n.nArcs ≤ n.nArcs + 1; omega) ?_ ?_ ?_ ?_ hseg.2.2
        · intro w hw _; rw [hout, if_neg (hout' w hw)]
        · intro w hw
          rw [hinn, if_neg]
          intro e; subst e; exact p3 hw
        · intro p hp; exact harc p (by simp [hp])
        · exact List.nodup_cons.2 ⟨p3, p5⟩
  · rw [hst, hnodes]; exact h.nodup
  · rw [hst, hnodes]; exact h.lt
  · rw [hst, hlast, hout, if_neg]
    · exact h.fin
    · rw [last_append]
      exact hout' _ hlastv
  · rw [hst, hinn, if_neg]
    · exact h.start_inn
    · intro e; exact p1 (by rw [← e]; simp [nodes])
  · rw [hst, hlast]; exact h.stop
  · intro w hw
    rw [hst, hnodes] at hw
    rw [hout, hinn, if_neg, if_neg]
    · exact h.other w hw
    · intro e; exact hw (by rw [e, nodes_append]; simp)
    · intro e; exact hw (by rw [e, nodes_append]; exact List.mem_append_left _ (last_mem _ _))

/-- A new bundle before a node. -/
theorem Lin.before {n : Net W} {pre post : List (Nat × List Nat)} {v : Nat} {A : List Nat} (d : Option W)
    (h : Lin n (pre ++ (v, A) :: post)) :
    Lin (n.insertBefore v d) (pre ++ (n.nNodes, A) :: (v, [n.nArcs]) :: post) := by
  obtain ⟨h1, h2, h3, h4, h5⟩ := h.at
  obtain ⟨p1, p2, p3, p4, p5⟩ := h.apart
  have hlt := h.arcs_lt
  have hwf := h.wf
  have hst : (n.insertBefore v d).start = n.start := rfl
  have hout : ∀ w, (n.insertBefore v d).out w = if w = n.nNodes then [n.nArcs] else n.out w := before_out d
  have hinn : ∀ w, (n.insertBefore v d).inn w = if w = v then [n.nArcs] else if w = n.nNodes then A else n.inn w := by
    intro w
    rw [before_inn d hwf, h2]
  have hsrc : ∀ a, (n.insertBefore v d).src a = if a = n.nArcs then n.nNodes else n.src a := before_src d
  have hdst : ∀ a, (n.insertBefore v d).dst a = if a = n.nArcs then v else if a ∈ A then n.nNodes else n.dst a := by
    intro a; rw [before_dst d, h2]
  have hnl : last n.start pre ≠ v := fun e => p1 (e ▸ last_mem n.start pre)
  have hnew : ∀ w ∈ nodes n.start (pre ++ (v, A) :: post), w ≠ n.nNodes := by
    intro w hw e
    have := h.lt w hw
    omega
  have hnodes : nodes n.start (pre ++ (v, A) :: post) = nodes n.start pre ++ v :: post.map Prod.fst := by
    rw [nodes_append]; rfl
  have hnodes' : nodes n.start (pre ++ (n.nNodes, A) :: (v, [n.nArcs]) :: post) =
      nodes n.start pre ++ n.nNodes :: v :: post.map Prod.fst := by
    rw [nodes_append]; rfl
  have hlast : last n.start (pre ++ (n.nNodes, A) :: (v, [n.nArcs]) :: post) = last n.start (pre ++ (v, A) :: post) := by
    rw [last_append, last_append]; rfl
  have hseg := (seg_append n n.start pre _).1 h.seg
  rw [hnodes] at hnew
  have harcA : ∀ p ∈ pre ++ post, ∀ a ∈ p.2, a ∉ A := by
    intro p hp a ha hA
    obtain ⟨g1, g2, g3⟩ := h5 a hA
    rcases List.mem_append.1 hp with hp | hp
    · obtain ⟨q1, q2, e⟩ := List.append_of_mem hp
      have hh : Lin n (q1 ++ (p.1, p.2) :: (q2 ++ (v, A) :: post)) := by
        have := h; rw [e] at this; simpa using this
      have := (hh.at.2.2.2.2 a ha).2.1
      rw [g2] at this
      subst this
      exact p1 (by unfold nodes; exact List.mem_cons_of_mem _ (List.mem_map_of_mem hp))
    · obtain ⟨q1, q2, e⟩ := List.append_of_mem hp
      have hh : Lin n ((pre ++ (v, A) :: q1) ++ (p.1, p.2) :: q2) := by
        have := h; rw [e] at this; simpa using this
      have := (hh.at.2.2.2.2 a ha).2.1
      rw [g2] at this
      subst this
      exact p3 (List.mem_map_of_mem hp)
  have harc : ∀ p ∈ pre ++ post, ∀ a ∈ p.2,
      (n.insertBefore v d).src a = n.src a ∧ (n.insertBefore v d).dst a = n.dst a := by
    intro p hp a ha
    have := hlt p (by rcases List.mem_append.1 hp with hp | hp <;> simp [hp]) a ha
    rw [hsrc, hdst, if_neg (by omega), if_neg (by omega), if_neg (harcA p hp a ha)]; exact ⟨rfl, rfl⟩
  have hvw : v ≠ n.nNodes := hnew v (by simp)
  refine ⟨by simp, ?_, ?_, ?_, ?_, ?_, ?_, ?_⟩
  · rw [hst, seg_append]
    refine ⟨?_, ?_⟩
    · apply seg_congr pre n.start (by show n.nArcs ≤ n.nArcs + 1; omega) ?_ ?_ ?_ p4 hseg.1
      · intro w hw _; rw [hout, if_neg (hnew w (List.mem_append_left _ hw))]
      · intro w hw
        have hw' : w ∈ nodes n.start pre := by unfold nodes; exact List.mem_cons_of_mem _ hw
        rw [hinn, if_neg, if_neg (hnew w (List.mem_append_left _ hw'))]
        intro e; subst e; exact p1 hw'
      · intro p hp; exact harc p (List.mem_append_left _ hp)
    · refine ⟨⟨?_, ?_, h3, h4, ?_⟩, ⟨?_, ?_, by simp, by simp, ?_⟩, ?_⟩
      · rw [hout, if_neg (hnew _ (List.mem_append_left _ (last_mem _ _)))]; exact h1
      · rw [hinn, if_neg (fun e => hvw e.symm), if_pos rfl]
      · intro a ha
        obtain ⟨g1, g2, g3⟩ := h5 a ha
        rw [hsrc, hdst, if_neg (by omega), if_neg (by omega), if_pos ha]
        exact ⟨g1, rfl, by show a < n.nArcs + 1; omega⟩
      · rw [hout, if_pos rfl]
      · rw [hinn, if_pos rfl]
      · intro a ha
        have : a = n.nArcs := by simpa using ha
        subst this
        rw [hsrc, hdst, if_pos rfl, if_pos rfl]
        exact ⟨rfl, rfl, Nat.lt_succ_self _⟩
      · apply seg_congr post v (by show n.nArcs ≤ n.nArcs + 1; omega) ?_ ?_ ?_ ?_ hseg.2.2
        · intro w hw _; rw [hout, if_neg (hnew w (List.mem_append_right _ hw))]
        · intro w hw
          rw [hinn, if_neg, if_neg (hnew w (by simp [hw]))]
          intro e; subst e; exact p3 hw
        · intro p hp; exact harc p (List.mem_append_right _ hp)
        · exact List.nodup_cons.2 ⟨p3, p5⟩
  · rw [hst, hnodes', List.nodup_append]
    refine ⟨p4, ?_, ?_⟩
    · rw [List.nodup_cons]
      exact ⟨fun hm => hnew _ (List.mem_append_right _ hm) rfl, List.nodup_cons.2 ⟨p3, p5⟩⟩
    · intro a ha b hb
      rcases List.mem_cons.1 hb with e | hb
      · subst e; exact hnew a (List.mem_append_left _ ha)
      · rcases List.mem_cons.1 hb with e | hb
        · subst e; intro e; subst e; exact p1 ha
        · intro e; subst e; exact p2 _ ha hb
  · rw [hst, hnodes']
    intro w hw
    show w < n.nNodes + 1
    have hh := h.lt
    rw [hnodes] at hh
    rcases List.mem_append.1 hw with hw | hw
    · have := hh w (List.mem_append_left _ hw); omega
    · rcases List.mem_cons.1 hw with e | hw
      · omega
      · have := hh w (List.mem_append_right _ hw); omega
  · rw [hst, hlast, hout, if_neg]
    · exact h.fin
    · rw [last_append]
      exact hnew _ (List.mem_append_right _ (last_mem v post))
  · rw [hst, hinn, if_neg, if_neg]
    · exact h.start_inn
    · exact hnew _ (List.mem_append_left _ (by simp [nodes]))
    · intro e; exact p1 (by rw [← e]; simp [nodes])
  · rw [hst, hlast]; exact h.stop
  · intro w hw
    rw [hst, hnodes'] at hw
    have k1 : w ≠ n.nNodes := fun e => hw (by simp [e])
    have k2 : w ≠ v := fun e => hw (by simp [e])
    rw [hout, hinn, if_neg k1, if_neg k2, if_neg k1]
    apply h.other
    rw [hnodes]
    intro hm
    apply hw
    rcases List.mem_append.1 hm with hm | hm
    · exact List.mem_append_left _ hm
    · exact List.mem_append_right _ (List.mem_cons_of_mem _ hm)

/-- A new bundle at the start. -/
theorem Lin.head {n : Net W} {ps : List (Nat × List Nat)} (d : Option W) (h : Lin n ps) :
    Lin (n.addHead d) ((n.nNodes, [n.nArcs]) :: ps) := by
  have hwf := h.wf
  have hlt := h.arcs_lt
  have hst : (n.addHead d).start = n.start := rfl
  cases ps with
  | nil => exact absurd rfl h.ne
  | cons p ps =>
    obtain ⟨v, A⟩ := p
    have hat := Lin.at (pre := []) h
    obtain ⟨h1, h2, h3, h4, h5⟩ := hat
    have h1 : n.out n.start = A := h1
    have hout := head_out (n := n) d hwf
    have hinn := head_inn (n := n) d
    have hsrc := head_src (n := n) d
    have hdst := head_dst (n := n) d
    rw [h1] at hout
    have hsl := h.lt n.start (by simp [nodes])
    have hnew : ∀ w ∈ nodes n.start ((v, A) :: ps), w ≠ n.nNodes := by
      intro w hw e
      have := h.lt w hw
      omega
    have hnd := h.nodup
    unfold nodes at hnd
    obtain ⟨q1, q2⟩ := List.nodup_cons.1 hnd
    have hsegn := h.seg
    have hA : ∀ p ∈ ps, ∀ a ∈ p.2, a ∉ A := by
      intro p hp a ha hA
      obtain ⟨r1, r2, e⟩ := List.append_of_mem hp
      have hh : Lin n (((v, A) :: r1) ++ (p.1, p.2) :: r2) := by
        have := h; rw [e] at this; simpa using this
      have k1 := (hh.at.2.2.2.2 a ha).2.1
      rw [(h5 a hA).2.1] at k1
      have := (List.nodup_cons.1 (show (v :: ps.map Prod.fst).Nodup from q2)).1
      exact this (by rw [k1]; exact List.mem_map_of_mem hp)
    have harc : ∀ p ∈ ps, ∀ a ∈ p.2, (n.addHead d).src a = n.src a ∧ (n.addHead d).dst a = n.dst a := by
      intro p hp a ha
      have := hlt p (by simp [hp]) a ha
      rw [hsrc, hdst, if_neg (by omega), if_neg (by rw [h1]; exact hA p hp a ha), if_neg (by omega)]
      exact ⟨rfl, rfl⟩
    refine ⟨by simp, ?_, ?_, ?_, ?_, ?_, ?_, ?_⟩
    · rw [hst]
      refine ⟨⟨?_, ?_, by simp, by simp, ?_⟩, ⟨?_, ?_, h3, h4, ?_⟩, ?_⟩
      · rw [hout, if_pos rfl]
      · rw [hinn, if_pos rfl]
      · intro a ha
        have : a = n.nArcs := by simpa using ha
        subst this
        rw [hsrc, hdst, if_pos rfl, if_pos rfl]
        exact ⟨rfl, rfl, Nat.lt_succ_self _⟩
      · rw [hout, if_neg (by omega), if_pos rfl]
      · rw [hinn, if_neg (hnew v (by simp [nodes]))]; exact h2
      · intro a ha
        obtain ⟨g1, g2, g3⟩ := h5 a ha
        rw [hsrc, hdst, if_neg (by omega), if_pos (by rw [h1]; exact ha), if_neg (by omega)]
        exact ⟨rfl, g2, by show a < n.nArcs + 1; omega⟩
      · apply seg_congr ps v (by show n.nArcs ≤ n.nArcs + 1; omega) ?_ ?_ ?_ ?_ hsegn.2
        · intro w hw _
          have hw : w ∈ v :: ps.map Prod.fst := hw
          rw [hout, if_neg, if_neg (hnew w (by unfold nodes; exact List.mem_cons_of_mem _ hw))]
          intro e; subst e; exact q1 hw
        · intro w hw
          rw [hinn, if_neg (hnew w (by simp [nodes]; right; right; simpa using hw))]
        · exact harc
        · exact q2
    · rw [hst]
      show (n.start :: n.nNodes :: v :: ps.map Prod.fst).Nodup
      rw [List.nodup_cons, List.nodup_cons]
      refine ⟨?_, fun hm => hnew _ (by unfold nodes; exact List.mem_cons_of_mem _ hm) rfl, q2⟩
      intro hm
      rcases List.mem_cons.1 hm with e | hm
      · omega
      · exact q1 hm
    · rw [hst]
      intro w hw
      show w < n.nNodes + 1
      have hw : w ∈ n.start :: n.nNodes :: v :: ps.map Prod.fst := hw
      rcases List.mem_cons.1 hw with e | hw
      · omega
      · rcases List.mem_cons.1 hw with e | hw
        · omega
        · have := h.lt w (by unfold nodes; exact List.mem_cons_of_mem _ hw); omega
    · rw [hst]
      show (n.addHead d).out (last v ps) = []
      have hm : last v ps ∈ v :: ps.map Prod.fst := last_mem v ps
      rw [hout, if_neg, if_neg (hnew _ (by unfold nodes; exact List.mem_cons_of_mem _ hm))]
      · exact h.fin
      · intro e; rw [e] at hm; exact q1 hm
    · rw [hst, hinn, if_neg (by omega)]; exact h.start_inn
    · rw [head_stop, h.stop]; rfl
    · intro w hw
      rw [hst] at hw
      have hw : w ∉ n.start :: n.nNodes :: v :: ps.map Prod.fst := hw
      have k1 : w ≠ n.start := fun e => hw (by simp [e])
      have k2 : w ≠ n.nNodes := fun e => hw (by simp [e])
      rw [hout, hinn, if_neg k1, if_neg k2, if_neg k2]
      apply h.other
      intro hm
      have hm : w ∈ n.start :: v :: ps.map Prod.fst := hm
      rcases List.mem_cons.1 hm with e | hm
      · exact k1 e
      · exact hw (by simp only [List.mem_cons] at hm ⊢; right; right; exact hm)

/-- The first arc of a network. -/
theorem Lin.first (d : Option W) : Lin ((Net.init W).insertAfter 0 d) [(1, [0])] := by
  have hout : ∀ v, ((Net.init W).insertAfter 0 d).out v = if v = 0 then [0] else [] := by
    intro v
    show upd (upd (fun _ => []) 1 []) 0 [0] v = _
    by_cases h : v = 0
    · simp [upd, h]
    · by_cases h' : v = 1 <;> simp [upd, h, h']
  have hinn : ∀ v, ((Net.init W).insertAfter 0 d).inn v = if v = 1 then [0] else [] := by
    intro v
    show upd (fun _ => []) 1 [0] v = _
    by_cases h : v = 1 <;> simp [upd, h]
  refine ⟨by simp, ⟨⟨hout 0, hinn 1, by simp, by simp, ?_⟩, trivial⟩, (show [0, 1].Nodup by decide), ?_, ?_, ?_, rfl, ?_⟩
  · intro a ha
    have : a = 0 := by simpa using ha
    subst this
    exact ⟨rfl, rfl, Nat.zero_lt_one⟩
  · intro v hv
    show v < 2
    have : v = 0 ∨ v = 1 := by simpa [nodes, Net.insertAfter, Net.init] using hv
    omega
  · show ((Net.init W).insertAfter 0 d).out 1 = []
    rw [hout]; rfl
  · show ((Net.init W).insertAfter 0 d).inn 0 = []
    rw [hinn]; rfl
  · intro v hv
    have : ¬ (v = 0 ∨ v = 1) := by simpa [nodes, Net.insertAfter, Net.init] using hv
    rw [hout, hinn, if_neg (by omega), if_neg (by omega)]; exact ⟨rfl, rfl⟩

/-! ### by bundles -/

/-- Bundle `A` of a chain. -/
theorem split_snd {ps : List (Nat × List Nat)} {P Q : List (List Nat)} {A : List Nat} (h : ps.map Prod.snd = P ++ A :: Q) :
    ∃ pre v post, ps = pre ++ (v, A) :: post ∧ pre.map Prod.snd = P ∧ post.map Prod.snd = Q := by
  obtain ⟨pre, r, e, e1, e2⟩ := List.map_eq_append_iff.1 h
  obtain ⟨p, post, e3, e4, e5⟩ := List.map_eq_cons_iff.1 e2
  exact ⟨pre, p.1, post, by rw [e, e3, ← e4], e1, e5⟩

theorem edit_between {n : Net W} {ps : List (Nat × List Nat)} {P Q : List (List Nat)} {A : List Nat} {x : Nat}
    (d : Option W) (h : Lin n ps) (he : ps.map Prod.snd = P ++ A :: Q) (hx : x ∈ A) :
    ∃ ps', Lin (n.insertBetween (n.src x) (n.dst x) d) ps' ∧ ps'.map Prod.snd = P ++ (A ++ [n.nArcs]) :: Q ∧
      ∀ v, (n.insertBetween (n.src x) (n.dst x) d).inn v ≠ [] → n.inn v ≠ [] := by
  obtain ⟨pre, v, post, e, e1, e2⟩ := split_snd he
  subst e
  obtain ⟨g1, g2, _⟩ := h.at.2.2.2.2 x hx
  rw [g1, g2]
  refine ⟨_, h.between d, by simp [e1, e2], ?_⟩
  intro w hw
  by_cases hwv : w = v
  · subst hwv; rw [h.at.2.1]; exact h.at.2.2.1
  · have : (n.insertBetween (last n.start pre) v d).inn w = n.inn w := by
      show upd _ _ _ w = _
      unfold upd; rw [if_neg hwv]
    rwa [this] at hw

theorem edit_before {n : Net W} {ps : List (Nat × List Nat)} {P Q : List (List Nat)} {A : List Nat} {x : Nat}
    (d : Option W) (h : Lin n ps) (he : ps.map Prod.snd = P ++ A :: Q) (hx : x ∈ A) :
    ∃ ps', Lin (n.insertBefore (n.dst x) d) ps' ∧ ps'.map Prod.snd = P ++ A :: [n.nArcs] :: Q ∧
      (n.insertBefore (n.dst x) d).out ((n.insertBefore (n.dst x) d).dst x) = [n.nArcs] ∧
      ∀ v, (n.insertBefore (n.dst x) d).inn v ≠ [] → v = n.nNodes ∨ n.inn v ≠ [] := by
  obtain ⟨pre, v, post, e, e1, e2⟩ := split_snd he
  subst e
  obtain ⟨g1, g2, _⟩ := h.at.2.2.2.2 x hx
  rw [g2]
  have hb := h.before d
  refine ⟨_, hb, by simp [e1, e2], ?_, ?_⟩
  · have k := hb.at.2.2.2.2 x hx
    rw [k.2.1]
    have hb' : Lin (n.insertBefore v d) ((pre ++ [(n.nNodes, A)]) ++ (v, [n.nArcs]) :: post) := by
      simpa using hb
    have := hb'.at.1
    rw [last_append] at this
    exact this
  · intro w hw
    rw [before_inn d h.wf] at hw
    by_cases hwv : w = v
    · subst hwv; right; rw [h.at.2.1]; exact h.at.2.2.1
    · rw [if_neg hwv] at hw
      by_cases hn : w = n.nNodes
      · exact Or.inl hn
      · rw [if_neg hn] at hw; exact Or.inr hw

theorem addNulls_ok (null : W) : ∀ (k : Nat) {n : Net W} {ps : List (Nat × List Nat)} {P Q : List (List Nat)}
    {A : List Nat} {x : Nat}, Lin n ps → ps.map Prod.snd = P ++ A :: Q → x ∈ A →
    ∃ ps', Lin (addNulls null (n.src x) (n.dst x) k n) ps' ∧
      ps'.map Prod.snd = P ++ (A ++ List.range' n.nArcs k) :: Q ∧
      (addNulls null (n.src x) (n.dst x) k n).nArcs = n.nArcs + k ∧
      (addNulls null (n.src x) (n.dst x) k n).start = n.start ∧
      (∀ v, (addNulls null (n.src x) (n.dst x) k n).inn v ≠ [] → n.inn v ≠ []) ∧
      ∀ a, (addNulls null (n.src x) (n.dst x) k n).data a =
        if n.nArcs ≤ a ∧ a < n.nArcs + k then some null else n.data a := by
  intro k
  induction k with
  | zero =>
    intro n ps P Q A x h he hx
    refine ⟨ps, h, by simpa using he, rfl, rfl, fun _ h => h, ?_⟩
    intro a
    rw [if_neg (by omega)]; rfl
  | succ k ih =>
    intro n ps P Q A x h he hx
    obtain ⟨ps1, h1, e1, f1⟩ := edit_between (some null) h he hx
    have hlt : x < n.nArcs := by
      obtain ⟨pre, v, post, e, _, _⟩ := split_snd he
      subst e
      exact (h.at.2.2.2.2 x hx).2.2
    have es : (n.insertBetween (n.src x) (n.dst x) (some null)).src x = n.src x := by
      show upd _ _ _ x = _; unfold upd; rw [if_neg (by omega)]
    have ed : (n.insertBetween (n.src x) (n.dst x) (some null)).dst x = n.dst x := by
      show upd _ _ _ x = _; unfold upd; rw [if_neg (by omega)]
    obtain ⟨ps2, h2, e2, c2, st2, f2, d2⟩ := ih h1 e1 (x := x) (by simp [hx])
    rw [es, ed] at h2 c2 st2 f2 d2
    have hc : (n.insertBetween (n.src x) (n.dst x) (some null)).nArcs = n.nArcs + 1 := rfl
    refine ⟨ps2, h2, ?_, ?_, ?_, ?_, ?_⟩
    · rw [e2, hc, List.append_assoc]
      rfl
    · show (addNulls null (n.src x) (n.dst x) k _).nArcs = _
      rw [c2, hc]; omega
    · exact st2
    · intro v hv; exact f1 v (f2 v hv)
    · intro a
      have := d2 a
      show (addNulls null (n.src x) (n.dst x) k _).data a = _
      rw [this, hc]
      show (if _ then _ else upd _ _ _ a) = _
      by_cases h1 : a = n.nArcs
      · subst h1
        rw [if_neg (by omega), if_pos (by omega)]
        simp [upd]
      · unfold upd
        rw [if_neg h1]
        by_cases h2 : n.nArcs ≤ a ∧ a < n.nArcs + (k + 1)
        · rw [if_pos (by omega), if_pos h2]
        · rw [if_neg (by omega), if_neg h2]

end Verif.Rover
