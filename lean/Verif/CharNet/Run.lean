import Verif.CharNet.Loop
import Verif.Net.Traverse
/-!
# The traversal that expands the words of a network
-/
set_option autoImplicit false
namespace Verif.CharNet
open Verif.Net Verif.NetBuild
variable {W : Type}

theorem push_fold (cur : Bool) (f1 : Nat → Int) (N A : List Nat) : ∀ (ds : List Nat) (vis : Nat → Bool) (F : List Nat),
    ∃ vis' F', ds.foldl (push cur) (vis, F) = (vis', F') ∧
      ds.foldl (pushNode false cur) ⟨⟨f1, vis⟩, F, N, A⟩ = ⟨⟨f1, vis'⟩, F', N, A⟩ ∧ ∀ u, u ∉ ds → vis' u = vis u := by
  intro ds
  induction ds with
  | nil => intro vis F; exact ⟨vis, F, rfl, rfl, fun _ _ => rfl⟩
  | cons d ds ih =>
    intro vis F
    rw [List.foldl_cons, List.foldl_cons, pushNode_depth]
    by_cases h : vis d ≠ cur
    · have e : push cur (vis, F) d = (vis, F) := if_pos h
      obtain ⟨vis', F', h1, h2, h3⟩ := ih vis F
      rw [e, if_pos h]
      exact ⟨vis', F', h1, h2, fun u hu => h3 u (fun hh => hu (List.mem_cons_of_mem _ hh))⟩
    · have e : push cur (vis, F) d = (upd vis d (!vis d), d :: F) := if_neg h
      obtain ⟨vis', F', h1, h2, h3⟩ := ih (upd vis d (!vis d)) (d :: F)
      rw [e, if_neg h]
      refine ⟨vis', F', h1, h2, fun u hu => ?_⟩
      rw [h3 u (fun hh => hu (List.mem_cons_of_mem _ hh)), upd_ne _ _ _ _ (fun e : u = d => hu (e ▸ List.mem_cons_self ..))]

/-- The state between two nodes: `P` the nodes done, `F` the nodes to do. -/
structure NInv (G : W → Prop) (opt : W → Bool) (E : W → List W) (n0 : Net W) (s : Nat) (cur : Bool) (P F : List Nat) (b : CNet W) : Prop where
  fine : Fine G b.net s
  start : b.net.start = n0.start
  nodes : n0.nNodes ≤ b.net.nNodes
  narcs : n0.nArcs ≤ b.net.nArcs
  out : ∀ u, u < n0.nNodes → u ∉ P → b.net.out u = n0.out u
  arcs : ∀ c, c < n0.nArcs → b.net.dst c = n0.dst c ∧ b.net.data c = n0.data c
  stable : ∀ u, (u ∈ P ∨ ¬ u < n0.nNodes) → ∀ c ∈ b.net.out u, Stable E b.net c
  visStart : b.vis n0.start = !cur
  visNew : ∀ u, ¬ u < n0.nNodes → b.net.inn u ≠ [] → b.vis u = !cur
  innOld : ∀ u, u < n0.nNodes → b.net.inn u ≠ [] → n0.inn u ≠ []
  lang : ∀ ws, Sp b.net (img E b.net) n0.start ws s ↔ Sp n0 (img E n0) n0.start ws s
  dinv : DInv n0 cur ⟨⟨fun _ => 0, b.vis⟩, F, P, P.flatMap n0.out⟩ (P.flatMap n0.out)
  one : ∀ u ∈ P, optCount opt n0 (n0.out u) ≤ 1

/-- A node seen by the traversal is a node that can be reached. -/
theorem NInv.reach {G : W → Prop} {opt : W → Bool} {E : W → List W} {n0 : Net W} {s : Nat} {cur : Bool} {P F : List Nat} {b : CNet W}
    {r : Nat → Nat} (hw : n0.WF r) (h : NInv G opt E n0 s cur P F b) {u : Nat} (hu : u ∈ P ++ F) : n0.Reach u ∧ u < n0.nNodes := by
  rcases (h.dinv.seen u).1 hu with e | ⟨a, ha, e⟩
  · rw [e]; exact ⟨.start, hw.start_lt⟩
  · obtain ⟨x, _, hax⟩ := List.mem_flatMap.1 ha
    obtain ⟨g1, g2, g3, g4, g5, g6⟩ := hw.out_ok _ _ hax
    rw [← e]
    exact ⟨(hw.reach_iff _).2 (Or.inr (List.ne_nil_of_mem g3)), g5⟩

theorem out_len {n : Net W} {r : Nat → Nat} (hw : n.WF r) (v : Nat) : (n.out v).length ≤ n.nArcs :=
  nodup_bound (hw.out_nodup v) fun a ha => (hw.out_ok v a ha).1

theorem node_loop {sub : W → Option (Option (Net W))} {G : W → Prop} {opt : W → Bool} {E : W → List W} (hsub : SubOk sub G opt E)
    {n0 : Net W} {s : Nat} {cur : Bool} {fuel : Nat} {r0 : Nat → Nat} (hw0 : n0.WF r0) : ∀ (k : Nat) (b : CNet W) (P F : List Nat),
    NInv G opt E n0 s cur P F b →
    (nodeLoop sub cur fuel k b F = .hang ∨ ∃ b' P', nodeLoop sub cur fuel k b F = .ok b' ∧ NInv G opt E n0 s cur P' [] b') ∧
    ((∀ u, n0.Reach u → optCount opt n0 (n0.out u) ≤ 1) → 4 * n0.nArcs + 1 < fuel → n0.nNodes ≤ P.length + k →
      nodeLoop sub cur fuel k b F ≠ .hang) := by
  intro k
  induction k with
  | zero =>
    intro b P F h
    cases F with
    | nil => exact ⟨Or.inr ⟨b, P, rfl, h⟩, fun _ _ _ => by simp [nodeLoop]⟩
    | cons v rest =>
      refine ⟨Or.inl rfl, fun _ _ hk => ?_⟩
      have hb : (P ++ v :: rest).length ≤ n0.nNodes :=
        nodup_bound h.dinv.nodup fun u hu => (h.reach hw0 hu).2
      simp only [List.length_append, List.length_cons] at hb
      omega
  | succ k ih =>
    intro b P F h
    cases F with
    | nil => exact ⟨Or.inr ⟨b, P, rfl, h⟩, fun _ _ _ => by simp [nodeLoop]⟩
    | cons v rest =>
      obtain ⟨hvr, hvl⟩ := h.reach hw0 (u := v) (by simp)
      have hvP : v ∉ P := by
        intro hv
        have := h.dinv.nodup
        rw [List.nodup_append] at this
        exact this.2.2 v hv v (List.mem_cons_self ..) rfl
      obtain ⟨rb, hwb⟩ := h.fine.wf
      have hout : b.net.out v = n0.out v := h.out v hvl hvP
      have hol : ∀ a ∈ n0.out v, a < n0.nArcs := fun a ha => (hw0.out_ok v a ha).1
      have hdst : (b.net.out v).map b.net.dst = (n0.out v).map n0.dst := by
        rw [hout]
        exact List.map_congr_left fun a ha => (h.arcs a (hol a ha)).1
      have hd1 : DInv n0 cur ⟨⟨fun _ => 0, b.vis⟩, rest, P ++ [v], P.flatMap n0.out⟩ (P.flatMap n0.out) := by
        refine ⟨?_, ?_, ?_⟩
        · intro u hu
          show b.vis u ≠ cur ↔ u ∈ (P ++ [v]) ++ rest
          rw [List.append_assoc]; exact h.dinv.flags u hu
        · intro u
          show u ∈ (P ++ [v]) ++ rest ↔ _
          rw [List.append_assoc]; exact h.dinv.seen u
        · show ((P ++ [v]) ++ rest).Nodup
          rw [List.append_assoc]; exact h.dinv.nodup
      obtain ⟨s', e1, e2, e3, e4, e5⟩ := depth_push hw0 cur (n0.out v) _ _ hd1 (fun a ha => ⟨v, ha⟩)
      obtain ⟨vis', F', p1, p2, p3⟩ := push_fold cur (fun _ => 0) (P ++ [v]) (P.flatMap n0.out) ((n0.out v).map n0.dst) b.vis rest
      rw [p2] at e1
      subst e1
      have hd2 : DInv n0 cur ⟨⟨fun _ => 0, vis'⟩, F', P ++ [v], (P ++ [v]).flatMap n0.out⟩ ((P ++ [v]).flatMap n0.out) := by
        have : (P ++ [v]).flatMap n0.out = P.flatMap n0.out ++ n0.out v := by simp
        rw [this]
        exact ⟨e2.flags, e2.seen, e2.nodup⟩
      have hds : ∀ u, u ∈ (n0.out v).map n0.dst → u < n0.nNodes ∧ u ≠ n0.start := by
        intro u hu
        obtain ⟨a, ha, e⟩ := List.mem_map.1 hu
        rw [← e]
        exact ⟨(hw0.out_ok _ _ ha).2.2.2.2.1, NetBuild.dst_ne_start hw0 ha⟩
      have hvs' : vis' n0.start = !cur := by
        rw [p3 _ (fun hh => (hds _ hh).2 rfl)]; exact h.visStart
      have hunfold : nodeLoop sub cur fuel (k + 1) b (v :: rest) =
          (match arcLoop sub v fuel ⟨b.net, vis'⟩ (n0.out v).head? with
            | .ok b' => nodeLoop sub cur fuel k b' F'
            | .crash => .crash
            | .hang => .hang) := by
        show (match arcLoop sub v fuel ⟨b.net, (((b.net.out v).map b.net.dst).foldl (push cur) (b.vis, rest)).1⟩ (b.net.out v).head? with
            | .ok b' => nodeLoop sub cur fuel k b' (((b.net.out v).map b.net.dst).foldl (push cur) (b.vis, rest)).2
            | .crash => Res.crash
            | .hang => .hang) = _
        rw [hdst, p1, hout]
      have hf1 : Fine G (⟨b.net, vis'⟩ : CNet W).net s := h.fine
      have hocv : optCount opt b.net (n0.out v) = optCount opt n0 (n0.out v) :=
        data_congr_count fun a ha => (h.arcs a (hol a ha)).2
      -- after the arcs of the node
      have after : ∀ b', Fine G b'.net s → Ext E s v ⟨b.net, vis'⟩ b' → (∀ a ∈ b'.net.out v, Stable E b'.net a) →
          optCount opt n0 (n0.out v) ≤ 1 → NInv G opt E n0 s cur (P ++ [v]) F' b' := by
        intro b' hb' hx hst hoc
        have hxn : b.net.nNodes ≤ b'.net.nNodes := hx.nodes
        have hxa : b.net.nArcs ≤ b'.net.nArcs := hx.narcs
        have hn := h.nodes
        have hna := h.narcs
        have keep : ∀ u, u < b.net.nNodes → u ≠ v → (∀ c ∈ b.net.out u, Stable E b.net c) → ∀ c ∈ b'.net.out u, Stable E b'.net c := by
          intro u hu huv hs c hc
          rw [hx.out u hu huv] at hc
          obtain ⟨y, y1, y2⟩ := hs c hc
          exact ⟨y, by rw [(hx.arcs c (hwb.out_ok _ _ hc).1).2]; exact y1, y2⟩
        refine ⟨hb', hx.start.trans h.start, by omega, by omega, ?_, ?_, ?_, ?_, ?_, ?_, ?_, ?_, ?_⟩
        · intro u hu hup
          have h1 : u ∉ P := fun hh => hup (by simp [hh])
          have h2 : u ≠ v := fun hh => hup (by simp [hh])
          rw [hx.out u (show u < b.net.nNodes by omega) h2]
          exact h.out u hu h1
        · intro c hc
          obtain ⟨a1, a2⟩ := hx.arcs c (show c < b.net.nArcs by omega)
          obtain ⟨a3, a4⟩ := h.arcs c hc
          exact ⟨a1.trans a3, a2.trans a4⟩
        · intro u hu
          by_cases huv : u = v
          · rw [huv]; exact hst
          · have hu' : u ∈ P ∨ ¬ u < n0.nNodes := by
              rcases hu with hu | hu
              · rcases List.mem_append.1 hu with hu | hu
                · exact Or.inl hu
                · exact absurd (List.mem_singleton.1 hu) huv
              · exact Or.inr hu
            by_cases hub : u < b.net.nNodes
            · exact keep u hub huv (h.stable u hu')
            · exact hx.fresh u hub
        · rw [hx.visOld n0.start (show n0.start < b.net.nNodes by have := hw0.start_lt; omega)]
          exact hvs'
        · intro u hu hi
          by_cases hub : u < b.net.nNodes
          · rw [hx.visOld u hub]
            show vis' u = !cur
            rw [p3 u (fun hh => hu (hds u hh).1)]
            exact h.visNew u hu (hx.innOld u hub hi)
          · rw [hx.visNew u hub hi]
            show vis' b.net.start = !cur
            rw [h.start]; exact hvs'
        · intro u hu hi
          exact h.innOld u hu (hx.innOld u (show u < b.net.nNodes by omega) hi)
        · intro ws
          have := hx.lang ws
          have e : (⟨b.net, vis'⟩ : CNet W).net.start = n0.start := h.start
          rw [e] at this
          exact this.trans (h.lang ws)
        · refine ⟨?_, hd2.seen, hd2.nodup⟩
          intro u hu
          show b'.vis u ≠ cur ↔ _
          have hul : u < n0.nNodes := by
            cases hu with
            | start => exact hw0.start_lt
            | step x a _ ha => exact (hw0.out_ok _ _ ha).2.2.2.2.1
          rw [hx.visOld u (show u < b.net.nNodes by omega)]
          exact hd2.flags u hu
        · intro u hu
          rcases List.mem_append.1 hu with hu | hu
          · exact h.one u hu
          · rw [List.mem_singleton.1 hu]; exact hoc
      rw [hunfold]
      cases hR : n0.out v with
      | nil =>
        have e : arcLoop sub v fuel ⟨b.net, vis'⟩ ([] : List Nat).head? = .ok ⟨b.net, vis'⟩ := by cases fuel <;> rfl
        rw [e]
        simp only
        have hN := after ⟨b.net, vis'⟩ h.fine (Ext.refl v hf1) (by
          intro a ha
          have ha : a ∈ b.net.out v := ha
          rw [hout, hR] at ha; cases ha) (by rw [hR]; simp [optCount])
        obtain ⟨k1, k2⟩ := ih _ _ _ hN
        refine ⟨k1, fun a1 a2 a3 => k2 a1 a2 ?_⟩
        simp only [List.length_append, List.length_singleton]
        omega
      | cons p R =>
        have hvb : v < b.net.nNodes := Nat.lt_of_lt_of_le hvl h.nodes
        obtain ⟨a1, a2⟩ := arc_loop hsub (s := s) (v := v) (b0 := ⟨b.net, vis'⟩) hvb hwb.start_lt fuel ⟨b.net, vis'⟩ [] p R h.fine
          (Ext.refl v hf1) (by show b.net.out v = _; rw [hout, hR]; rfl) (by intro a ha; cases ha)
        have hoc2 : optCount opt (⟨b.net, vis'⟩ : CNet W).net (p :: R) = optCount opt n0 (n0.out v) := by
          rw [← hocv, hR]
        rw [hoc2] at a1 a2
        rw [show (p :: R).head? = some p from rfl]
        have hml : meas sub opt b.net (p :: R) ≤ 4 * n0.nArcs + 1 := by
          have h1 := meas_le sub opt b.net (p :: R)
          have h2 := out_len hw0 v
          rw [hR] at h2
          omega
        rcases a1 with hh | ⟨b', hb', hfb, hxb, hsb, hoc⟩
        · rw [hh]
          refine ⟨Or.inl rfl, fun c1 c2 c3 => ?_⟩
          exact absurd hh (a2 (c1 v hvr) (by show meas sub opt b.net (p :: R) < fuel; omega))
        · rw [hb']
          simp only
          obtain ⟨k1, k2⟩ := ih _ _ _ (after b' hfb hxb hsb hoc)
          refine ⟨k1, fun a1 a2 a3 => k2 a1 a2 ?_⟩
          simp only [List.length_append, List.length_singleton]
          omega

/-- What the traversal achieves: it does not crash; when it ends, every arc stands for itself, the bits of the nodes agree,
and the readings are those of the original network with every word replaced by what it stands for; it ends exactly if no
node has two optional words on its arcs. -/
theorem expand_run {sub : W → Option (Option (Net W))} {G : W → Prop} {opt : W → Bool} {E : W → List W} (hsub : SubOk sub G opt E)
    {b : CNet W} {s : Nat} (hb : Fine G b.net s) (hu : ∀ u, b.net.Reach u → b.vis u = b.vis b.net.start) (fuel : Nat) :
    (expandNet sub fuel b = .hang ∨ ∃ b', expandNet sub fuel b = .ok b' ∧ Fine G b'.net s ∧ b'.net.start = b.net.start ∧
      (∀ u a, a ∈ b'.net.out u → Stable E b'.net a) ∧ (∀ u, b'.net.Reach u → b'.vis u = b'.vis b'.net.start) ∧
      (∀ ws, Sp b'.net (one b'.net) b.net.start ws s ↔ Sp b.net (img E b.net) b.net.start ws s) ∧
      ∀ u, b.net.Reach u → optCount opt b.net (b.net.out u) ≤ 1) ∧
    ((∀ u, b.net.Reach u → optCount opt b.net (b.net.out u) ≤ 1) → 4 * b.net.nArcs + b.net.nNodes + 1 < fuel →
      expandNet sub fuel b ≠ .hang) := by
  obtain ⟨r, hw⟩ := hb.wf
  have hst := hw.start_lt
  have h0 : NInv G opt E b.net s (b.vis b.net.start) [] [b.net.start] ⟨b.net, upd b.vis b.net.start (!b.vis b.net.start)⟩ := by
    refine ⟨hb, rfl, Nat.le_refl _, Nat.le_refl _, fun _ _ _ => rfl, fun _ _ => ⟨rfl, rfl⟩, ?_, upd_self _ _ _, ?_, fun _ _ h => h,
      fun _ => Iff.rfl, ⟨?_, ?_, ?_⟩, by intro u hu; cases hu⟩
    · intro u hu c hc
      rcases hu with hu | hu
      · cases hu
      · exact absurd (hw.out_ok _ _ hc).2.2.2.1 hu
    · intro u hu hi
      exact absurd (inn_node hw hi).1 hu
    · intro u hur
      show upd b.vis b.net.start _ u ≠ _ ↔ u ∈ [] ++ [b.net.start]
      by_cases e : u = b.net.start
      · subst e; rw [upd_self]; simp
      · rw [upd_ne _ _ _ _ e, hu u hur]; simp [e]
    · intro u
      show u ∈ [] ++ [b.net.start] ↔ _
      simp
    · show ([] ++ [b.net.start]).Nodup
      simp
  obtain ⟨k1, k2⟩ := node_loop hsub (fuel := fuel) hw fuel _ _ _ h0
  refine ⟨?_, fun h1 h2 => k2 h1 (by omega) (by simp; omega)⟩
  rcases k1 with k1 | ⟨b', P, e, hN⟩
  · exact Or.inl k1
  · have hall : ∀ u, b.net.Reach u → u ∈ P := by
      intro u hr
      induction hr with
      | start =>
        have := (hN.dinv.seen b.net.start).2 (Or.inl rfl)
        simpa using this
      | step v a hv ha ih =>
        have := (hN.dinv.seen (b.net.dst a)).2 (Or.inr ⟨a, List.mem_flatMap.2 ⟨v, ih, ha⟩, rfl⟩)
        simpa using this
    have hstab : ∀ u a, a ∈ b'.net.out u → Stable E b'.net a := by
      intro u a ha
      by_cases hu : u < b.net.nNodes
      · by_cases hp : u ∈ P
        · exact hN.stable u (Or.inl hp) a ha
        · have e := hN.out u hu hp
          exfalso
          apply hp
          apply hall
          rw [e] at ha
          by_cases es : u = b.net.start
          · rw [es]; exact .start
          · exact (hw.reach_iff _).2 (Or.inr (hw.source u (List.ne_nil_of_mem ha) es))
      · exact hN.stable u (Or.inr hu) a ha
    refine Or.inr ⟨b', e, hN.fine, hN.start, ?_, ?_, ?_, ?_⟩
    · exact hstab
    · obtain ⟨r', hw'⟩ := hN.fine.wf
      have hvs : b'.vis b'.net.start = !b.vis b.net.start := by rw [hN.start]; exact hN.visStart
      intro u hur
      rw [hvs]
      rcases (hw'.reach_iff u).1 hur with e | hi
      · rw [e]; exact hvs
      · by_cases hul : u < b.net.nNodes
        · have hr : b.net.Reach u := (hw.reach_iff _).2 (Or.inr (hN.innOld u hul hi))
          have := (hN.dinv.flags u hr).2 (by simpa using hall u hr)
          have : b'.vis u ≠ b.vis b.net.start := this
          revert this
          cases b'.vis u <;> cases b.vis b.net.start <;> simp
        · exact hN.visNew u hul hi
    · intro ws
      rw [← hN.lang ws]
      have key : ∀ u a vs, a ∈ b'.net.out u → (one b'.net a vs ↔ img E b'.net a vs) := by
        intro u a vs ha
        obtain ⟨y, y1, y2⟩ := hstab u a ha
        unfold one img
        rw [y1]
        constructor
        · rintro ⟨x, hx, e⟩; cases hx; exact ⟨y, rfl, by rw [e, y2]⟩
        · rintro ⟨x, hx, e⟩; cases hx; exact ⟨y, rfl, by rw [e, y2]⟩
      exact ⟨sp_congr fun u a vs h => (key u a vs h).1, sp_congr fun u a vs h => (key u a vs h).2⟩
    · intro u hr
      exact hN.one u (hall u hr)

end Verif.CharNet
