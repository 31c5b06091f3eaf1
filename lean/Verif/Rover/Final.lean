import Verif.Rover.Table
/-!
# Removing the null head; the result as a sequence of slots; the order of the traversal
-/
set_option autoImplicit false
namespace Verif.Rover
open Verif.Net
variable {W : Type}

/-- What deleting the head arc does when bundles follow. -/
theorem delete_head {n : Net W} {v w h : Nat} {B : List Nat} {rs : List (Nat × List Nat)}
    (hl : Lin n ((v, [h]) :: (w, B) :: rs)) : Lin (deleteArc n h) ((w, B) :: rs) ∧ (deleteArc n h).data = n.data ∧
      (deleteArc n h).start = n.start ∧ (∀ u, (deleteArc n h).inn u ≠ [] → n.inn u ≠ []) := by
  have hwf := hl.wf
  obtain ⟨h1, h2, h3, h4, h5⟩ := Lin.at (pre := []) hl
  have h1 : n.out n.start = [h] := h1
  obtain ⟨hs, hd, hlt⟩ := h5 h (by simp)
  have hs : n.src h = n.start := hs
  obtain ⟨b1, b2, b3, b4, b5⟩ := Lin.at (pre := [(v, [h])]) hl
  have b1 : n.out v = B := b1
  have hnd := hl.nodup
  have hnd : (n.start :: v :: w :: rs.map Prod.fst).Nodup := hnd
  obtain ⟨q1, q2⟩ := List.nodup_cons.1 hnd
  obtain ⟨q3, q4⟩ := List.nodup_cons.1 q2
  have hvs : v ≠ n.start := fun e => q1 (by simp [e])
  have hws : w ≠ n.start := fun e => q1 (by simp [e])
  have hvw : v ≠ w := fun e => q3 (by simp [e])
  have hstop : n.stop ≠ some v := by
    rw [hl.stop]
    intro e
    injection e with e
    have hm : last w rs ∈ w :: rs.map Prod.fst := last_mem w rs
    have : last w rs = v := e
    rw [this] at hm
    exact q3 hm
  have hfold : B.foldl addArc [] = B := by
    have := foldl_addArc B [] (by simpa using b4)
    simpa using this
  have hdel : delArc [h] h = [] := by simp [delArc]
  have heq : deleteArc n h = { n with
      out := upd (upd (upd n.out n.start []) n.start B) v []
      inn := upd n.inn v []
      src := fun a => if a ∈ B then n.start else n.src a } := by
    have e1 : upd n.out n.start ([] : List Nat) v = B := by rw [upd_ne _ _ _ _ hvs, b1]
    unfold deleteArc
    simp only [hs, hd, h1, h2, hdel, upd_self, if_true, if_neg hstop, e1, hfold]
    rw [if_neg]
    rw [upd_ne _ _ _ _ (Ne.symm hvs), upd_self]
    exact b3
  have hout : ∀ u, (deleteArc n h).out u = if u = v then [] else if u = n.start then B else n.out u := by
    intro u
    rw [heq]
    show upd (upd (upd n.out n.start []) n.start B) v [] u = _
    unfold upd
    by_cases e1 : u = v
    · rw [if_pos e1, if_pos e1]
    · by_cases e2 : u = n.start
      · rw [if_neg e1, if_pos e2, if_neg e1, if_pos e2]
      · rw [if_neg e1, if_neg e2, if_neg e2, if_neg e1, if_neg e2]
  have hinn : ∀ u, (deleteArc n h).inn u = if u = v then [] else n.inn u := by
    intro u; rw [heq]; rfl
  have hsrc : ∀ a, (deleteArc n h).src a = if a ∈ B then n.start else n.src a := by intro a; rw [heq]
  have hdst : (deleteArc n h).dst = n.dst := by rw [heq]
  have hst : (deleteArc n h).start = n.start := by rw [heq]
  have hna : (deleteArc n h).nArcs = n.nArcs := by rw [heq]
  have hnn : (deleteArc n h).nNodes = n.nNodes := by rw [heq]
  have hsp : (deleteArc n h).stop = n.stop := by rw [heq]
  have hsub : ∀ u, u ∈ n.start :: w :: rs.map Prod.fst → u ∈ nodes n.start ((v, [h]) :: (w, B) :: rs) := by
    intro u hu
    show u ∈ n.start :: v :: w :: rs.map Prod.fst
    rcases List.mem_cons.1 hu with e | hu
    · simp [e]
    · exact List.mem_cons_of_mem _ (List.mem_cons_of_mem _ hu)
  refine ⟨⟨by simp, ?_, ?_, ?_, ?_, ?_, ?_, ?_⟩, by rw [heq], hst, ?_⟩
  · rw [hst]
    refine ⟨⟨?_, ?_, b3, b4, ?_⟩, ?_⟩
    · rw [hout, if_neg (Ne.symm hvs), if_pos rfl]
    · rw [hinn, if_neg (Ne.symm hvw)]; exact b2
    · intro a ha
      rw [hsrc, if_pos ha, hdst, hna]
      exact ⟨rfl, (b5 a ha).2.1, (b5 a ha).2.2⟩
    · have hseg : Seg n w rs := hl.seg.2.2
      apply seg_congr rs w (by rw [hna]; exact Nat.le_refl _) ?_ ?_ ?_ q4 hseg
      · intro u hu hne
        have hu : u ∈ w :: rs.map Prod.fst := hu
        rw [hout, if_neg, if_neg]
        · intro e; subst e; exact q1 (List.mem_cons_of_mem _ hu)
        · intro e; subst e; exact q3 hu
      · intro u hu
        rw [hinn, if_neg]
        intro e; subst e; exact q3 (List.mem_cons_of_mem _ hu)
      · intro p hp a ha
        refine ⟨?_, by rw [hdst]⟩
        rw [hsrc, if_neg]
        intro hB
        obtain ⟨r1, r2, e⟩ := List.append_of_mem hp
        have hh : Lin n (((v, [h]) :: (w, B) :: r1) ++ (p.1, p.2) :: r2) := by
          have := hl; rw [e] at this; simpa using this
        have k1 := (hh.at.2.2.2.2 a ha).2.1
        rw [(b5 a hB).2.1] at k1
        exact (List.nodup_cons.1 q4).1 (by rw [k1]; exact List.mem_map_of_mem hp)
  · rw [hst]
    show (n.start :: w :: rs.map Prod.fst).Nodup
    exact List.nodup_cons.2 ⟨fun hm => q1 (List.mem_cons_of_mem _ hm), q4⟩
  · rw [hst, hnn]
    intro u hu
    exact hl.lt u (hsub u hu)
  · rw [hst]
    show (deleteArc n h).out (last w rs) = []
    have hm : last w rs ∈ w :: rs.map Prod.fst := last_mem w rs
    rw [hout, if_neg, if_neg]
    · exact hl.fin
    · intro e; rw [e] at hm; exact q1 (List.mem_cons_of_mem _ hm)
    · intro e; rw [e] at hm; exact q3 hm
  · rw [hst, hinn, if_neg (Ne.symm hvs)]; exact hl.start_inn
  · rw [hsp, hst]; exact hl.stop
  · intro u hu
    rw [hst] at hu
    have hu : u ∉ n.start :: w :: rs.map Prod.fst := hu
    rw [hout, hinn]
    by_cases e : u = v
    · rw [if_pos e, if_pos e]; exact ⟨rfl, rfl⟩
    · rw [if_neg e, if_neg e, if_neg (fun e' => hu (by simp [e']))]
      apply hl.other
      intro hm
      have hm : u ∈ n.start :: v :: w :: rs.map Prod.fst := hm
      rcases List.mem_cons.1 hm with e' | hm
      · exact hu (by simp [e'])
      · rcases List.mem_cons.1 hm with e' | hm
        · exact e e'
        · exact hu (List.mem_cons_of_mem _ hm)
  · intro u hu
    rw [hinn] at hu
    by_cases e : u = v
    · rw [if_pos e] at hu; exact absurd rfl hu
    · rw [if_neg e] at hu; exact hu

theorem delete_only {n : Net W} {v h : Nat} (hl : Lin n [(v, [h])]) :
    (deleteArc n h).stop = none ∧ (deleteArc n h).out n.start = [] ∧ (deleteArc n h).start = n.start := by
  obtain ⟨h1, h2, h3, h4, h5⟩ := Lin.at (pre := []) hl
  have h1 : n.out n.start = [h] := h1
  obtain ⟨hs, hd, hlt⟩ := h5 h (by simp)
  have hs : n.src h = n.start := hs
  have hnd := hl.nodup
  have hnd : [n.start, v].Nodup := hnd
  have hvs : v ≠ n.start := fun e => by rw [e] at hnd; simp at hnd
  have hstop : n.stop = some v := hl.stop
  have hdel : delArc [h] h = [] := by simp [delArc]
  unfold deleteArc
  simp only [hs, hd, h1, h2, hdel, upd_self, if_true, hstop, ne_eq, not_true_eq_false, if_false]
  refine ⟨trivial, ?_, trivial⟩
  rw [upd_ne _ _ _ _ (Ne.symm hvs), upd_self]

theorem filter_only {l : List Nat} {p : Nat → Bool} {h : Nat} (hn : l.Nodup) (hm : h ∈ l)
    (hp : ∀ a ∈ l, (p a = true ↔ a = h)) : l.filter p = [h] := by
  induction l with
  | nil => cases hm
  | cons x l ih =>
    obtain ⟨n1, n2⟩ := List.nodup_cons.1 hn
    have hrest : ∀ {l : List Nat}, (∀ a ∈ l, (p a = true ↔ a = h)) → h ∉ l → l.filter p = [] := by
      intro l hq hnot
      rw [List.filter_eq_nil_iff]
      intro a ha hpa
      exact hnot ((hq a ha).1 hpa ▸ ha)
    by_cases e : x = h
    · have hx : p x = true := (hp x (by simp)).2 e
      rw [List.filter_cons, if_pos hx, hrest (fun a ha => hp a (by simp [ha])) (e ▸ n1), e]
    · have hx : ¬ p x = true := fun hx => e ((hp x (by simp)).1 hx)
      rw [List.filter_cons, if_neg hx]
      rcases List.mem_cons.1 hm with e' | hm
      · exact absurd e'.symm e
      · exact ih n2 hm (fun a ha => hp a (by simp [ha]))

/-- The chain of a network from its bundles. -/
theorem seg_chain {n : Net W} : ∀ (ps : List (Nat × List Nat)) (u : Nat) (slots : List (List W)), Seg n u ps →
    n.out (last u ps) = [] → n.stop = some (last u ps) →
    wordsOf n.data (ps.map Prod.snd) = slots.map (List.map some) → Chain n u slots := by
  intro ps
  induction ps with
  | nil =>
    intro u slots _ h2 h3 h4
    have : slots = [] := by simpa [wordsOf] using h4.symm
    subst this
    exact .stop h3 h2
  | cons p ps ih =>
    intro u slots h1 h2 h3 h4
    cases slots with
    | nil => simp [wordsOf] at h4
    | cons s ss =>
      have h4 : p.2.map n.data :: wordsOf n.data (ps.map Prod.snd) = s.map some :: ss.map (List.map some) := h4
      injection h4 with e1 e2
      obtain ⟨⟨g1, g2, g3, g4, g5⟩, g6⟩ := h1
      refine .slot (v := p.1) ?_ ?_ ?_ (ih p.1 ss g6 h2 h3 e2)
      · intro e; subst e; simp at e1; exact g3 e1
      · rw [g1]; exact e1
      · rw [g1]; intro a ha; exact (g5 a ha).2.1

theorem deleteNull_ok {s : FNet W} {ps : List (Nat × List Nat)} {h : Nat} {SA : List (List Nat)} {slots : List (List W)}
    (hS : Slots s ps h SA) (hh : s.net.data h = none) (hw : wordsOf s.net.data SA = slots.map (List.map some)) :
    ∃ fl, deleteNullArcs s = some ⟨deleteArc s.net h, fl⟩ ∧ IsSlots (deleteArc s.net h) slots ∧
      0 < (deleteArc s.net h).nNodes ∧ (slots ≠ [] → ∃ qs, Lin (deleteArc s.net h) qs ∧ qs.map Prod.snd = SA ∧
        wordsOf (deleteArc s.net h).data SA = slots.map (List.map some) ∧ Even ⟨deleteArc s.net h, fl⟩) := by
  have hwf := hS.lin.wf
  obtain ⟨st, e1, e2, e3, e4, _, e6⟩ := depth_run hwf (fun f _ => f) (fun _ _ => rfl) (fun _ _ => True)
    (fun _ _ _ _ => trivial) s.fl (even_uniform hS.lin hS.even) trivial
  have hstart := hS.lin.start_out hS.eq
  have hlive : ∀ a, a ∈ st.arcs ↔ s.net.Live a := by
    intro a
    rw [e4]
    constructor
    · intro ha
      obtain ⟨v, _, hv⟩ := List.mem_flatMap.1 ha
      exact ⟨v, hv⟩
    · intro ha
      have ho := hwf.live_out ha
      refine List.mem_flatMap.2 ⟨s.net.src a, ?_, ho⟩
      rw [e3, hwf.reach_iff]
      by_cases hs : s.net.src a = s.net.start
      · exact Or.inl hs
      · exact Or.inr (hwf.source _ (List.ne_nil_of_mem ho) hs)
  have hnodup : st.arcs.Nodup := by
    rw [e4]
    unfold List.Nodup
    rw [List.pairwise_flatMap]
    refine ⟨fun v _ => hwf.out_nodup v, ?_⟩
    apply e2.imp
    intro u v huv a ha b hb e
    subst e
    exact huv (by rw [← (hwf.out_ok u a ha).2.1, ← (hwf.out_ok v a hb).2.1])
  have hbund : ∀ a, s.net.Live a → a = h ∨ ∃ A ∈ SA, a ∈ A := by
    intro a ha
    have ho := hwf.live_out ha
    have hi := hwf.live_inn ha
    have hne : s.net.inn (s.net.dst a) ≠ [] := List.ne_nil_of_mem hi
    have hm : s.net.dst a ∈ nodes s.net.start ps := by
      by_cases hm : s.net.dst a ∈ nodes s.net.start ps
      · exact hm
      · exact absurd (hS.lin.other _ hm).2 hne
    rcases List.mem_cons.1 hm with e | hm
    · rw [e] at hne; exact absurd hS.lin.start_inn hne
    · obtain ⟨pre, A, post, e⟩ := pair_split hm
      have hl := hS.lin
      have heq := hS.eq
      rw [e] at hl heq
      rw [hl.at.2.1] at hi
      have hA : A ∈ [h] :: SA := by rw [← heq]; simp
      rcases List.mem_cons.1 hA with e' | hA
      · left; rw [e'] at hi; simpa using hi
      · right; exact ⟨A, hA, hi⟩
  have hdata : ∀ A ∈ SA, ∀ a ∈ A, ∃ w, s.net.data a = some w := by
    intro A hA a ha
    have hm : A.map s.net.data ∈ slots.map (List.map some) := by rw [← hw]; exact List.mem_map_of_mem hA
    obtain ⟨sl, _, e⟩ := List.mem_map.1 hm
    have hx : s.net.data a ∈ sl.map some := by rw [e]; exact List.mem_map_of_mem ha
    obtain ⟨w, _, e⟩ := List.mem_map.1 hx
    exact ⟨w, e.symm⟩
  have hfilter : (st.arcs.filter fun a => (s.net.data a).isNone) = [h] := by
    apply filter_only hnodup
    · rw [hlive]; exact ⟨s.net.start, by rw [hstart]; simp⟩
    · intro a ha
      constructor
      · intro hp
        rcases hbund a ((hlive a).1 ha) with e | ⟨A, hA, haA⟩
        · exact e
        · obtain ⟨w, e⟩ := hdata A hA a haA
          rw [e] at hp; cases hp
      · intro e; rw [e, hh]; rfl
  have hN : 0 < (deleteArc s.net h).nNodes := by
    have h1 : (deleteArc s.net h).nNodes = s.net.nNodes := by
      unfold deleteArc
      simp only
      repeat' split
      all_goals rfl
    have h2 := hS.lin.lt s.net.start (by simp [nodes])
    omega
  refine ⟨st.fl, ?_, ?_⟩
  · unfold deleteNullArcs depthTraverse
    rw [e1]
    simp only
    rw [hfilter]
    rfl
  · obtain ⟨p, qs, e⟩ : ∃ p qs, ps = p :: qs := by
      cases ps with
      | nil => exact absurd rfl hS.lin.ne
      | cons p qs => exact ⟨p, qs, rfl⟩
    subst e
    have heq := hS.eq
    rw [List.map_cons] at heq
    injection heq with ep eq
    have hl : Lin s.net ((p.1, [h]) :: qs) := by rw [← ep]; exact hS.lin
    cases qs with
    | nil =>
      have hSA : SA = [] := by simpa using eq.symm
      subst hSA
      have hsl : slots = [] := by simpa [wordsOf] using hw.symm
      subst hsl
      obtain ⟨k1, k2, k3⟩ := delete_only hl
      exact ⟨⟨k1, by rw [k3]; exact k2⟩, hN, fun hne => absurd rfl hne⟩
    | cons q rs =>
      obtain ⟨k1, k2, k3, k4⟩ := delete_head (w := q.1) (B := q.2) hl
      have hw' : wordsOf (deleteArc s.net h).data (((q.1, q.2) :: rs).map Prod.snd) = slots.map (List.map some) := by
        rw [k2, ← hw, ← eq]
      have hsl : slots ≠ [] := by
        intro e; subst e; simp [wordsOf] at hw'
      refine ⟨?_, hN, fun _ => ⟨_, k1, eq, by rw [← eq]; exact hw', ?_⟩⟩
      · have hc := seg_chain _ _ slots k1.seg k1.fin k1.stop hw'
        cases slots with
        | nil => exact absurd rfl hsl
        | cons a b => exact hc
      · intro u hu
        show st.fl.flag2 u = st.fl.flag2 (deleteArc s.net h).start
        rw [k3, e6 u ((hwf.reach_iff u).2 (Or.inr (k4 u hu))), e6 _ .start]

/-- The combination of at least one system. -/
theorem dpalignN_ok (F : Funcs W) (null : W) (t0 : Nat → Table) (m : Int) (systems : List (List W))
    (hne : systems ≠ []) (hsize : total systems * systems.length < 65534)
    (hm : F.Below m (total systems * systems.length + total systems)) :
    ∃ r slots table, dpalignN F null t0 (systems.map sysNet) = some r ∧ IsSlots r.net slots ∧
      Placed null systems slots table ∧ 0 < r.net.nNodes ∧ (slots ≠ [] → ∃ qs, Lin r.net qs ∧
        wordsOf r.net.data (qs.map Prod.snd) = slots.map (List.map some) ∧ Even r) := by
  cases systems with
  | nil => exact absurd rfl hne
  | cons ws rest =>
    obtain ⟨ps, h, SA, g1, g2, g3, g4⟩ := sys_slots ws
    have hslots : wordsOf (sysNet ws).addHead.net.data SA = (ws.map fun w => [w]).map (List.map some) := by
      rw [g2]; simp
    obtain ⟨s', ps', SA', slots, t', i1, i2, i3, i4, i5, i6⟩ := combineAll_ok F null t0 (m := m) rest [ws]
      (sysNet ws).addHead ps SA (ws.map fun w => [w]) (ws.map fun w => [some w]) g1 g4 hslots (fits_single null ws) (by
        intro j vs hj
        cases j with
        | zero => simp at hj; subst hj; exact col_single ws
        | succ j => simp at hj) (by simp [total]) hsize (by simp) hm
    obtain ⟨fl, k1, k2, kN, k3⟩ := deleteNull_ok i2 i3 i4
    refine ⟨⟨deleteArc s'.net h, fl⟩, slots, t', ?_, k2, fits_placed i5 i6, kN, ?_⟩
    · rw [List.map_cons]
      show (match combineAll F null t0 1 (sysNet ws).addHead ((rest.map sysNet).map FNet.addHead) with
        | none => none
        | some r => deleteNullArcs r) = _
      rw [List.map_map]
      have e : combineAll F null t0 1 (sysNet ws).addHead (rest.map (FNet.addHead ∘ sysNet)) = some s' := i1
      rw [e]
      exact k1
    · intro hs
      obtain ⟨qs, l1, l2, l3, l4⟩ := k3 hs
      exact ⟨qs, l1, by rw [l2]; exact l3, l4⟩

end Verif.Rover
