import Verif.Infer.Connect
/-!
# Connecting a network: the recursion and the loop over the arcs
-/
set_option autoImplicit false
namespace Verif.Infer
open Verif.Net Verif.CharNet
variable {W : Type}

/-- The network that is connected. -/
structure Base (Fit : List W → Prop) (rank : Nat → Nat) (n0 : Net W) : Prop where
  wf : n0.WF rank
  fit : ∀ v p w ws, n0.Walk v p w → p.map n0.data = ws.map some → p ≠ [] → Fit ws
  words : n0.Words

/-- What is added for the joins of `value` with what follows node `v`. -/
def Added (app : W → W → Option W) (test : W → Option Bool) (n0 n' : Net W) (u v : Nat) (value : W) (k : Nat) : Prop :=
  ∀ (q : List Nat) (w : Nat) (ds : List W) (d : W), n0.Walk v q w → q ≠ [] → q.length ≤ k → q.map n0.data = ds.map some → ds.foldlM app value = some d →
    test d = some true → ∃ a, a ∈ n'.out u ∧ n'.dst a = w ∧ n'.data a = some d

theorem Added.mono {app : W → W → Option W} {test : W → Option Bool} {n0 n n' : Net W} {u v k : Nat} {value : W}
    (h : Added app test n0 n u v value k) (g : Grow n n') : Added app test n0 n' u v value k := by
  intro q w ds d h1 h2 h3 h4 h5 h6
  obtain ⟨a, a1, a2, a3⟩ := h q w ds d h1 h2 h3 h4 h5 h6
  obtain ⟨b1, b2, b3, _⟩ := g u a a1
  exact ⟨a, b1, b2.trans a2, b3.trans a3⟩

/-- Added for the arcs in a list. -/
def AddedFor (app : W → W → Option W) (test : W → Option Bool) (n0 n' : Net W) (u v : Nat) (value : W) (k : Nat) (l : List Nat) : Prop :=
  ∀ b, b ∈ l → b ∈ n0.out v → ∀ y x, n0.data b = some y → app value y = some x →
    (test x = some true → ∃ a, a ∈ n'.out u ∧ n'.dst a = n0.dst b ∧ n'.data a = some x) ∧ Added app test n0 n' u (n0.dst b) x k

theorem rec_spec {app : W → W → Option W} {test : W → Option Bool} {Fit : List W → Prop} {J : List W → W → Prop} {C : List W → Prop}
    (hJ : Joins app test Fit J C) {rank : Nat → Nat} {n0 : Net W} (hB : Base Fit rank n0) (u base : Nat) :
    ∀ (k c : Nat) (value : W) (n : Net W) (p0 : List Nat) (ws0 : List W), Ext J C rank n0 n → base ∈ n.out u →
      n0.Walk u p0 (n.dst c) → p0.map n0.data = ws0.map some → ws0 ≠ [] → J ws0 value →
      ∃ n', recConnect app test base k c value n = some n' ∧ Ext J C rank n0 n' ∧ Grow n n' ∧ (∀ w, w ≠ u → n'.out w = n.out w) ∧
        Added app test n0 n' u (n.dst c) value k := by
  intro k
  induction k with
  | zero =>
    intro c value n p0 ws0 hE hb hp hd hne hj
    refine ⟨n, rfl, hE, Grow.refl n, fun _ _ => rfl, ?_⟩
    intro q w ds d _ h2 h3
    exact absurd (List.length_eq_zero_iff.1 (by omega)) h2
  | succ k ih =>
    intro c value n p0 ws0 hE hb hp hd hne hj
    rw [recConnect]
    generalize hv : n.dst c = v at hp
    have loop : ∀ (l : List Nat) (m : Net W), (∀ a ∈ l, a ∈ n.out v) → Ext J C rank n0 m → Grow n m → (∀ w, w ≠ u → m.out w = n.out w) →
        ∃ n', l.foldlM (fun m a =>
          match m.data a with
          | none => none
          | some d =>
            match app value d with
            | none => none
            | some x =>
              match test x with
              | none => none
              | some pass =>
                recConnect app test base k a x
                  (if pass then m.insertBetween (m.src base) (m.dst a) (some x) else m)) m = some n' ∧ Ext J C rank n0 n' ∧
          Grow m n' ∧ (∀ w, w ≠ u → n'.out w = n.out w) ∧ AddedFor app test n0 n' u v value k l := by
      intro l
      induction l with
      | nil =>
        intro m _ hm _ ho
        exact ⟨m, rfl, hm, Grow.refl m, ho, fun b hb => by cases hb⟩
      | cons a l ihl =>
        intro m hl hm hg ho
        rw [List.foldlM_cons]
        obtain ⟨g1, g2, g3, g4⟩ := hg v a (hl a (by simp))
        obtain ⟨q0, ds, d, w1, w2, w3, w4, w5⟩ := hm.made v a g1
        have hsrc : m.src base = u := by
          obtain ⟨b1, _⟩ := hg u base hb
          exact (hm.wf.out_ok u base b1).2.1
        have hwalk := walk_append hp w1
        have hwords : (p0 ++ q0).map n0.data = (ws0 ++ ds).map some := by
          rw [List.map_append, List.map_append, hd, w2]
        have hpne : p0 ++ q0 ≠ [] := by
          intro e
          rw [e] at hwords
          cases ws0 with
          | nil => exact hne rfl
          | cons x xs => simp at hwords
        have hfit := hB.fit _ _ _ _ hwalk hwords hpne
        obtain ⟨x, hx, hxj⟩ := hJ.app ws0 ds value d hfit hj w4
        obtain ⟨pass, ht, hpass⟩ := hJ.test _ x hfit hxj
        simp only [w3, hx, ht]
        have hdsne : ds ≠ [] := by
          rcases w5 with h | ⟨h, _⟩
          · rw [h]; simp
          · intro e; rw [e] at h; simp at h
        have hlen2 : 2 ≤ (ws0 ++ ds).length := by
          have h1 : 0 < ws0.length := List.length_pos_iff.2 hne
          have h2 : 0 < ds.length := List.length_pos_iff.2 hdsne
          simp only [List.length_append]
          omega
        -- the network after the possible insertion
        have step : ∃ m1, (if pass then m.insertBetween (m.src base) (m.dst a) (some x) else m) = m1 ∧ Ext J C rank n0 m1 ∧ Grow m m1 ∧
            (∀ w, w ≠ u → m1.out w = m.out w) ∧ (pass = true → ∃ b, b ∈ m1.out u ∧ m1.dst b = m.dst a ∧ m1.data b = some x) := by
          cases pass with
          | false => exact ⟨m, rfl, hm, Grow.refl m, fun _ _ => rfl, fun h => by cases h⟩
          | true =>
            obtain ⟨e1, e2, e3, e4⟩ := ext_insert hB.wf hm hwalk hwords hlen2 hxj (hpass.1 rfl)
            rw [hsrc]
            exact ⟨_, rfl, e1, e2, e3, fun _ => e4⟩
        obtain ⟨m1, e0, e1, e2, e3, e4⟩ := step
        rw [e0]
        have hdst : m1.dst a = m.dst a := (e2 v a g1).2.1
        obtain ⟨m2, f1, f2, f3, f4, f5⟩ := ih a x m1 (p0 ++ q0) (ws0 ++ ds) e1
          (e2 u base (hg u base hb).1).1 (by rw [hdst]; exact hwalk) hwords (by intro e; rw [e] at hlen2; simp at hlen2) hxj
        rw [f1]
        obtain ⟨n', r1, r2, r3, r4, r5⟩ := ihl m2 (fun b hb' => hl b (by simp [hb'])) f2 (hg.trans (e2.trans f3))
          (fun w hw => by rw [f4 w hw, e3 w hw, ho w hw])
        refine ⟨n', r1, r2, e2.trans (f3.trans r3), r4, ?_⟩
        intro b hb' hbo y z hy hz
        rcases List.mem_cons.1 hb' with e | hb'
        · subst e
          obtain ⟨o1, o2, o3⟩ := hm.old v b hbo
          have hyd : y = d := by rw [w3, hy] at o3; exact (Option.some.inj o3).symm
          subst hyd
          rw [hx] at hz
          cases hz
          refine ⟨?_, ?_⟩
          · intro htrue
            rw [ht] at htrue
            obtain ⟨b', b1, b2, b3⟩ := e4 (Option.some.inj htrue)
            obtain ⟨c1, c2, c3, _⟩ := f3 u b' b1
            obtain ⟨d1, d2, d3, _⟩ := r3 u b' c1
            exact ⟨b', d1, by rw [d2, c2, b2, o2], by rw [d3, c3, b3]⟩
          · have : m1.dst b = n0.dst b := by rw [hdst, o2]
            rw [this] at f5
            exact f5.mono r3
        · exact r5 b hb' hbo y z hy hz
    obtain ⟨n', r1, r2, r3, r4, r5⟩ := loop (n.out v) n (fun _ h => h) hE (Grow.refl n) (fun _ _ => rfl)
    refine ⟨n', r1, r2, r3, r4, ?_⟩
    intro q w ds d hq hqne hql hqd hf ht
    cases hq with
    | nil => exact absurd rfl hqne
    | cons _ b q' _ hbo hq' =>
      cases ds with
      | nil => cases hqd
      | cons y ds =>
        rw [List.map_cons, List.map_cons] at hqd
        injection hqd with hy hqd
        rw [List.foldlM_cons] at hf
        cases hx : app value y with
        | none => rw [hx] at hf; cases hf
        | some x =>
          rw [hx] at hf
          have hf : ds.foldlM app x = some d := hf
          obtain ⟨k1, k2⟩ := r5 b (hE.old v b hbo).1 hbo y x hy hx
          cases ds with
          | nil =>
            have hd' : x = d := Option.some.inj hf
            subst hd'
            cases q' with
            | cons c q' => cases hqd
            | nil => cases hq'; exact k1 ht
          | cons y' ds =>
            refine k2 q' w (y' :: ds) d hq' ?_ (by simp only [List.length_cons] at hql; omega) hqd hf ht
            intro e; subst e; cases hqd

theorem connect_spec {app : W → W → Option W} {test : W → Option Bool} {Fit : List W → Prop} {J : List W → W → Prop} {C : List W → Prop}
    (hJ : Joins app test Fit J C) {rank : Nat → Nat} {n0 : Net W} (hB : Base Fit rank n0) (k : Nat) :
    ∀ (arcs : List Nat) (n : Net W), (∀ a ∈ arcs, ∃ v, a ∈ n0.out v) → Ext J C rank n0 n →
      ∃ n', connectArcs app test k arcs n = some n' ∧ Ext J C rank n0 n' ∧ Grow n n' ∧
        ∀ a ∈ arcs, ∀ v y, a ∈ n0.out v → n0.data a = some y → Added app test n0 n' v (n0.dst a) y (k - 1) := by
  intro arcs
  induction arcs with
  | nil => intro n _ h; exact ⟨n, rfl, h, Grow.refl n, fun a ha => by cases ha⟩
  | cons a arcs ih =>
    intro n hl h
    unfold connectArcs
    rw [List.foldlM_cons]
    obtain ⟨v, hv⟩ := hl a (by simp)
    obtain ⟨w, hw⟩ := hB.words v a hv
    obtain ⟨o1, o2, o3⟩ := h.old v a hv
    rw [o3, hw]
    dsimp only
    have hwalk : n0.Walk v [a] (n.dst a) := by rw [o2]; exact .cons _ _ _ _ hv (.nil _)
    have hwords : [a].map n0.data = [w].map some := by simp [hw]
    obtain ⟨n1, r1, r2, r3, _, r5⟩ := rec_spec hJ hB v a (k - 1) a w n [a] [w] h o1 hwalk hwords (by simp)
      (hJ.one w (hB.fit _ _ _ _ hwalk hwords (by simp)))
    rw [r1]
    obtain ⟨n', s1, s2, s3, s4⟩ := ih n1 (fun b hb => hl b (by simp [hb])) r2
    refine ⟨n', s1, s2, r3.trans s3, ?_⟩
    intro b hb v' y hbv hy
    rcases List.mem_cons.1 hb with e | hb
    · subst e
      have e1 : v' = v := by rw [← (hB.wf.out_ok _ _ hbv).2.1, ← (hB.wf.out_ok _ _ hv).2.1]
      subst e1
      rw [hw] at hy
      cases hy
      rw [o2] at r5
      exact r5.mono s3
    · exact s4 b hb v' y hbv hy

end Verif.Infer
