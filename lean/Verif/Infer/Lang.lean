import Verif.Infer.Rec
import Verif.Infer.Breadth
/-!
# Connecting a network: what it produces afterwards
-/
set_option autoImplicit false
namespace Verif.Infer
open Verif.Net Verif.CharNet
variable {W : Type}

theorem Ext.refl {app : W → W → Option W} {test : W → Option Bool} {Fit : List W → Prop} {J : List W → W → Prop} {C : List W → Prop}
    (hJ : Joins app test Fit J C) {rank : Nat → Nat} {n0 : Net W} (hB : Base Fit rank n0) : Ext J C rank n0 n0 := by
  refine ⟨hB.wf, rfl, rfl, rfl, fun v a h => ⟨h, rfl, rfl⟩, ?_⟩
  intro v a h
  obtain ⟨w, hw⟩ := hB.words v a h
  have hwalk : n0.Walk v [a] (n0.dst a) := .cons _ _ _ _ h (.nil _)
  have hwords : [a].map n0.data = [w].map some := by simp [hw]
  exact ⟨[a], [w], w, hwalk, hwords, hw, hJ.one w (hB.fit _ _ _ _ hwalk hwords (by simp)), Or.inl rfl⟩

/-- What a run may be replaced by. -/
def Made (J : List W → W → Prop) (C : List W → Prop) (run : List W) (y : W) : Prop := J run y ∧ (run = [y] ∨ (2 ≤ run.length ∧ C run))

theorem ext_words {J : List W → W → Prop} {C : List W → Prop} {rank : Nat → Nat} {n0 n : Net W} (h : Ext J C rank n0 n) : n.Words := by
  intro v a ha
  obtain ⟨_, _, d, _, _, h3, _⟩ := h.made v a ha
  exact ⟨d, h3⟩

theorem ext_sound {J : List W → W → Prop} {C : List W → Prop} {rank : Nat → Nat} {n0 n : Net W} (h : Ext J C rank n0 n)
    {v w : Nat} {p : List Nat} (hp : n.Walk v p w) : ∀ ws' : List W, p.map n.data = ws'.map some →
      ∃ p0 ws, n0.Walk v p0 w ∧ p0.map n0.data = ws.map some ∧ Cuts (Made J C) ws ws' := by
  induction hp with
  | nil v =>
    intro ws' hw
    cases ws' with
    | nil => exact ⟨[], [], .nil _, rfl, .nil⟩
    | cons y ys => cases hw
  | cons v a p w ha _ ih =>
    intro ws' hw
    cases ws' with
    | nil => cases hw
    | cons y ys =>
      rw [List.map_cons, List.map_cons] at hw
      injection hw with hy hw
      obtain ⟨p0, ws, h1, h2, h3⟩ := ih ys hw
      obtain ⟨q, run, d, g1, g2, g3, g4, g5⟩ := h.made v a ha
      rw [hy] at g3
      cases g3
      exact ⟨q ++ p0, run ++ ws, walk_append g1 h1, by rw [List.map_append, List.map_append, g2, h2], .cons _ _ _ _ ⟨g4, g5⟩ h3⟩

/-- What is sure to be there for a run. -/
def Offered (app : W → W → Option W) (test : W → Option Bool) (k : Nat) (run : List W) (y : W) : Prop :=
  run = [y] ∨ ∃ x ds, run = x :: ds ∧ ds ≠ [] ∧ ds.length ≤ k - 1 ∧ ds.foldlM app x = some y ∧ test y = some true

theorem walk_split {n : Net W} : ∀ (xs ys : List W) (v : Nat) (p : List Nat) (w : Nat), n.Walk v p w → p.map n.data = (xs ++ ys).map some →
    ∃ u q r, n.Walk v q u ∧ n.Walk u r w ∧ q.map n.data = xs.map some ∧ r.map n.data = ys.map some := by
  intro xs
  induction xs with
  | nil => intro ys v p w h hd; exact ⟨v, [], p, .nil _, h, rfl, hd⟩
  | cons x xs ih =>
    intro ys v p w h hd
    cases h with
    | nil => cases hd
    | cons _ b q' _ hbo hq' =>
      rw [List.map_cons, List.cons_append, List.map_cons] at hd
      injection hd with h1 h2
      obtain ⟨u, q, r, g1, g2, g3, g4⟩ := ih ys _ _ _ hq' h2
      exact ⟨u, b :: q, r, .cons _ _ _ _ hbo g1, g2, by rw [List.map_cons, List.map_cons, h1, g3], g4⟩

theorem ext_complete {app : W → W → Option W} {test : W → Option Bool} {J : List W → W → Prop} {C : List W → Prop} {rank : Nat → Nat}
    {n0 n : Net W} (h : Ext J C rank n0 n) {k : Nat}
    (hA : ∀ a v y, a ∈ n0.out v → n0.data a = some y → Added app test n0 n v (n0.dst a) y (k - 1)) {ws ws' : List W}
    (hc : Cuts (Offered app test k) ws ws') : ∀ (v w : Nat) (p : List Nat), n0.Walk v p w → p.map n0.data = ws.map some →
      ∃ p', n.Walk v p' w ∧ p'.map n.data = ws'.map some := by
  induction hc with
  | nil =>
    intro v w p hp hd
    cases p with
    | nil => cases hp; exact ⟨[], .nil _, rfl⟩
    | cons a p => cases hd
  | cons run y xs ys hr _ ih =>
    intro v w p hp hd
    obtain ⟨u, q, r, g1, g2, g3, g4⟩ := walk_split run xs v p w hp hd
    obtain ⟨p', k1, k2⟩ := ih u w r g2 g4
    have key : ∃ a, a ∈ n.out v ∧ n.dst a = u ∧ n.data a = some y := by
      rcases hr with e | ⟨x, ds, e, hne, hl, hf, ht⟩
      · subst e
        cases g1 with
        | nil => cases g3
        | cons _ b q' _ hbo hq' =>
          rw [List.map_cons, List.map_cons] at g3
          injection g3 with h1 h2
          cases q' with
          | cons c q' => cases h2
          | nil =>
            cases hq'
            obtain ⟨o1, o2, o3⟩ := h.old v b hbo
            exact ⟨b, o1, o2, o3.trans h1⟩
      · subst e
        cases g1 with
        | nil => cases g3
        | cons _ b q' _ hbo hq' =>
          rw [List.map_cons, List.map_cons] at g3
          injection g3 with h1 h2
          have hlen : q'.length = ds.length := by have := congrArg List.length h2; simpa using this
          exact hA b v x hbo h1 q' u ds y hq' (by intro e; subst e; cases ds with
            | nil => exact hne rfl
            | cons _ _ => cases h2) (by omega) h2 hf ht
    obtain ⟨a, a1, a2, a3⟩ := key
    exact ⟨a :: p', .cons _ _ _ _ a1 (by rw [a2]; exact k1), by rw [List.map_cons, List.map_cons, a3, k2]⟩

theorem walk_reach {n : Net W} {v w : Nat} {p : List Nat} (h : n.Walk v p w) (hr : n.Reach v) : n.Reach w := by
  induction h with
  | nil v => exact hr
  | cons v a p w ha _ ih => exact ih (.step v a hr ha)

theorem ext_reach {J : List W → W → Prop} {C : List W → Prop} {rank : Nat → Nat} {n0 n : Net W} (h : Ext J C rank n0 n) (v : Nat)
    (hr : n.Reach v) : n0.Reach v := by
  induction hr with
  | start => rw [h.start]; exact .start
  | step v a _ ha ih =>
    obtain ⟨p, _, _, hp, _⟩ := h.made v a ha
    exact walk_reach hp ih

/-- Connecting a network ends, keeps all arcs, and says exactly what is produced afterwards. -/
theorem fullyConnect_spec {app : W → W → Option W} {test : W → Option Bool} {Fit : List W → Prop} {J : List W → W → Prop} {C : List W → Prop}
    (hJ : Joins app test Fit J C) {rank : Nat → Nat} (b : CNet W) (hB : Base Fit rank b.net)
    (hu : ∀ v, b.net.Reach v → b.vis v = b.vis b.net.start) (k : Nat) :
    ∃ b', fullyConnect app test k b = some b' ∧ Ext J C rank b.net b'.net ∧ (∀ v, b'.net.Reach v → b'.vis v = b'.vis b'.net.start) ∧
      (∀ ws', b'.net.Produces ws' → ∃ ws, b.net.Produces ws ∧ Cuts (Made J C) ws ws') ∧
      (∀ ws ws', b.net.Produces ws → Cuts (Offered app test k) ws ws' → b'.net.Produces ws') := by
  obtain ⟨vis', arcs, h1, h2, h3⟩ := breadth_spec hB.wf b.vis hu
  obtain ⟨n', g1, g2, _, g4⟩ := connect_spec hJ hB k arcs b.net (fun a ha => (h2 a).1 ha) (Ext.refl hJ hB)
  have hA : ∀ a v y, a ∈ b.net.out v → b.net.data a = some y → Added app test b.net n' v (b.net.dst a) y (k - 1) :=
    fun a v y ha hy => g4 a ((h2 a).2 ⟨v, ha⟩) v y ha hy
  refine ⟨⟨n', vis'⟩, by unfold fullyConnect; rw [h1]; dsimp only; rw [g1]; rfl, g2, ?_, ?_, ?_⟩
  · intro v hr
    show vis' v = vis' n'.start
    rw [h3 v (ext_reach g2 v hr), h3 n'.start (ext_reach g2 _ .start)]
  · intro ws' hp
    unfold Net.Produces at hp ⊢
    rw [g2.stop] at hp
    cases hs : b.net.stop with
    | none => rw [hs] at hp; subst hp; exact ⟨[], rfl, .nil⟩
    | some s =>
      rw [hs] at hp
      obtain ⟨p, hw, hd⟩ := hp
      rw [g2.start] at hw
      obtain ⟨p0, ws, k1, k2, k3⟩ := ext_sound g2 hw ws' hd
      exact ⟨ws, ⟨p0, k1, k2⟩, k3⟩
  · intro ws ws' hp hc
    unfold Net.Produces at hp ⊢
    rw [g2.stop]
    cases hs : b.net.stop with
    | none =>
      rw [hs] at hp
      have hp : ws = [] := hp
      subst hp
      show ws' = []
      generalize he : ([] : List W) = l at hc
      cases hc with
      | nil => rfl
      | cons run y xs ys hr hc =>
        rcases hr with e | ⟨x, ds, e, _⟩
        · rw [e] at he; cases he
        · rw [e] at he; cases he
    | some s =>
      rw [hs] at hp
      obtain ⟨p, hw, hd⟩ := hp
      obtain ⟨p', k1, k2⟩ := ext_complete g2 hA hc _ _ _ hw hd
      exact ⟨p', by rw [g2.start]; exact k1, k2⟩

end Verif.Infer
