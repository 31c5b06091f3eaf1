import Verif.Infer.Spec
import Verif.Net.Traverse
/-!
# The breadth-first traversal visits every arc
-/
set_option autoImplicit false
namespace Verif.Infer
open Verif.Net Verif.CharNet
variable {W : Type}

/-- Invariant of the loop: `done` are the nodes handled so far. -/
structure BInv (n : Net W) (cur : Bool) (done : List Nat) (vis : Nat → Bool) (fringe : List Nat) : Prop where
  flags : ∀ u, n.Reach u → (vis u ≠ cur ↔ u ∈ done ++ fringe)
  nodup : (done ++ fringe).Nodup
  reach : ∀ u, u ∈ done ++ fringe → n.Reach u

theorem push_spec {n : Net W} {cur : Bool} {done : List Nat} : ∀ (ws : List Nat) (vis : Nat → Bool) (fringe : List Nat),
    BInv n cur done vis fringe → (∀ w ∈ ws, n.Reach w) →
    ∃ vis' fringe', ws.foldl (pushTail cur) (vis, fringe) = (vis', fringe') ∧ BInv n cur done vis' fringe' ∧
      (∀ u, u ∈ fringe → u ∈ fringe') ∧ ∀ w ∈ ws, w ∈ done ++ fringe' := by
  intro ws
  induction ws with
  | nil => intro vis fringe h _; exact ⟨vis, fringe, rfl, h, fun _ h => h, fun w hw => by cases hw⟩
  | cons w ws ih =>
    intro vis fringe h hr
    rw [List.foldl_cons]
    have hrw := hr w (by simp)
    by_cases hv : vis w ≠ cur
    · have e : pushTail cur (vis, fringe) w = (vis, fringe) := if_pos hv
      rw [e]
      obtain ⟨vis', fringe', a1, a2, a3, a4⟩ := ih vis fringe h (fun u hu => hr u (by simp [hu]))
      refine ⟨vis', fringe', a1, a2, a3, ?_⟩
      intro u hu
      rcases List.mem_cons.1 hu with e | hu
      · subst e
        rcases List.mem_append.1 ((h.flags u hrw).1 hv) with h1 | h1
        · exact List.mem_append_left _ h1
        · exact List.mem_append_right _ (a3 u h1)
      · exact a4 u hu
    · have e : pushTail cur (vis, fringe) w = (upd vis w (!vis w), fringe ++ [w]) := if_neg hv
      rw [e]
      have hcur : vis w = cur := Decidable.not_not.1 hv
      have hnot : w ∉ done ++ fringe := fun hm => hv ((h.flags w hrw).2 hm)
      have h' : BInv n cur done (upd vis w (!vis w)) (fringe ++ [w]) := by
        refine ⟨?_, ?_, ?_⟩
        · intro u hu
          by_cases hue : u = w
          · subst hue
            rw [upd_self, hcur]
            simp
          · rw [upd_ne _ _ _ _ hue, h.flags u hu]
            simp [hue]
        · rw [← List.append_assoc, List.nodup_append]
          refine ⟨h.nodup, by simp, ?_⟩
          intro a ha b hb
          rw [List.mem_singleton.1 hb]
          exact fun e => hnot (e ▸ ha)
        · intro u hu
          rw [← List.append_assoc] at hu
          rcases List.mem_append.1 hu with hu | hu
          · exact h.reach u hu
          · rw [List.mem_singleton.1 hu]; exact hrw
      obtain ⟨vis', fringe', a1, a2, a3, a4⟩ := ih _ _ h' (fun u hu => hr u (by simp [hu]))
      refine ⟨vis', fringe', a1, a2, fun u hu => a3 u (by simp [hu]), ?_⟩
      intro u hu
      rcases List.mem_cons.1 hu with e | hu
      · subst e
        exact List.mem_append_right _ (a3 u (by simp))
      · exact a4 u hu

theorem breadth_loop {n : Net W} {rank : Nat → Nat} (hw : n.WF rank) (cur : Bool) : ∀ (fuel : Nat) (done : List Nat) (vis : Nat → Bool)
    (fringe : List Nat), BInv n cur done vis fringe → (∀ v ∈ done, ∀ a ∈ n.out v, n.dst a ∈ done ++ fringe) →
    n.nNodes ≤ done.length + fuel →
    ∃ vis' nodes, breadthLoop n cur fuel vis fringe = some (vis', nodes.flatMap n.out) ∧ BInv n cur (done ++ nodes) vis' [] ∧
      (∀ u, u ∈ fringe → u ∈ nodes) ∧ (∀ v ∈ done ++ nodes, ∀ a ∈ n.out v, n.dst a ∈ done ++ nodes) := by
  intro fuel
  induction fuel with
  | zero =>
    intro done vis fringe h hc hl
    have hb : (done ++ fringe).length ≤ n.nNodes := nodup_bound h.nodup (fun u hu => hw.reach_lt (h.reach u hu))
    have hf : fringe = [] := by
      rw [List.length_append] at hb
      exact List.length_eq_zero_iff.1 (by omega)
    subst hf
    refine ⟨vis, [], by unfold breadthLoop; rfl, by simpa using h, fun _ hu => (List.not_mem_nil hu).elim, by simpa using hc⟩
  | succ fuel ih =>
    intro done vis fringe h hc hl
    cases fringe with
    | nil => exact ⟨vis, [], by unfold breadthLoop; rfl, by simpa using h, fun _ hu => (List.not_mem_nil hu).elim, by simpa using hc⟩
    | cons v rest =>
      unfold breadthLoop
      have hv : n.Reach v := h.reach v (by simp)
      have h1 : BInv n cur (done ++ [v]) vis rest := by
        refine ⟨?_, ?_, ?_⟩
        · intro u hu; rw [h.flags u hu]; simp
        · have := h.nodup; simpa using this
        · intro u hu; exact h.reach u (by simpa using hu)
      obtain ⟨vis', fringe', a1, a2, a3, a4⟩ := push_spec ((n.out v).map n.dst) vis rest h1 (by
        intro w hw'
        obtain ⟨a, ha, rfl⟩ := List.mem_map.1 hw'
        exact .step v a hv ha)
      rw [a1]
      dsimp only
      obtain ⟨vis2, nodes, b1, b2, b3, b4⟩ := ih (done ++ [v]) vis' fringe' a2 (by
        intro w hw' a ha
        rcases List.mem_append.1 hw' with hw' | hw'
        · have := hc w hw' a ha
          simp only [List.mem_append, List.mem_cons, List.not_mem_nil, or_false] at this ⊢
          rcases this with h | h | h
          · exact Or.inl (Or.inl h)
          · exact Or.inl (Or.inr h)
          · exact Or.inr (a3 _ h)
        · rw [List.mem_singleton.1 hw'] at ha
          exact a4 _ (List.mem_map.2 ⟨a, ha, rfl⟩)) (by simp only [List.length_append, List.length_cons, List.length_nil]; omega)
      rw [b1]
      refine ⟨vis2, v :: nodes, rfl, by simpa using b2, ?_, by simpa using b4⟩
      intro u hu
      rcases List.mem_cons.1 hu with e | hu
      · rw [e]; simp
      · exact List.mem_cons_of_mem _ (b3 u (a3 u hu))

/-- The traversal ends, delivers exactly the arcs of the network and leaves the visited bits uniform. -/
theorem breadth_spec {n : Net W} {rank : Nat → Nat} (hw : n.WF rank) (vis : Nat → Bool) (hu : ∀ v, n.Reach v → vis v = vis n.start) :
    ∃ vis' arcs, breadthArcs n vis = some (vis', arcs) ∧ (∀ a, a ∈ arcs ↔ ∃ v, a ∈ n.out v) ∧
      ∀ v, n.Reach v → vis' v = !vis n.start := by
  have h0 : BInv n (vis n.start) [] (upd vis n.start (!vis n.start)) [n.start] := by
    refine ⟨?_, by simp, ?_⟩
    · intro u hr
      by_cases e : u = n.start
      · subst e; rw [upd_self]; simp
      · rw [upd_ne _ _ _ _ e, hu u hr]; simp [e]
    · intro u h
      rw [List.mem_singleton.1 h]; exact .start
  obtain ⟨vis', nodes, b1, b2, b3, b4⟩ := breadth_loop hw (vis n.start) n.nNodes [] _ _ h0 (fun v hv => by cases hv) (by simp)
  have hall : ∀ v, n.Reach v → v ∈ nodes := by
    intro v hr
    induction hr with
    | start => exact b3 _ (by simp)
    | step v a _ ha ih => have := b4 v (by simpa using ih) a ha; simpa using this
  refine ⟨vis', nodes.flatMap n.out, b1, ?_, ?_⟩
  · intro a
    rw [List.mem_flatMap]
    constructor
    · rintro ⟨v, _, h⟩; exact ⟨v, h⟩
    · rintro ⟨v, h⟩
      refine ⟨v, hall v ?_, h⟩
      by_cases e : v = n.start
      · rw [e]; exact .start
      · exact (hw.reach_iff v).2 (Or.inr (hw.source v (List.ne_nil_of_mem h) e))
  · intro v hr
    have := (b2.flags v hr).2 (by simpa using hall v hr)
    cases h1 : vis' v <;> cases h2 : vis n.start <;> simp_all

end Verif.Infer
