import Verif.Net.Build
import Verif.Rover.Model
/-!
# Networks that are a chain of nodes joined by bundles of arcs
-/
set_option autoImplicit false
namespace Verif.Rover
open Verif.Net
variable {W : Type}

/-- Bundles of arcs leading on from node `u`, each given with the node it leads to. -/
def Seg (n : Net W) : Nat → List (Nat × List Nat) → Prop
  | _, [] => True
  | u, (v, A) :: ps => (n.out u = A ∧ n.inn v = A ∧ A ≠ [] ∧ A.Nodup ∧
      ∀ a ∈ A, n.src a = u ∧ n.dst a = v ∧ a < n.nArcs) ∧ Seg n v ps

/-- Where the bundles end. -/
def last : Nat → List (Nat × List Nat) → Nat
  | u, [] => u
  | _, (v, _) :: ps => last v ps

/-- The nodes. -/
def nodes (u : Nat) (ps : List (Nat × List Nat)) : List Nat := u :: ps.map Prod.fst

structure Lin (n : Net W) (ps : List (Nat × List Nat)) : Prop where
  ne : ps ≠ []
  seg : Seg n n.start ps
  nodup : (nodes n.start ps).Nodup
  lt : ∀ v ∈ nodes n.start ps, v < n.nNodes
  fin : n.out (last n.start ps) = []
  start_inn : n.inn n.start = []
  stop : n.stop = some (last n.start ps)
  other : ∀ v, v ∉ nodes n.start ps → n.out v = [] ∧ n.inn v = []

theorem last_append (u : Nat) (ps qs : List (Nat × List Nat)) : last u (ps ++ qs) = last (last u ps) qs := by
  induction ps generalizing u with
  | nil => rfl
  | cons p ps ih => exact ih p.1

theorem seg_append (n : Net W) (u : Nat) (ps qs : List (Nat × List Nat)) :
    Seg n u (ps ++ qs) ↔ Seg n u ps ∧ Seg n (last u ps) qs := by
  induction ps generalizing u with
  | nil => simp [Seg, last]
  | cons p ps ih =>
    show _ ∧ Seg n p.1 (ps ++ qs) ↔ (_ ∧ Seg n p.1 ps) ∧ Seg n (last p.1 ps) qs
    rw [ih]
    exact and_assoc.symm

theorem last_mem (u : Nat) (ps : List (Nat × List Nat)) : last u ps ∈ nodes u ps := by
  induction ps generalizing u with
  | nil => simp [last, nodes]
  | cons p ps ih =>
    have := ih p.1
    show last p.1 ps ∈ _
    unfold nodes at *
    simp only [List.map_cons]
    exact List.mem_cons_of_mem _ this

theorem nodes_append (u : Nat) (ps qs : List (Nat × List Nat)) :
    nodes u (ps ++ qs) = nodes u ps ++ qs.map Prod.fst := by
  simp [nodes]

/-- Every node but the last starts a bundle. -/
theorem node_split {u v : Nat} {ps : List (Nat × List Nat)} (h : v ∈ nodes u ps) :
    v = last u ps ∨ ∃ pre w A post, ps = pre ++ (w, A) :: post ∧ v = last u pre := by
  induction ps generalizing u with
  | nil => left; simpa [nodes, last] using h
  | cons p ps ih =>
    unfold nodes at h
    rcases List.mem_cons.1 h with h | h
    · right; exact ⟨[], p.1, p.2, ps, rfl, h⟩
    · have h : v ∈ nodes p.1 ps := by simpa [nodes] using h
      rcases ih h with e | ⟨pre, w, A, post, e1, e2⟩
      · left; exact e
      · right; exact ⟨p :: pre, w, A, post, by rw [e1]; rfl, e2⟩

theorem pair_split {v : Nat} {ps : List (Nat × List Nat)} (h : v ∈ ps.map Prod.fst) :
    ∃ pre A post, ps = pre ++ (v, A) :: post := by
  obtain ⟨p, hp, e⟩ := List.mem_map.1 h
  obtain ⟨pre, post, e2⟩ := List.append_of_mem hp
  exact ⟨pre, p.2, post, by rw [e2, ← e]⟩

/-- What is known at a bundle. -/
theorem Lin.at {n : Net W} {pre post : List (Nat × List Nat)} {v : Nat} {A : List Nat}
    (h : Lin n (pre ++ (v, A) :: post)) :
    n.out (last n.start pre) = A ∧ n.inn v = A ∧ A ≠ [] ∧ A.Nodup ∧
      ∀ a ∈ A, n.src a = last n.start pre ∧ n.dst a = v ∧ a < n.nArcs :=
  (((seg_append n n.start pre _).1 h.seg).2).1

theorem Lin.apart {n : Net W} {pre post : List (Nat × List Nat)} {v : Nat} {A : List Nat}
    (h : Lin n (pre ++ (v, A) :: post)) :
    v ∉ nodes n.start pre ∧ (∀ w ∈ nodes n.start pre, w ∉ post.map Prod.fst) ∧ v ∉ post.map Prod.fst ∧
      (nodes n.start pre).Nodup ∧ (post.map Prod.fst).Nodup := by
  have := h.nodup
  rw [nodes_append, List.map_cons, List.nodup_append] at this
  obtain ⟨h1, h2, h3⟩ := this
  obtain ⟨h4, h5⟩ := List.nodup_cons.1 h2
  exact ⟨fun hm => h3 v hm v (by simp) rfl, fun w hw hm => h3 w hw w (by simp [hm]) rfl, h4, h1, h5⟩

/-- Position of a node in the chain. -/
def rankOf (n : Net W) (ps : List (Nat × List Nat)) (v : Nat) : Nat := (nodes n.start ps).idxOf v

theorem Lin.rank_lt {n : Net W} {pre post : List (Nat × List Nat)} {v : Nat} {A : List Nat}
    (h : Lin n (pre ++ (v, A) :: post)) :
    rankOf n (pre ++ (v, A) :: post) (last n.start pre) < rankOf n (pre ++ (v, A) :: post) v := by
  unfold rankOf
  rw [nodes_append, List.idxOf_append, if_pos (last_mem _ _), List.idxOf_append, if_neg h.apart.1]
  have := List.idxOf_lt_length_of_mem (last_mem n.start pre)
  omega

theorem Lin.wf {n : Net W} {ps : List (Nat × List Nat)} (h : Lin n ps) : n.WF (rankOf n ps) := by
  have outs : ∀ v, n.out v ≠ [] → ∃ pre w A post, ps = pre ++ (w, A) :: post ∧ v = last n.start pre := by
    intro v hv
    by_cases hm : v ∈ nodes n.start ps
    · rcases node_split hm with e | e
      · rw [e] at hv; exact absurd h.fin hv
      · exact e
    · exact absurd (h.other v hm).1 hv
  have inns : ∀ v, n.inn v ≠ [] → ∃ pre A post, ps = pre ++ (v, A) :: post := by
    intro v hv
    by_cases hm : v ∈ nodes n.start ps
    · rcases List.mem_cons.1 hm with e | hm
      · rw [e] at hv; exact absurd h.start_inn hv
      · exact pair_split hm
    · exact absurd (h.other v hm).2 hv
  refine ⟨h.lt _ (by simp [nodes]), ?_, ?_, ?_, ?_, ?_, h.start_inn, ?_, ?_⟩
  · intro v a ha
    obtain ⟨pre, w, A, post, e, ev⟩ := outs v (List.ne_nil_of_mem ha)
    subst e
    obtain ⟨h1, h2, h3, h4, h5⟩ := h.at
    rw [ev, h1] at ha
    obtain ⟨g1, g2, g3⟩ := h5 a ha
    refine ⟨g3, by rw [g1, ev], by rw [g2, h2]; exact ha, ?_, ?_, ?_⟩
    · rw [ev]
      exact h.lt _ (by rw [nodes_append]; exact List.mem_append_left _ (last_mem _ _))
    · rw [g2]
      exact h.lt _ (by rw [nodes_append]; simp)
    · rw [ev, g2]; exact h.rank_lt
  · intro v a ha
    obtain ⟨pre, A, post, e⟩ := inns v (List.ne_nil_of_mem ha)
    subst e
    obtain ⟨h1, h2, h3, h4, h5⟩ := h.at
    rw [h2] at ha
    obtain ⟨g1, g2, g3⟩ := h5 a ha
    exact ⟨g2, by rw [g1, h1]; exact ha⟩
  · intro v
    by_cases hv : n.out v = []
    · rw [hv]; exact List.nodup_nil
    · obtain ⟨pre, w, A, post, e, ev⟩ := outs v hv
      subst e
      obtain ⟨h1, h2, h3, h4, h5⟩ := h.at
      rw [ev, h1]; exact h4
  · intro v
    by_cases hv : n.inn v = []
    · rw [hv]; exact List.nodup_nil
    · obtain ⟨pre, A, post, e⟩ := inns v hv
      subst e
      obtain ⟨h1, h2, h3, h4, h5⟩ := h.at
      rw [h2]; exact h4
  · intro v hv hs
    obtain ⟨pre, w, A, post, e, ev⟩ := outs v hv
    rcases List.eq_nil_or_concat pre with e2 | ⟨pre', p, e2⟩
    · subst e2; exact absurd ev hs
    · rw [List.concat_eq_append] at e2
      subst e2
      rw [last_append] at ev
      have hv : v = p.1 := ev
      rw [List.append_assoc] at e
      have e : ps = pre' ++ (p.1, p.2) :: ((w, A) :: post) := e
      subst e
      rw [hv, h.at.2.1]
      exact h.at.2.2.1
  · intro s hs
    rw [h.stop] at hs
    injection hs with hs
    subst hs
    refine ⟨h.fin, ?_⟩
    rcases List.eq_nil_or_concat ps with e2 | ⟨pre', p, e2⟩
    · exact absurd e2 h.ne
    · rw [List.concat_eq_append] at e2
      have e : ps = pre' ++ (p.1, p.2) :: [] := e2
      subst e
      rw [last_append]
      show n.inn p.1 ≠ []
      rw [h.at.2.1]
      exact h.at.2.2.1
  · intro hn; rw [h.stop] at hn; cases hn

/-- A chain part is unaffected by changes elsewhere. -/
theorem seg_congr {n n' : Net W} : ∀ (ps : List (Nat × List Nat)) (u : Nat), n.nArcs ≤ n'.nArcs →
    (∀ v ∈ nodes u ps, v ≠ last u ps → n'.out v = n.out v) → (∀ v ∈ ps.map Prod.fst, n'.inn v = n.inn v) →
    (∀ p ∈ ps, ∀ a ∈ p.2, n'.src a = n.src a ∧ n'.dst a = n.dst a) → (nodes u ps).Nodup → Seg n u ps → Seg n' u ps := by
  intro ps
  induction ps with
  | nil => intros; trivial
  | cons p ps ih =>
    intro u hle ho hi ha hnd hs
    obtain ⟨⟨h1, h2, h3, h4, h5⟩, h6⟩ := hs
    have hnd' : (nodes p.1 ps).Nodup := by
      unfold nodes at hnd ⊢
      exact (List.nodup_cons.1 hnd).2
    have hul : u ≠ last u (p :: ps) := by
      intro e
      have hm := last_mem p.1 ps
      unfold nodes at hnd
      apply (List.nodup_cons.1 hnd).1
      have : last u (p :: ps) = last p.1 ps := rfl
      rw [e, this]
      exact hm
    refine ⟨⟨?_, ?_, h3, h4, ?_⟩, ?_⟩
    · rw [ho u (by simp [nodes]) hul]; exact h1
    · rw [hi p.1 (by simp)]; exact h2
    · intro a hA
      obtain ⟨g1, g2⟩ := ha p (by simp) a hA
      obtain ⟨k1, k2, k3⟩ := h5 a hA
      exact ⟨by rw [g1, k1], by rw [g2, k2], by omega⟩
    · apply ih p.1 hle
      · intro v hv hne
        exact ho v (by unfold nodes at *; simp only [List.map_cons]; exact List.mem_cons_of_mem _ hv) hne
      · intro v hv; exact hi v (by simp only [List.map_cons]; exact List.mem_cons_of_mem _ hv)
      · intro q hq; exact ha q (List.mem_cons_of_mem _ hq)
      · exact hnd'
      · exact h6

end Verif.Rover
