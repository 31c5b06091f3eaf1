import Verif.CharNet.Model
import Verif.NetBuild.Expand
/-!
# Replacing one arc
-/
set_option autoImplicit false
namespace Verif.CharNet
open Verif.Net Verif.NetBuild
variable {W : Type}

/-- What an arc stands for: the sequence `E w` for its word `w`. -/
def img (E : W → List W) (n : Net W) (a : Nat) (vs : List W) : Prop := ∃ w, n.data a = some w ∧ vs = E w

/-- What is needed of the network `m` made of the word `w`. -/
structure Made (sub : W → Option (Option (Net W))) (G : W → Prop) (opt : W → Bool) (E : W → List W) (w : W) (m : Net W) (t b0 : Nat) : Prop where
  wf : ∃ r, m.WF r
  stop : m.stop = some t
  first : m.out m.start = [b0]
  live : ∀ v, m.inn v ≠ [] → v ≠ t → m.out v ≠ []
  lang : ∀ vs, Sp m (one m) m.start vs t ↔ vs = E w
  words : ∀ v a, a ∈ m.out v → ∃ y, m.data a = some y ∧ G y ∧ E y = [y] ∧ opt y = opt w ∧ (opt y = false → sub y = some none)

/-- What is needed of the function that expands words: on the words in `G` it either leaves the word, which is then not
optional and stands for itself, or makes a suitable network. -/
def SubOk (sub : W → Option (Option (Net W))) (G : W → Prop) (opt : W → Bool) (E : W → List W) : Prop :=
  ∀ w, G w → (sub w = some none ∧ opt w = false ∧ E w = [w]) ∨ ∃ m t b0, sub w = some (some m) ∧ Made sub G opt E w m t b0

/-- The network is fit for replacing arcs. -/
structure Fine (G : W → Prop) (n : Net W) (s : Nat) : Prop where
  wf : ∃ r, n.WF r
  stop : n.stop = some s
  words : ∀ v a, a ∈ n.out v → ∃ w, n.data a = some w ∧ G w

theorem replace_made {sub : W → Option (Option (Net W))} {G : W → Prop} {opt : W → Bool} {E : W → List W} {b : CNet W} {s v a : Nat} {w : W}
    {m : Net W} {t b0 : Nat} (hb : Fine G b.net s) (hav : a ∈ b.net.out v) (hd : b.net.data a = some w) (hsub : sub w = some (some m))
    (hm : Made sub G opt E w m t b0) :
    ∃ b', replaceArc sub b a = some b' ∧ Fine G b'.net s ∧ b'.net.start = b.net.start ∧
      b'.net.nNodes = b.net.nNodes + m.nNodes ∧ b'.net.nArcs = b.net.nArcs + m.nArcs ∧
      b'.net.out v = (b.net.out v).filter (· ≠ a) ++ [b.net.nArcs + b0] ∧
      (∀ u, u < b.net.nNodes → u ≠ v → b'.net.out u = b.net.out u) ∧
      (∀ c, c < b.net.nArcs → b'.net.dst c = b.net.dst c ∧ b'.net.data c = b.net.data c) ∧
      (∃ y, b'.net.data (b.net.nArcs + b0) = some y ∧ G y ∧ E y = [y] ∧ opt y = opt w ∧ (opt y = false → sub y = some none)) ∧
      (∀ u, ¬ u < b.net.nNodes → ∀ c ∈ b'.net.out u, ∃ y, b'.net.data c = some y ∧ E y = [y]) ∧
      (∀ u, u < b.net.nNodes → b'.vis u = b.vis u) ∧
      (∀ u, ¬ u < b.net.nNodes → b'.net.inn u ≠ [] → b'.vis u = b.vis b.net.start) ∧
      (∀ u, u < b.net.nNodes → b'.net.inn u ≠ [] → b.net.inn u ≠ []) ∧
      (∀ ws, Sp b'.net (img E b'.net) b.net.start ws s ↔ Sp b.net (img E b.net) b.net.start ws s) := by
  obtain ⟨rn, hn⟩ := hb.wf
  obtain ⟨rm, hm1⟩ := hm.wf
  obtain ⟨g1, g2, g3, g4, g5, g6⟩ := hn.out_ok _ _ hav
  have hds := NetBuild.dst_ne_start hn hav
  have hdi : b.net.inn (b.net.dst a) ≠ [] := List.ne_nil_of_mem g3
  have hso := hn.stop_ok s hb.stop
  obtain ⟨hsl, hss⟩ := inn_node hn hso.2
  have hti := (hm1.stop_ok t hm.stop).2
  have hvs : v ≠ s := by
    intro e; rw [e, hso.1] at hav; cases hav
  have hvi : v = b.net.start ∨ b.net.inn v ≠ [] := by
    by_cases e : v = b.net.start
    · exact Or.inl e
    · exact Or.inr (hn.source v (List.ne_nil_of_mem hav) e)
  have fits : Fits b.net rn v (b.net.dst a) := ⟨g4, g5, g6, ⟨s, hb.stop, hvs⟩, hds, hvi⟩
  have hst := hn.start_lt
  generalize hM0 : mg b.net v (b.net.dst a) m t = M
  obtain ⟨rM, hM⟩ := mg_wf hn hm1 hm.stop fits
  rw [hM0] at hM
  have hMs : M.src a = v := by rw [← hM0, mg_src_old g1, g2]
  have hMd : M.dst a = b.net.dst a := by rw [← hM0, mg_dst_old g1]
  have hMi : (M.inn (M.dst a)).filter (· ≠ a) ≠ [] := by
    rw [hMd]
    obtain ⟨c, hc⟩ := List.exists_mem_of_ne_nil _ hti
    refine List.ne_nil_of_mem (a := b.net.nArcs + c) (List.mem_filter.2 ⟨?_, by simp; omega⟩)
    rw [← hM0, mg_inn hn hm1, if_pos rfl]
    exact List.mem_append_right _ (List.mem_map.2 ⟨c, hc, rfl⟩)
  have hMo : (M.out (M.src a)).filter (· ≠ a) ≠ [] := by
    rw [hMs]
    refine List.ne_nil_of_mem (a := b.net.nArcs + b0) (List.mem_filter.2 ⟨?_, by simp; omega⟩)
    rw [← hM0, mg_out hn hm1, if_pos rfl, hm.first]
    simp
  have outv : (del M a).out v = (b.net.out v).filter (· ≠ a) ++ [b.net.nArcs + b0] := by
    rw [del_out hM, ← hM0, mg_out hn hm1, if_pos rfl, hm.first, List.filter_append]
    congr 1
    simp; omega
  have outu : ∀ u, u < b.net.nNodes → u ≠ v → (del M a).out u = b.net.out u := by
    intro u hu huv
    rw [del_out hM, ← hM0, mg_out hn hm1, if_neg huv, if_pos hu, List.filter_eq_self]
    intro c hc
    simp only [ne_eq, decide_eq_true_eq]
    intro e
    have := (hn.out_ok _ _ hc).2.1
    rw [e, g2] at this
    exact huv this.symm
  have outn : ∀ u, ¬ u < b.net.nNodes → ∀ c ∈ (del M a).out u, ∃ d k, c = b.net.nArcs + d ∧ d ∈ m.out k := by
    intro u hu c hc
    rw [del_out hM, List.mem_filter, ← hM0, mg_out hn hm1, if_neg (by omega), if_neg hu] at hc
    obtain ⟨hc, _⟩ := hc
    split at hc
    · cases hc
    · obtain ⟨d, hd, e⟩ := List.mem_map.1 hc
      exact ⟨d, _, e.symm, hd⟩
  have dnew : ∀ d k, d ∈ m.out k → ∃ y, (del M a).data (b.net.nArcs + d) = some y ∧ G y ∧ E y = [y] ∧ opt y = opt w ∧
      (opt y = false → sub y = some none) := by
    intro d k hdk
    obtain ⟨y, hy, hr⟩ := hm.words k d hdk
    refine ⟨y, ?_, hr⟩
    show M.data _ = _
    rw [← hM0, mg_data_new, hy]
  have dold : ∀ c, c < b.net.nArcs → (del M a).dst c = b.net.dst c ∧ (del M a).data c = b.net.data c := by
    intro c hc
    refine ⟨?_, ?_⟩
    · show M.dst c = _
      rw [← hM0, mg_dst_old hc]
    · show M.data c = _
      rw [← hM0, mg_data_old hc]
  refine ⟨⟨del M a, fun u => if u < b.net.nNodes then b.vis u else if m.out (u - b.net.nNodes) ≠ [] then b.vis b.net.start else false⟩,
    ?_, ⟨⟨rM, del_wf hM hMi hMo⟩, ?_, ?_⟩, ?_, ?_, ?_, outv, outu, dold, dnew b0 m.start (by rw [hm.first]; simp), ?_, ?_, ?_, ?_, ?_⟩
  · unfold replaceArc
    simp only [hd, hsub, g2, merge_eq hm.stop]
    rw [hM0, deleteArc_eq hMi hMo]
    rfl
  · show M.stop = _
    rw [← hM0]; exact hb.stop
  · intro u c hc
    by_cases hu : u < b.net.nNodes
    · by_cases huv : u = v
      · subst huv
        have hc : c ∈ (del M a).out u := hc
        rw [outv] at hc
        rcases List.mem_append.1 hc with hc | hc
        · have hc := (List.mem_filter.1 hc).1
          obtain ⟨x, hx, hgx⟩ := hb.words u c hc
          exact ⟨x, by rw [(dold c (hn.out_ok _ _ hc).1).2]; exact hx, hgx⟩
        · rw [List.mem_singleton.1 hc]
          obtain ⟨y, hy, hg, _⟩ := dnew b0 m.start (by rw [hm.first]; simp)
          exact ⟨y, hy, hg⟩
      · have hc : c ∈ (del M a).out u := hc
        rw [outu u hu huv] at hc
        obtain ⟨x, hx, hgx⟩ := hb.words u c hc
        exact ⟨x, by rw [(dold c (hn.out_ok _ _ hc).1).2]; exact hx, hgx⟩
    · obtain ⟨d, k, e, hdk⟩ := outn u hu c hc
      obtain ⟨y, hy, hg, _⟩ := dnew d k hdk
      exact ⟨y, by rw [e]; exact hy, hg⟩
  · show M.start = _
    rw [← hM0]; rfl
  · show M.nNodes = _
    rw [← hM0]; rfl
  · show M.nArcs = _
    rw [← hM0]; rfl
  · intro u hu c hc
    obtain ⟨d, k, e, hdk⟩ := outn u hu c hc
    obtain ⟨y, hy, _, he, _⟩ := dnew d k hdk
    exact ⟨y, by rw [e]; exact hy, he⟩
  · intro u hu
    show (if u < b.net.nNodes then _ else _) = _
    rw [if_pos hu]
  · intro u hu hi
    have hi' : M.inn u ≠ [] := by
      intro e
      have hi : (del M a).inn u ≠ [] := hi
      rw [del_inn hM, e] at hi
      exact hi rfl
    rw [← hM0] at hi'
    obtain ⟨k1, k2, k3⟩ := mg_inn_new hn hm1 g5 hu hi'
    show (if u < b.net.nNodes then _ else if m.out (u - b.net.nNodes) ≠ [] then _ else _) = _
    rw [if_neg hu, if_pos (hm.live _ k1 k3)]
  · intro u hu hi
    have hi' : M.inn u ≠ [] := by
      intro e
      have hi : (del M a).inn u ≠ [] := hi
      rw [del_inn hM, e] at hi
      exact hi rfl
    rw [← hM0] at hi'
    exact mg_inn_old hn hm1 hdi hu hi'
  · intro ws
    show Sp (del M a) (img E (del M a)) b.net.start ws s ↔ _
    rw [del_sp hM, ← hM0, mg_sp hn hm1 hm.stop fits _ _ _ hst hsl, hM0]
    have hAl : ∀ vs, Sp m (fun c vs => b.net.nArcs + c ≠ a ∧ img E (del M a) (b.net.nArcs + c) vs) m.start vs t ↔ img E b.net a vs := by
      intro vs
      have key : ∀ x c vs, c ∈ m.out x → ((b.net.nArcs + c ≠ a ∧ img E (del M a) (b.net.nArcs + c) vs) ↔ one m c vs) := by
        intro x c vs hc
        obtain ⟨y, hy, _, hEy, _⟩ := dnew c x hc
        have hmy : m.data c = some y := by
          have : M.data (b.net.nArcs + c) = some y := hy
          rwa [← hM0, mg_data_new] at this
        unfold img one
        rw [hy, hmy]
        constructor
        · rintro ⟨_, w', hw', e⟩
          cases hw'
          exact ⟨y, rfl, by rw [e, hEy]⟩
        · rintro ⟨w', hw', e⟩
          cases hw'
          exact ⟨by omega, y, rfl, by rw [e, hEy]⟩
      have : Sp m (fun c vs => b.net.nArcs + c ≠ a ∧ img E (del M a) (b.net.nArcs + c) vs) m.start vs t ↔ Sp m (one m) m.start vs t :=
        ⟨sp_congr fun x c vs h => (key x c vs h).1, sp_congr fun x c vs h => (key x c vs h).2⟩
      rw [this, hm.lang]
      unfold img
      rw [hd]
      constructor
      · intro e; exact ⟨w, rfl, e⟩
      · rintro ⟨x, hx, e⟩; cases hx; exact e
    have hao : a ∈ b.net.out (b.net.src a) := by rw [g2]; exact hav
    have hsb := mix_subst (img E b.net) (img E b.net a) hao b.net.start s ws hn
    rw [g2] at hsb
    have step1 : Mix b.net (fun c vs => c ≠ a ∧ img E (del M a) c vs) v (b.net.dst a)
        (fun vs => Sp m (fun c vs => b.net.nArcs + c ≠ a ∧ img E (del M a) (b.net.nArcs + c) vs) m.start vs t) b.net.start ws s ↔
        Mix b.net (fun c vs => c ≠ a ∧ img E b.net c vs) v (b.net.dst a) (img E b.net a) b.net.start ws s := by
      have key : ∀ x c vs, c ∈ b.net.out x → ((c ≠ a ∧ img E (del M a) c vs) ↔ (c ≠ a ∧ img E b.net c vs)) := by
        intro x c vs hc
        unfold img
        rw [(dold c (hn.out_ok _ _ hc).1).2]
      exact ⟨mix_congr (fun x c vs hc => (key x c vs hc).1) (fun vs => (hAl vs).1),
        mix_congr (fun x c vs hc => (key x c vs hc).2) (fun vs => (hAl vs).2)⟩
    refine step1.trans (hsb.trans ?_)
    have key : ∀ c vs, (if c = a then img E b.net a vs else img E b.net c vs) ↔ img E b.net c vs := by
      intro c vs
      by_cases hc : c = a
      · rw [if_pos hc, hc]
      · rw [if_neg hc]
    exact ⟨sp_congr fun _ c vs _ => (key c vs).1, sp_congr fun _ c vs _ => (key c vs).2⟩

end Verif.CharNet
