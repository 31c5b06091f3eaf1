import Verif.NetBuild.Spec
import Verif.Net.Build
/-!
# Merging networks and deleting arcs: well-formedness and language
-/
set_option autoImplicit false
namespace Verif.NetBuild
open Verif.Net
variable {W : Type}

/-! ### Paths whose arcs stand for sets of word sequences -/

/-- `Sp n σ v ws w`: some path from `v` to `w` can be read as `ws` if arc `a` can be read as any sequence in `σ a`. -/
inductive Sp (n : Net W) (σ : Nat → List W → Prop) : Nat → List W → Nat → Prop where
  | nil (v : Nat) : Sp n σ v [] v
  | cons (v a : Nat) (vs ws : List W) (w : Nat) : a ∈ n.out v → σ a vs → Sp n σ (n.dst a) ws w → Sp n σ v (vs ++ ws) w

/-- The word on an arc. -/
def one (n : Net W) (a : Nat) (vs : List W) : Prop := ∃ x, n.data a = some x ∧ vs = [x]

theorem sp_walk (n : Net W) (v w : Nat) (ws : List W) : Sp n (one n) v ws w ↔ ∃ p, n.Walk v p w ∧ p.map n.data = ws.map some := by
  constructor
  · intro h
    induction h with
    | nil v => exact ⟨[], .nil v, rfl⟩
    | cons v a vs ws w h1 h2 _ ih =>
      obtain ⟨x, hx, hvs⟩ := h2
      obtain ⟨p, hp1, hp2⟩ := ih
      refine ⟨a :: p, .cons v a p w h1 hp1, ?_⟩
      simp [hvs, hx, hp2]
  · rintro ⟨p, hp, he⟩
    induction hp generalizing ws with
    | nil v =>
      cases ws with
      | nil => exact .nil v
      | cons x xs => simp at he
    | cons v a p w h1 _ ih =>
      cases ws with
      | nil => simp at he
      | cons x xs =>
        simp only [List.map_cons, List.cons.injEq] at he
        exact Sp.cons v a [x] xs w h1 ⟨x, he.1, rfl⟩ (ih xs he.2)

theorem produces_sp (n : Net W) (s : Nat) (hs : n.stop = some s) (ws : List W) : n.Produces ws ↔ Sp n (one n) n.start ws s := by
  unfold Net.Produces
  rw [hs, sp_walk]

theorem sp_congr {n : Net W} {σ τ : Nat → List W → Prop} (h : ∀ v a vs, a ∈ n.out v → (σ a vs → τ a vs)) {v w : Nat} {ws : List W}
    (hp : Sp n σ v ws w) : Sp n τ v ws w := by
  induction hp with
  | nil v => exact .nil v
  | cons v a vs ws w h1 h2 _ ih => exact .cons v a vs ws w h1 (h v a vs h1 h2) ih

/-! ### The merged network -/

/-- The result of `merge`. -/
def mg (n : Net W) (u v : Nat) (m : Net W) (t : Nat) : Net W :=
    let A := n.nArcs
    let N := n.nNodes
    let outs := ((m.out m.start).map (A + ·)).foldl addArc (n.out u)
    let inns := ((m.inn t).map (A + ·)).foldl addArc (n.inn v);
      { start := n.start
        stop := n.stop
        nNodes := N + m.nNodes
        nArcs := A + m.nArcs
        src := fun a => if a < A then n.src a else if a - A ∈ m.out m.start then u else N + m.src (a - A)
        dst := fun a => if a < A then n.dst a else if a - A ∈ m.inn t then v else N + m.dst (a - A)
        data := fun a => if a < A then n.data a else m.data (a - A)
        out := fun w => if w = u then outs else if w < N then n.out w
          else if w - N = m.start ∨ w - N = t then [] else (m.out (w - N)).map (A + ·)
        inn := fun w => if w = v then inns else if w < N then n.inn w
          else if w - N = m.start ∨ w - N = t then [] else (m.inn (w - N)).map (A + ·) }

theorem merge_eq {n m : Net W} {u v t : Nat} (ht : m.stop = some t) : merge n u v m = some (mg n u v m t) := by
  unfold merge mg
  rw [ht]

/-- The places between which a network can be merged in. -/
structure Fits (n : Net W) (rn : Nat → Nat) (u v : Nat) : Prop where
  hu : u < n.nNodes
  hv : v < n.nNodes
  hr : rn u < rn v
  hs : ∃ s, n.stop = some s ∧ u ≠ s
  hvs : v ≠ n.start
  hui : u = n.start ∨ n.inn u ≠ []

section
variable {n m : Net W} {rn rm : Nat → Nat} {u v t : Nat}

theorem ne_add {a b A : Nat} (h : a < A) : a ≠ A + b := by omega

theorem mg_out (hn : n.WF rn) (hm : m.WF rm) (w : Nat) : (mg n u v m t).out w =
    if w = u then n.out u ++ (m.out m.start).map (n.nArcs + ·) else if w < n.nNodes then n.out w
    else if w - n.nNodes = m.start ∨ w - n.nNodes = t then [] else (m.out (w - n.nNodes)).map (n.nArcs + ·) := by
  have : ((m.out m.start).map (n.nArcs + ·)).foldl addArc (n.out u) = n.out u ++ (m.out m.start).map (n.nArcs + ·) := by
    apply foldl_addArc
    rw [List.nodup_append]
    refine ⟨hn.out_nodup u, ?_, ?_⟩
    · exact List.Pairwise.map _ (fun a b h => by omega) (hm.out_nodup m.start)
    · intro a ha b hb e
      obtain ⟨c, hc, e2⟩ := List.mem_map.1 hb
      have := (hn.out_ok _ _ ha).1
      omega
  show (if w = u then ((m.out m.start).map (n.nArcs + ·)).foldl addArc (n.out u) else _) = _
  rw [this]

theorem mg_inn (hn : n.WF rn) (hm : m.WF rm) (w : Nat) : (mg n u v m t).inn w =
    if w = v then n.inn v ++ (m.inn t).map (n.nArcs + ·) else if w < n.nNodes then n.inn w
    else if w - n.nNodes = m.start ∨ w - n.nNodes = t then [] else (m.inn (w - n.nNodes)).map (n.nArcs + ·) := by
  have : ((m.inn t).map (n.nArcs + ·)).foldl addArc (n.inn v) = n.inn v ++ (m.inn t).map (n.nArcs + ·) := by
    apply foldl_addArc
    rw [List.nodup_append]
    refine ⟨hn.inn_nodup v, ?_, ?_⟩
    · exact List.Pairwise.map _ (fun a b h => by omega) (hm.inn_nodup t)
    · intro a ha b hb e
      obtain ⟨c, hc, e2⟩ := List.mem_map.1 hb
      have := (hn.out_ok _ _ (hn.inn_ok _ _ ha).2).1
      omega
  show (if w = v then ((m.inn t).map (n.nArcs + ·)).foldl addArc (n.inn v) else _) = _
  rw [this]

theorem mg_src_old {a : Nat} (h : a < n.nArcs) : (mg n u v m t).src a = n.src a := by
  show (if a < n.nArcs then _ else _) = _
  rw [if_pos h]
theorem mg_dst_old {a : Nat} (h : a < n.nArcs) : (mg n u v m t).dst a = n.dst a := by
  show (if a < n.nArcs then _ else _) = _
  rw [if_pos h]
theorem mg_data_old {a : Nat} (h : a < n.nArcs) : (mg n u v m t).data a = n.data a := by
  show (if a < n.nArcs then _ else _) = _
  rw [if_pos h]
theorem mg_data_new (b : Nat) : (mg n u v m t).data (n.nArcs + b) = m.data b := by
  show (if n.nArcs + b < n.nArcs then _ else m.data (n.nArcs + b - n.nArcs)) = _
  rw [if_neg (by omega), Nat.add_sub_cancel_left]
theorem mg_src_new (b : Nat) : (mg n u v m t).src (n.nArcs + b) = if b ∈ m.out m.start then u else n.nNodes + m.src b := by
  show (if n.nArcs + b < n.nArcs then _ else if n.nArcs + b - n.nArcs ∈ _ then u else n.nNodes + m.src (n.nArcs + b - n.nArcs)) = _
  rw [if_neg (by omega), Nat.add_sub_cancel_left]
theorem mg_dst_new (b : Nat) : (mg n u v m t).dst (n.nArcs + b) = if b ∈ m.inn t then v else n.nNodes + m.dst b := by
  show (if n.nArcs + b < n.nArcs then _ else if n.nArcs + b - n.nArcs ∈ _ then v else n.nNodes + m.dst (n.nArcs + b - n.nArcs)) = _
  rw [if_neg (by omega), Nat.add_sub_cancel_left]

theorem exists_bound (f : Nat → Nat) : ∀ k : Nat, ∃ K, 0 < K ∧ ∀ i < k, f i < K := by
  intro k
  induction k with
  | zero => exact ⟨1, by omega, fun i h => by omega⟩
  | succ k ih =>
    obtain ⟨K, h0, h⟩ := ih
    refine ⟨K + f k + 1, by omega, ?_⟩
    intro i hi
    by_cases e : i = k
    · subst e; omega
    · have := h i (by omega); omega

/-- An arc of a network leads to the stop node exactly if that node lists it. -/
theorem inn_iff (hm : m.WF rm) {k b : Nat} (hb : b ∈ m.out k) (w : Nat) : b ∈ m.inn w ↔ m.dst b = w := by
  constructor
  · intro h; exact (hm.inn_ok _ _ h).1
  · intro h; subst h; exact (hm.out_ok _ _ hb).2.2.1

theorem out_iff (hm : m.WF rm) {w b : Nat} (hb : b ∈ m.inn w) (k : Nat) : b ∈ m.out k ↔ m.src b = k := by
  constructor
  · intro h; exact (hm.out_ok _ _ h).2.1
  · intro h; subst h; exact (hm.inn_ok _ _ hb).2

theorem mg_dst_live (hm : m.WF rm) {k b : Nat} (hb : b ∈ m.out k) :
    (mg n u v m t).dst (n.nArcs + b) = if m.dst b = t then v else n.nNodes + m.dst b := by
  rw [mg_dst_new]
  by_cases h : m.dst b = t
  · rw [if_pos h, if_pos ((inn_iff hm hb t).2 h)]
  · rw [if_neg h, if_neg (fun e => h ((inn_iff hm hb t).1 e))]

theorem mg_src_live (hm : m.WF rm) {k b : Nat} (hb : b ∈ m.out k) :
    (mg n u v m t).src (n.nArcs + b) = if m.src b = m.start then u else n.nNodes + m.src b := by
  have hi := (hm.out_ok _ _ hb).2.2.1
  rw [mg_src_new]
  by_cases h : m.src b = m.start
  · rw [if_pos h, if_pos ((out_iff hm hi _).2 h)]
  · rw [if_neg h, if_neg (fun e => h ((out_iff hm hi _).1 e))]

theorem start_ne_stop (hm : m.WF rm) (ht : m.stop = some t) : m.start ≠ t := by
  intro e
  have := (hm.stop_ok t ht).2
  rw [← e] at this
  exact this hm.start_inn

theorem dst_ne_start (hm : m.WF rm) {k b : Nat} (hb : b ∈ m.out k) : m.dst b ≠ m.start := by
  intro e
  have := (hm.out_ok _ _ hb).2.2.1
  rw [e, hm.start_inn] at this
  cases this

theorem mg_wf (hn : n.WF rn) (hm : m.WF rm) (ht : m.stop = some t) (hf : Fits n rn u v) :
    ∃ r, (mg n u v m t).WF r := by
  obtain ⟨K, hK, hb⟩ := exists_bound rm m.nNodes
  have hst := start_ne_stop hm ht
  have hto := (hm.stop_ok t ht).1
  have hti := (hm.stop_ok t ht).2
  have hu := hf.hu
  have hv := hf.hv
  have hmul : ∀ x y : Nat, x < y → x * K + K ≤ y * K := by
    intro x y h
    have := Nat.mul_le_mul_right K (show x + 1 ≤ y from h)
    rwa [Nat.add_mul, Nat.one_mul] at this
  refine ⟨fun w => if w < n.nNodes then rn w * K else rn u * K + rm (w - n.nNodes), ?_, ?_, ?_, ?_, ?_, ?_, ?_, ?_, ?_⟩
  · show n.start < n.nNodes + m.nNodes
    have := hn.start_lt
    omega
  · intro w a ha
    rw [mg_out hn hm] at ha
    show a < n.nArcs + m.nArcs ∧ _ ∧ _ ∧ w < n.nNodes + m.nNodes ∧ _ < n.nNodes + m.nNodes ∧ _
    -- an old arc
    have old : a ∈ n.out w → w < n.nNodes → a < n.nArcs + m.nArcs ∧ (mg n u v m t).src a = w ∧
        a ∈ (mg n u v m t).inn ((mg n u v m t).dst a) ∧ w < n.nNodes + m.nNodes ∧
        (mg n u v m t).dst a < n.nNodes + m.nNodes ∧
        (if w < n.nNodes then rn w * K else rn u * K + rm (w - n.nNodes)) <
        (if (mg n u v m t).dst a < n.nNodes then rn ((mg n u v m t).dst a) * K else rn u * K + rm ((mg n u v m t).dst a - n.nNodes)) := by
      intro ha hw
      obtain ⟨g1, g2, g3, g4, g5, g6⟩ := hn.out_ok _ _ ha
      rw [mg_src_old g1, mg_dst_old g1, mg_inn hn hm, if_pos hw, if_pos g5]
      have := hmul _ _ g6
      refine ⟨by omega, g2, ?_, by omega, by omega, ?_⟩
      · by_cases e : n.dst a = v
        · rw [if_pos e, ← e]; exact List.mem_append_left _ g3
        · rw [if_neg e]; exact g3
      · rw [if_pos g5]; omega
    -- a new arc
    have new : ∀ k b, b ∈ m.out k → a = n.nArcs + b → (if k = m.start then w = u else w = n.nNodes + k) →
        a < n.nArcs + m.nArcs ∧ (mg n u v m t).src a = w ∧
        a ∈ (mg n u v m t).inn ((mg n u v m t).dst a) ∧ w < n.nNodes + m.nNodes ∧
        (mg n u v m t).dst a < n.nNodes + m.nNodes ∧
        (if w < n.nNodes then rn w * K else rn u * K + rm (w - n.nNodes)) <
        (if (mg n u v m t).dst a < n.nNodes then rn ((mg n u v m t).dst a) * K else rn u * K + rm ((mg n u v m t).dst a - n.nNodes)) := by
      intro k b hbk e hw
      obtain ⟨g1, g2, g3, g4, g5, g6⟩ := hm.out_ok _ _ hbk
      subst e
      have hds := dst_ne_start hm hbk
      have hrw : (if w < n.nNodes then rn w * K else rn u * K + rm (w - n.nNodes)) ≤ rn u * K + rm k ∧
          ((if w < n.nNodes then rn w * K else rn u * K + rm (w - n.nNodes)) < rn u * K + K) ∧ w < n.nNodes + m.nNodes ∧
          (if k = m.start then u else n.nNodes + k) = w := by
        by_cases hk : k = m.start
        · rw [if_pos hk] at hw
          subst hw
          rw [if_pos hu, if_pos hk]
          exact ⟨by omega, by omega, by omega, rfl⟩
        · rw [if_neg hk] at hw
          subst hw
          rw [if_neg (by omega), Nat.add_sub_cancel_left, if_neg hk]
          have := hb k g4
          exact ⟨by omega, by omega, by omega, rfl⟩
      obtain ⟨hr1, hr2, hr3, hr4⟩ := hrw
      rw [mg_src_live hm hbk, mg_dst_live hm hbk, mg_inn hn hm]
      refine ⟨by omega, ?_, ?_, hr3, ?_, ?_⟩
      · rw [g2]; exact hr4
      · by_cases e : m.dst b = t
        · rw [if_pos e, if_pos rfl]
          exact List.mem_append_right _ (List.mem_map.2 ⟨b, e ▸ g3, rfl⟩)
        · rw [if_neg e, if_neg (by omega), if_neg (by omega), Nat.add_sub_cancel_left, if_neg (by simp [e, hds])]
          exact List.mem_map.2 ⟨b, g3, rfl⟩
      · by_cases e : m.dst b = t
        · rw [if_pos e]; omega
        · rw [if_neg e]; omega
      · by_cases e : m.dst b = t
        · rw [if_pos e, if_pos hv]
          have := hmul _ _ hf.hr
          omega
        · rw [if_neg e, if_neg (show ¬ n.nNodes + m.dst b < n.nNodes by omega), Nat.add_sub_cancel_left]; omega
    by_cases h1 : w = u
    · rw [if_pos h1] at ha
      rcases List.mem_append.1 ha with ha | ha
      · exact old (h1 ▸ ha) (h1 ▸ hu)
      · obtain ⟨b, hb1, hb2⟩ := List.mem_map.1 ha
        exact new m.start b hb1 hb2.symm (by rw [if_pos rfl]; exact h1)
    · rw [if_neg h1] at ha
      by_cases h2 : w < n.nNodes
      · rw [if_pos h2] at ha
        exact old ha h2
      · rw [if_neg h2] at ha
        split at ha
        · cases ha
        · rename_i h3
          obtain ⟨b, hb1, hb2⟩ := List.mem_map.1 ha
          refine new (w - n.nNodes) b hb1 hb2.symm ?_
          rw [if_neg (fun e => h3 (Or.inl e))]
          omega
  · intro w a ha
    rw [mg_inn hn hm] at ha
    have old : a ∈ n.inn w → w < n.nNodes → (mg n u v m t).dst a = w ∧ a ∈ (mg n u v m t).out ((mg n u v m t).src a) := by
      intro ha hw
      obtain ⟨g1, g2⟩ := hn.inn_ok _ _ ha
      obtain ⟨k1, k2, k3, k4, k5, k6⟩ := hn.out_ok _ _ g2
      rw [mg_dst_old k1, mg_src_old k1, mg_out hn hm]
      refine ⟨g1, ?_⟩
      split
      · rename_i e
        exact List.mem_append_left _ (e ▸ g2)
      · exact g2
    have new : ∀ k b, b ∈ m.inn k → a = n.nArcs + b → (if k = t then w = v else w = n.nNodes + k) →
        (mg n u v m t).dst a = w ∧ a ∈ (mg n u v m t).out ((mg n u v m t).src a) := by
      intro k b hbk e hw
      obtain ⟨g1, g2⟩ := hm.inn_ok _ _ hbk
      subst e
      rw [mg_dst_live hm g2, mg_src_live hm g2, mg_out hn hm]
      refine ⟨?_, ?_⟩
      · rw [g1]
        by_cases e : k = t
        · rw [if_pos e] at hw ⊢; exact hw.symm
        · rw [if_neg e] at hw ⊢; exact hw.symm
      · by_cases e : m.src b = m.start
        · rw [if_pos e, if_pos rfl]
          exact List.mem_append_right _ (List.mem_map.2 ⟨b, e ▸ g2, rfl⟩)
        · have h2 : m.src b ≠ t := by
            intro h; rw [h, hto] at g2; cases g2
          rw [if_neg e, if_neg (by omega), if_neg (by omega), Nat.add_sub_cancel_left, if_neg (by simp [e, h2])]
          exact List.mem_map.2 ⟨b, g2, rfl⟩
    by_cases h1 : w = v
    · rw [if_pos h1] at ha
      rcases List.mem_append.1 ha with ha | ha
      · exact old (h1 ▸ ha) (h1 ▸ hv)
      · obtain ⟨b, hb1, hb2⟩ := List.mem_map.1 ha
        exact new t b hb1 hb2.symm (by rw [if_pos rfl]; exact h1)
    · rw [if_neg h1] at ha
      by_cases h2 : w < n.nNodes
      · rw [if_pos h2] at ha
        exact old ha h2
      · rw [if_neg h2] at ha
        split at ha
        · cases ha
        · rename_i h3
          obtain ⟨b, hb1, hb2⟩ := List.mem_map.1 ha
          refine new (w - n.nNodes) b hb1 hb2.symm ?_
          rw [if_neg (fun e => h3 (Or.inr e))]
          omega
  · intro w
    rw [mg_out hn hm]
    have hadd : ∀ k, ((m.out k).map (n.nArcs + ·)).Nodup :=
      fun k => List.Pairwise.map _ (fun a b h => by omega) (hm.out_nodup k)
    split
    · rw [List.nodup_append]
      refine ⟨hn.out_nodup u, hadd _, ?_⟩
      intro a ha b hb e
      obtain ⟨c, hc, e2⟩ := List.mem_map.1 hb
      have := (hn.out_ok _ _ ha).1
      omega
    · split
      · exact hn.out_nodup _
      · split
        · exact List.nodup_nil
        · exact hadd _
  · intro w
    rw [mg_inn hn hm]
    have hadd : ∀ k, ((m.inn k).map (n.nArcs + ·)).Nodup :=
      fun k => List.Pairwise.map _ (fun a b h => by omega) (hm.inn_nodup k)
    split
    · rw [List.nodup_append]
      refine ⟨hn.inn_nodup v, hadd _, ?_⟩
      intro a ha b hb e
      obtain ⟨c, hc, e2⟩ := List.mem_map.1 hb
      have := (hn.out_ok _ _ (hn.inn_ok _ _ ha).2).1
      omega
    · split
      · exact hn.inn_nodup _
      · split
        · exact List.nodup_nil
        · exact hadd _
  · intro w h1 h2
    have h2 : w ≠ n.start := h2
    rw [mg_out hn hm] at h1
    rw [mg_inn hn hm]
    by_cases hwv : w = v
    · rw [if_pos hwv]
      intro h
      rw [List.append_eq_nil_iff] at h
      exact hti (List.map_eq_nil_iff.1 h.2)
    · rw [if_neg hwv]
      by_cases hwu : w = u
      · rw [hwu, if_pos hu]
        rcases hf.hui with h | h
        · exact absurd (hwu.trans h) h2
        · exact h
      · rw [if_neg hwu] at h1
        by_cases h3 : w < n.nNodes
        · rw [if_pos h3] at h1 ⊢
          exact hn.source w h1 h2
        · rw [if_neg h3] at h1 ⊢
          split at h1
          · exact absurd rfl h1
          · rename_i h4
            rw [if_neg h4]
            intro h
            rw [List.map_eq_nil_iff] at h
            refine hm.source (w - n.nNodes) ?_ (fun e => h4 (Or.inl e)) h
            intro h5
            rw [h5] at h1
            exact h1 rfl
  · show (mg n u v m t).inn n.start = []
    rw [mg_inn hn hm, if_neg hf.hvs.symm, if_pos hn.start_lt]
    exact hn.start_inn
  · intro s hs
    have hs : n.stop = some s := hs
    obtain ⟨s', hs', hus⟩ := hf.hs
    have e : s' = s := by rw [hs] at hs'; exact (Option.some.inj hs').symm
    subst e
    obtain ⟨g1, g2⟩ := hn.stop_ok _ hs
    have hlt := (inn_node hn g2).1
    rw [mg_out hn hm, mg_inn hn hm, if_neg hus.symm, if_pos hlt]
    refine ⟨g1, ?_⟩
    split
    · intro h
      rw [List.append_eq_nil_iff] at h
      exact hti (List.map_eq_nil_iff.1 h.2)
    · exact g2
  · intro h
    have h : n.stop = none := h
    obtain ⟨s', hs', _⟩ := hf.hs
    rw [h] at hs'
    cases hs'

/-! ### Language after merging -/

/-- Paths of `n` in which an extra step from `u` to `v`, read as a sequence in `L`, may be taken. -/
inductive Mix (n : Net W) (σ : Nat → List W → Prop) (u v : Nat) (L : List W → Prop) : Nat → List W → Nat → Prop where
  | nil (x : Nat) : Mix n σ u v L x [] x
  | arc (x a : Nat) (vs ws : List W) (y : Nat) : a ∈ n.out x → σ a vs → Mix n σ u v L (n.dst a) ws y → Mix n σ u v L x (vs ++ ws) y
  | sub (vs ws : List W) (y : Nat) : L vs → Mix n σ u v L v ws y → Mix n σ u v L u (vs ++ ws) y

/-- A path of the second network, followed by a path of the merged network. -/
theorem mg_sp_inner (hn : n.WF rn) (hm : m.WF rm) (ht : m.stop = some t) (hf : Fits n rn u v)
    {σ : Nat → List W → Prop} {k k' : Nat} {vs : List W} (h : Sp m (fun b => σ (n.nArcs + b)) k vs k') :
    k' = t → ∀ (ws : List W) (y : Nat), Sp (mg n u v m t) σ v ws y →
      Sp (mg n u v m t) σ (if k = m.start then u else if k = t then v else n.nNodes + k) (vs ++ ws) y := by
  have hst := start_ne_stop hm ht
  have hto := (hm.stop_ok t ht).1
  have hu := hf.hu
  have hv := hf.hv
  induction h with
  | nil k =>
    intro e ws y hs
    subst e
    rw [if_neg hst.symm, if_pos rfl]
    exact hs
  | cons k b vs ws' k' h1 h2 h3 ih =>
    intro e ws y hs
    have := ih e ws y hs
    rw [List.append_assoc]
    have hkt : k ≠ t := by
      intro h; rw [h, hto] at h1; cases h1
    refine Sp.cons _ (n.nArcs + b) vs (ws' ++ ws) y ?_ h2 ?_
    · rw [mg_out hn hm]
      by_cases hk : k = m.start
      · rw [if_pos hk, if_pos rfl]
        exact List.mem_append_right _ (List.mem_map.2 ⟨b, hk ▸ h1, rfl⟩)
      · rw [if_neg hk, if_neg hkt, if_neg (by omega), if_neg (by omega), Nat.add_sub_cancel_left,
          if_neg (by simp [hk, hkt])]
        exact List.mem_map.2 ⟨b, h1, rfl⟩
    · rw [mg_dst_live hm h1]
      rw [if_neg (dst_ne_start hm h1)] at this
      exact this

theorem mg_sp (hn : n.WF rn) (hm : m.WF rm) (ht : m.stop = some t) (hf : Fits n rn u v)
    (σ : Nat → List W → Prop) (x y : Nat) (hx : x < n.nNodes) (hy : y < n.nNodes) (ws : List W) :
    Sp (mg n u v m t) σ x ws y ↔ Mix n σ u v (fun vs => Sp m (fun b => σ (n.nArcs + b)) m.start vs t) x ws y := by
  have hst := start_ne_stop hm ht
  have hu := hf.hu
  have hv := hf.hv
  constructor
  · intro h
    have key : (x < n.nNodes → Mix n σ u v (fun vs => Sp m (fun b => σ (n.nArcs + b)) m.start vs t) x ws y) ∧
        (∀ k, x = n.nNodes + k → k ≠ m.start → k ≠ t → ∃ vs ws', ws = vs ++ ws' ∧ Sp m (fun b => σ (n.nArcs + b)) k vs t ∧
          Mix n σ u v (fun vs => Sp m (fun b => σ (n.nArcs + b)) m.start vs t) v ws' y) := by
      clear hx
      induction h with
      | nil x => exact ⟨fun _ => .nil x, fun k hk => by omega⟩
      | cons x a vs ws y h1 h2 h3 ih =>
        obtain ⟨ih1, ih2⟩ := ih hy
        rw [mg_out hn hm] at h1
        have old : a ∈ n.out x → Mix n σ u v (fun vs => Sp m (fun b => σ (n.nArcs + b)) m.start vs t) x (vs ++ ws) y := by
          intro ha
          obtain ⟨g1, g2, g3, g4, g5, g6⟩ := hn.out_ok _ _ ha
          rw [mg_dst_old g1] at ih1
          exact .arc x a vs ws y ha h2 (ih1 g5)
        have new : ∀ k b, b ∈ m.out k → a = n.nArcs + b → ∃ vs' ws', vs ++ ws = vs' ++ ws' ∧
            Sp m (fun b => σ (n.nArcs + b)) k vs' t ∧
            Mix n σ u v (fun vs => Sp m (fun b => σ (n.nArcs + b)) m.start vs t) v ws' y := by
          intro k b hb e
          subst e
          rw [mg_dst_live hm hb] at ih1 ih2
          by_cases hd : m.dst b = t
          · rw [if_pos hd] at ih1
            refine ⟨vs, ws, rfl, ?_, ih1 hv⟩
            have := Sp.cons (n := m) (σ := fun b => σ (n.nArcs + b)) k b vs [] t hb h2 (by rw [hd]; exact .nil t)
            rwa [List.append_nil] at this
          · rw [if_neg hd] at ih2
            obtain ⟨vs', ws', e1, e2, e3⟩ := ih2 (m.dst b) rfl (dst_ne_start hm hb) hd
            refine ⟨vs ++ vs', ws', by rw [e1, List.append_assoc], .cons k b vs vs' t hb h2 e2, e3⟩
        constructor
        · intro hx
          by_cases hxu : x = u
          · rw [if_pos hxu] at h1
            rcases List.mem_append.1 h1 with h1 | h1
            · exact old (hxu ▸ h1)
            · obtain ⟨b, hb1, hb2⟩ := List.mem_map.1 h1
              obtain ⟨vs', ws', e1, e2, e3⟩ := new m.start b hb1 hb2.symm
              rw [e1, hxu]
              exact .sub vs' ws' y e2 e3
          · rw [if_neg hxu, if_pos hx] at h1
            exact old h1
        · intro k hk hks hkt
          rw [if_neg (by omega), if_neg (by omega)] at h1
          have e : x - n.nNodes = k := by omega
          rw [e, if_neg (by simp [hks, hkt])] at h1
          obtain ⟨b, hb1, hb2⟩ := List.mem_map.1 h1
          exact new k b hb1 hb2.symm
    exact key.1 hx
  · intro h
    clear hx
    induction h with
    | nil x => exact .nil x
    | arc x a vs ws y h1 h2 h3 ih =>
      obtain ⟨g1, g2, g3, g4, g5, g6⟩ := hn.out_ok _ _ h1
      refine .cons x a vs ws y ?_ h2 ?_
      · rw [mg_out hn hm]
        split
        · rename_i e; exact List.mem_append_left _ (e ▸ h1)
        · exact h1
      · rw [mg_dst_old g1]
        exact ih hy
    | sub vs ws y h1 h3 ih =>
      have := mg_sp_inner hn hm ht hf h1 rfl ws y (ih hy)
      rwa [if_pos rfl] at this

/-- The extra step taken instead of an arc with the same ends. -/
theorem mix_subst (σ : Nat → List W → Prop) (L : List W → Prop) {a : Nat} (ha : a ∈ n.out (n.src a)) (x y : Nat) (ws : List W)
    (hn : n.WF rn) :
    Mix n (fun b vs => b ≠ a ∧ σ b vs) (n.src a) (n.dst a) L x ws y ↔ Sp n (fun b vs => if b = a then L vs else σ b vs) x ws y := by
  constructor
  · intro h
    induction h with
    | nil x => exact .nil x
    | arc x b vs ws y h1 h2 h3 ih => exact .cons x b vs ws y h1 (by rw [if_neg h2.1]; exact h2.2) ih
    | sub vs ws y h1 h3 ih => exact .cons _ a vs ws y ha (by rw [if_pos rfl]; exact h1) ih
  · intro h
    induction h with
    | nil x => exact .nil x
    | cons x b vs ws y h1 h2 h3 ih =>
      by_cases e : b = a
      · rw [if_pos e] at h2
        subst e
        have hs := (hn.out_ok _ _ h1).2.1
        rw [← hs]
        exact .sub vs ws y h2 ih
      · rw [if_neg e] at h2
        exact .arc x b vs ws y h1 ⟨e, h2⟩ ih

/-- The extra step between start and stop node. -/
theorem mix_parallel (hn : n.WF rn) (σ : Nat → List W → Prop) (L : List W → Prop) {s : Nat} (hs : n.stop = some s) (ws : List W) :
    Mix n σ n.start s L n.start ws s ↔ Sp n σ n.start ws s ∨ L ws := by
  have hne := start_ne_stop hn hs
  have hso := (hn.stop_ok s hs).1
  have stopNil : ∀ ws y, Mix n σ n.start s L s ws y → ws = [] := by
    intro ws y h
    cases h with
    | nil => rfl
    | arc _ a vs ws _ h1 => rw [hso] at h1; cases h1
    | sub => exact absurd rfl hne
  have inner : ∀ x ws y, Mix n σ n.start s L x ws y → x ≠ n.start → Sp n σ x ws y := by
    intro x ws y h
    induction h with
    | nil x => intro _; exact .nil x
    | arc x a vs ws y h1 h2 h3 ih => intro _; exact .cons x a vs ws y h1 h2 (ih (dst_ne_start hn h1))
    | sub vs ws y h1 h3 ih => intro h; exact absurd rfl h
  constructor
  · intro h
    generalize hx : n.start = x at h
    have h' : Mix n σ n.start s L x ws s := by rw [hx]; exact h
    clear h
    cases h' with
    | nil => exact absurd hx hne
    | arc _ a vs ws _ h1 h2 h3 => exact Or.inl (.cons _ a vs ws s h1 h2 (inner _ _ _ h3 (dst_ne_start hn h1)))
    | sub vs ws _ h1 h3 =>
      rw [stopNil _ _ h3, List.append_nil]
      exact Or.inr h1
  · rintro (h | h)
    · have : ∀ x ws y, Sp n σ x ws y → Mix n σ n.start s L x ws y := by
        intro x ws y h
        induction h with
        | nil x => exact .nil x
        | cons x a vs ws y h1 h2 h3 ih => exact .arc x a vs ws y h1 h2 ih
      exact this _ _ _ h
    · have := Mix.sub (n := n) (σ := σ) (u := n.start) (v := s) (L := L) ws [] s h (.nil s)
      rwa [List.append_nil] at this

/-! ### Deleting an arc that is not the only one at its ends -/

/-- The network without the arc. -/
def del (n : Net W) (a : Nat) : Net W :=
  { n with out := upd n.out (n.src a) ((n.out (n.src a)).filter (· ≠ a)), inn := upd n.inn (n.dst a) ((n.inn (n.dst a)).filter (· ≠ a)) }

theorem deleteArc_eq {a : Nat} (h1 : (n.inn (n.dst a)).filter (· ≠ a) ≠ []) (h2 : (n.out (n.src a)).filter (· ≠ a) ≠ []) :
    deleteArc n a = some (del n a) := by
  unfold deleteArc
  simp only [upd_self]
  rw [if_neg h1, if_neg h2]
  rfl

theorem del_out (hn : n.WF rn) {a : Nat} (w : Nat) : (del n a).out w = (n.out w).filter (· ≠ a) := by
  show upd n.out (n.src a) ((n.out (n.src a)).filter (· ≠ a)) w = _
  by_cases h : w = n.src a
  · rw [h, upd_self]
  · rw [upd_ne _ _ _ _ h]
    symm
    rw [List.filter_eq_self]
    intro b hb
    have := (hn.out_ok _ _ hb).2.1
    simp only [ne_eq, decide_eq_true_eq]
    intro e
    rw [e] at this
    exact h this.symm

theorem del_inn (hn : n.WF rn) {a : Nat} (w : Nat) : (del n a).inn w = (n.inn w).filter (· ≠ a) := by
  show upd n.inn (n.dst a) ((n.inn (n.dst a)).filter (· ≠ a)) w = _
  by_cases h : w = n.dst a
  · rw [h, upd_self]
  · rw [upd_ne _ _ _ _ h]
    symm
    rw [List.filter_eq_self]
    intro b hb
    have := (hn.inn_ok _ _ hb).1
    simp only [ne_eq, decide_eq_true_eq]
    intro e
    rw [e] at this
    exact h this.symm

theorem del_wf (hn : n.WF rn) {a : Nat} (h1 : (n.inn (n.dst a)).filter (· ≠ a) ≠ []) (h2 : (n.out (n.src a)).filter (· ≠ a) ≠ []) :
    (del n a).WF rn := by
  refine ⟨hn.start_lt, ?_, ?_, ?_, ?_, ?_, ?_, ?_, ?_⟩
  · intro w b hb
    rw [del_out hn, List.mem_filter] at hb
    obtain ⟨g1, g2, g3, g4, g5, g6⟩ := hn.out_ok _ _ hb.1
    refine ⟨g1, g2, ?_, g4, g5, g6⟩
    show b ∈ (del n a).inn (n.dst b)
    rw [del_inn hn, List.mem_filter]
    exact ⟨g3, hb.2⟩
  · intro w b hb
    rw [del_inn hn, List.mem_filter] at hb
    obtain ⟨g1, g2⟩ := hn.inn_ok _ _ hb.1
    refine ⟨g1, ?_⟩
    show b ∈ (del n a).out (n.src b)
    rw [del_out hn, List.mem_filter]
    exact ⟨g2, hb.2⟩
  · intro w; rw [del_out hn]; exact (hn.out_nodup w).filter _
  · intro w; rw [del_inn hn]; exact (hn.inn_nodup w).filter _
  · intro w hw hs
    rw [del_inn hn]
    by_cases h : w = n.dst a
    · rw [h]; exact h1
    · rw [List.filter_eq_self.2]
      · refine hn.source w ?_ hs
        intro e
        rw [del_out hn, e] at hw
        exact hw rfl
      · intro b hb
        have := (hn.inn_ok _ _ hb).1
        simp only [ne_eq, decide_eq_true_eq]
        intro e
        rw [e] at this
        exact h this.symm
  · show (del n a).inn n.start = []
    rw [del_inn hn, hn.start_inn]; rfl
  · intro s hs
    obtain ⟨g1, g2⟩ := hn.stop_ok s hs
    rw [del_out hn, g1, del_inn hn]
    refine ⟨rfl, ?_⟩
    by_cases h : s = n.dst a
    · rw [h]; exact h1
    · rw [List.filter_eq_self.2]
      · exact g2
      · intro b hb
        have := (hn.inn_ok _ _ hb).1
        simp only [ne_eq, decide_eq_true_eq]
        intro e
        rw [e] at this
        exact h this.symm
  · intro h
    have := hn.no_stop h
    show (del n a).out n.start = []
    rw [del_out hn, this]; rfl

theorem del_sp (hn : n.WF rn) (σ : Nat → List W → Prop) {a : Nat} (x y : Nat) (ws : List W) :
    Sp (del n a) σ x ws y ↔ Sp n (fun b vs => b ≠ a ∧ σ b vs) x ws y := by
  constructor
  · intro h
    induction h with
    | nil x => exact .nil x
    | cons x b vs ws y h1 h2 h3 ih =>
      rw [del_out hn, List.mem_filter] at h1
      exact .cons x b vs ws y h1.1 ⟨by simpa using h1.2, h2⟩ ih
  · intro h
    induction h with
    | nil x => exact .nil x
    | cons x b vs ws y h1 h2 h3 ih =>
      refine .cons x b vs ws y ?_ h2.2 ih
      rw [del_out hn, List.mem_filter]
      exact ⟨h1, by simpa using h2.1⟩

end
end Verif.NetBuild
