import Verif.Infer.Spec
import Verif.Net.Traverse
/-!
# Connecting a network: what arcs are added
-/
set_option autoImplicit false
namespace Verif.Infer
open Verif.Net Verif.CharNet
variable {W : Type}

theorem addArc_new {l : List Nat} {x : Nat} (h : x ∉ l) : addArc l x = l ++ [x] := if_neg h

theorem upd_eq {α : Type} (f : Nat → α) (i j : Nat) (x : α) : upd f i x j = if j = i then x else f j := rfl

theorem insert_out {n : Net W} {rank : Nat → Nat} (hw : n.WF rank) (u v w : Nat) (d : Option W) :
    (n.insertBetween u v d).out w = if w = u then n.out u ++ [n.nArcs] else n.out w := by
  show upd n.out u (addArc (n.out u) n.nArcs) w = _
  rw [addArc_new (fun h => Nat.lt_irrefl _ (hw.out_ok _ _ h).1), upd_eq]

theorem insert_inn {n : Net W} {rank : Nat → Nat} (hw : n.WF rank) (u v w : Nat) (d : Option W) :
    (n.insertBetween u v d).inn w = if w = v then n.inn v ++ [n.nArcs] else n.inn w := by
  show upd n.inn v (addArc (n.inn v) n.nArcs) w = _
  rw [addArc_new (fun h => Nat.lt_irrefl _ (hw.out_ok _ _ (hw.inn_ok _ _ h).2).1), upd_eq]

theorem insert_src (n : Net W) (u v a : Nat) (d : Option W) :
    (n.insertBetween u v d).src a = if a = n.nArcs then u else n.src a := rfl
theorem insert_dst (n : Net W) (u v a : Nat) (d : Option W) :
    (n.insertBetween u v d).dst a = if a = n.nArcs then v else n.dst a := rfl
theorem insert_data (n : Net W) (u v a : Nat) (d : Option W) :
    (n.insertBetween u v d).data a = if a = n.nArcs then d else n.data a := rfl

theorem nodup_snoc {l : List Nat} {x : Nat} (h : l.Nodup) (hx : x ∉ l) : (l ++ [x]).Nodup := by
  rw [List.nodup_append]
  refine ⟨h, by simp, ?_⟩
  intro a ha b hb
  rw [List.mem_singleton.1 hb]
  exact fun e => hx (e ▸ ha)

/-- A new arc between nodes that are in order keeps the network well-formed. -/
theorem insert_wf {n : Net W} {rank : Nat → Nat} (hw : n.WF rank) (u v : Nat) (d : Option W) (hu : n.out u ≠ [])
    (hv : n.inn v ≠ []) (hr : rank u < rank v) : (n.insertBetween u v d).WF rank := by
  obtain ⟨a, ha⟩ := List.exists_mem_of_ne_nil _ hu
  obtain ⟨c, hc⟩ := List.exists_mem_of_ne_nil _ hv
  have hun : u < n.nNodes := (hw.out_ok u a ha).2.2.2.1
  obtain ⟨c1, c2⟩ := hw.inn_ok v c hc
  have hvn : v < n.nNodes := by have := (hw.out_ok _ c c2).2.2.2.2.1; rw [c1] at this; exact this
  have old_out : ∀ w b, b ∈ n.out w → b ≠ n.nArcs := fun w b hb e => Nat.lt_irrefl _ (e ▸ (hw.out_ok w b hb).1)
  have old_inn : ∀ w b, b ∈ n.inn w → b ≠ n.nArcs := fun w b hb => old_out _ _ (hw.inn_ok w b hb).2
  have mem_out : ∀ w b, b ∈ n.out w → b ∈ (n.insertBetween u v d).out w := by
    intro w b hb
    rw [insert_out hw]
    by_cases e : w = u
    · rw [if_pos e]; subst e; exact List.mem_append_left _ hb
    · rw [if_neg e]; exact hb
  have mem_inn : ∀ w b, b ∈ n.inn w → b ∈ (n.insertBetween u v d).inn w := by
    intro w b hb
    rw [insert_inn hw]
    by_cases e : w = v
    · rw [if_pos e]; subst e; exact List.mem_append_left _ hb
    · rw [if_neg e]; exact hb
  refine ⟨hw.start_lt, ?_, ?_, ?_, ?_, ?_, ?_, ?_, ?_⟩
  · intro w b hb
    have key : (w = u ∧ b = n.nArcs) ∨ b ∈ n.out w := by
      rw [insert_out hw] at hb
      by_cases e : w = u
      · rw [if_pos e] at hb
        rcases List.mem_append.1 hb with h | h
        · exact Or.inr (e ▸ h)
        · exact Or.inl ⟨e, List.mem_singleton.1 h⟩
      · rw [if_neg e] at hb; exact Or.inr hb
    rcases key with ⟨e1, e2⟩ | h
    · subst e1 e2
      rw [insert_src, insert_dst, if_pos rfl, if_pos rfl]
      refine ⟨Nat.lt_succ_self _, rfl, ?_, hun, hvn, hr⟩
      rw [insert_inn hw, if_pos rfl]; simp
    · have hne := old_out w b h
      rw [insert_src, insert_dst, if_neg hne, if_neg hne]
      obtain ⟨h1, h2, h3, h4, h5, h6⟩ := hw.out_ok w b h
      exact ⟨Nat.lt_succ_of_lt h1, h2, mem_inn _ _ h3, h4, h5, h6⟩
  · intro w b hb
    have key : (w = v ∧ b = n.nArcs) ∨ b ∈ n.inn w := by
      rw [insert_inn hw] at hb
      by_cases e : w = v
      · rw [if_pos e] at hb
        rcases List.mem_append.1 hb with h | h
        · exact Or.inr (e ▸ h)
        · exact Or.inl ⟨e, List.mem_singleton.1 h⟩
      · rw [if_neg e] at hb; exact Or.inr hb
    rcases key with ⟨e1, e2⟩ | h
    · subst e1 e2
      rw [insert_src, insert_dst, if_pos rfl, if_pos rfl, insert_out hw, if_pos rfl]
      exact ⟨rfl, by simp⟩
    · have hne := old_inn w b h
      rw [insert_src, insert_dst, if_neg hne, if_neg hne]
      obtain ⟨h1, h2⟩ := hw.inn_ok w b h
      exact ⟨h1, mem_out _ _ h2⟩
  · intro w
    rw [insert_out hw]
    by_cases e : w = u
    · rw [if_pos e]; exact nodup_snoc (hw.out_nodup u) (fun h => old_out _ _ h rfl)
    · rw [if_neg e]; exact hw.out_nodup w
  · intro w
    rw [insert_inn hw]
    by_cases e : w = v
    · rw [if_pos e]; exact nodup_snoc (hw.inn_nodup v) (fun h => old_inn _ _ h rfl)
    · rw [if_neg e]; exact hw.inn_nodup w
  · intro w h1 h2
    have : n.out w ≠ [] := by
      rw [insert_out hw] at h1
      by_cases e : w = u
      · rw [e]; exact hu
      · rw [if_neg e] at h1; exact h1
    obtain ⟨b, hb⟩ := List.exists_mem_of_ne_nil _ (hw.source w this h2)
    exact List.ne_nil_of_mem (mem_inn w b hb)
  · show (n.insertBetween u v d).inn n.start = []
    rw [insert_inn hw]
    by_cases e : n.start = v
    · exfalso; rw [← e] at hv; exact hv hw.start_inn
    · rw [if_neg e]; exact hw.start_inn
  · intro s hs
    obtain ⟨h1, h2⟩ := hw.stop_ok s hs
    refine ⟨?_, ?_⟩
    · rw [insert_out hw]
      by_cases e : s = u
      · exfalso; rw [e] at h1; exact hu h1
      · rw [if_neg e]; exact h1
    · obtain ⟨b, hb⟩ := List.exists_mem_of_ne_nil _ h2
      exact List.ne_nil_of_mem (mem_inn s b hb)
  · intro hs
    have h0 := hw.no_stop hs
    show (n.insertBetween u v d).out n.start = []
    exfalso
    have hall : ∀ w, n.Reach w → w = n.start := by
      intro w hr
      induction hr with
      | start => rfl
      | step x b _ hb ih => rw [ih, h0] at hb; cases hb
    have hreach : n.Reach u := by
      by_cases e : u = n.start
      · rw [e]; exact .start
      · exact (hw.reach_iff u).2 (Or.inr (hw.source u hu e))
    rw [hall u hreach] at hu
    exact hu h0

theorem walk_append {n : Net W} {u v w : Nat} {p q : List Nat} (h1 : n.Walk u p v) (h2 : n.Walk v q w) : n.Walk u (p ++ q) w := by
  induction h1 with
  | nil v => exact h2
  | cons v a p w' ha _ ih => exact .cons _ _ _ _ ha (ih h2)

theorem walk_rank {n : Net W} {rank : Nat → Nat} (hw : n.WF rank) {u v : Nat} {p : List Nat} (h : n.Walk u p v) :
    rank u + p.length ≤ rank v := by
  induction h with
  | nil v => simp
  | cons v a p w ha _ ih =>
    have := (hw.out_ok v a ha).2.2.2.2.2
    simp only [List.length_cons]
    omega

theorem walk_end {n : Net W} {rank : Nat → Nat} (hw : n.WF rank) {u v : Nat} {p : List Nat} (h : n.Walk u p v) (hp : p ≠ []) :
    n.out u ≠ [] ∧ n.inn v ≠ [] := by
  induction h with
  | nil v => exact absurd rfl hp
  | cons v a p w ha h ih =>
    refine ⟨List.ne_nil_of_mem ha, ?_⟩
    by_cases e : p = []
    · subst e
      cases h
      exact List.ne_nil_of_mem (hw.out_ok v a ha).2.2.1
    · exact (ih e).2

/-- What is needed of the functions that join and test words: `Fit` are the sequences that can be joined, `J` says what a
join is, `C` which joins pass. -/
structure Joins (app : W → W → Option W) (test : W → Option Bool) (Fit : List W → Prop) (J : List W → W → Prop)
    (C : List W → Prop) : Prop where
  one : ∀ w, Fit [w] → J [w] w
  app : ∀ xs ys x y, Fit (xs ++ ys) → J xs x → J ys y → ∃ z, app x y = some z ∧ J (xs ++ ys) z
  test : ∀ xs x, Fit xs → J xs x → ∃ b, test x = some b ∧ (b = true ↔ C xs)

/-- `n` is `n0` with some arcs added, each for a run of words of `n0`. -/
structure Ext (J : List W → W → Prop) (C : List W → Prop) (rank : Nat → Nat) (n0 n : Net W) : Prop where
  wf : n.WF rank
  start : n.start = n0.start
  stop : n.stop = n0.stop
  nodes : n.nNodes = n0.nNodes
  old : ∀ v a, a ∈ n0.out v → a ∈ n.out v ∧ n.dst a = n0.dst a ∧ n.data a = n0.data a
  made : ∀ v a, a ∈ n.out v → ∃ p ws d, n0.Walk v p (n.dst a) ∧ p.map n0.data = ws.map some ∧ n.data a = some d ∧ J ws d ∧
    (ws = [d] ∨ (2 ≤ ws.length ∧ C ws))

/-- Every arc of `n` is an arc of `n'`. -/
def Grow (n n' : Net W) : Prop := ∀ v a, a ∈ n.out v → a ∈ n'.out v ∧ n'.dst a = n.dst a ∧ n'.data a = n.data a ∧ n'.src a = n.src a

theorem Grow.refl (n : Net W) : Grow n n := fun _ _ h => ⟨h, rfl, rfl, rfl⟩

theorem Grow.trans {n n' n'' : Net W} (h1 : Grow n n') (h2 : Grow n' n'') : Grow n n'' := by
  intro v a h
  obtain ⟨a1, a2, a3, a4⟩ := h1 v a h
  obtain ⟨b1, b2, b3, b4⟩ := h2 v a a1
  exact ⟨b1, b2.trans a2, b3.trans a3, b4.trans a4⟩

theorem map_some_inj {xs ys : List W} (h : xs.map some = ys.map some) : xs = ys := by
  induction xs generalizing ys with
  | nil => cases ys with
    | nil => rfl
    | cons y ys => cases h
  | cons x xs ih => cases ys with
    | nil => cases h
    | cons y ys => simp only [List.map_cons, List.cons.injEq, Option.some.injEq] at h; rw [h.1, ih h.2]

theorem ext_insert {J : List W → W → Prop} {C : List W → Prop} {rank : Nat → Nat} {n0 n : Net W} (h0 : n0.WF rank) (h : Ext J C rank n0 n)
    {u v : Nat} {p : List Nat} {ws : List W} {d : W} (hp : n0.Walk u p v) (hd : p.map n0.data = ws.map some) (hl : 2 ≤ ws.length)
    (hj : J ws d) (hc : C ws) : Ext J C rank n0 (n.insertBetween u v (some d)) ∧ Grow n (n.insertBetween u v (some d)) ∧
      (∀ w, w ≠ u → (n.insertBetween u v (some d)).out w = n.out w) ∧
      ∃ a, a ∈ (n.insertBetween u v (some d)).out u ∧ (n.insertBetween u v (some d)).dst a = v ∧
        (n.insertBetween u v (some d)).data a = some d := by
  have hlen : p.length = ws.length := by have := congrArg List.length hd; simpa using this
  have hpne : p ≠ [] := by intro e; rw [e] at hlen; simp at hlen; omega
  obtain ⟨e1, e2⟩ := walk_end h0 hp hpne
  have hr := walk_rank h0 hp
  have o1 : n.out u ≠ [] := by
    obtain ⟨a, ha⟩ := List.exists_mem_of_ne_nil _ e1
    exact List.ne_nil_of_mem (h.old u a ha).1
  have o2 : n.inn v ≠ [] := by
    obtain ⟨a, ha⟩ := List.exists_mem_of_ne_nil _ e2
    obtain ⟨g1, g2⟩ := h0.inn_ok v a ha
    obtain ⟨k1, k2, _⟩ := h.old _ _ g2
    have := (h.wf.out_ok _ _ k1).2.2.1
    rw [k2, g1] at this
    exact List.ne_nil_of_mem this
  have hwf := insert_wf h.wf u v (some d) o1 o2 (by omega)
  have ne : ∀ w b, b ∈ n.out w → b ≠ n.nArcs := fun w b hb e => Nat.lt_irrefl _ (e ▸ (h.wf.out_ok w b hb).1)
  have grow : Grow n (n.insertBetween u v (some d)) := by
    intro w b hb
    rw [insert_dst, insert_data, insert_src, if_neg (ne w b hb), if_neg (ne w b hb), if_neg (ne w b hb), insert_out h.wf]
    refine ⟨?_, rfl, rfl, rfl⟩
    by_cases e : w = u
    · rw [if_pos e]; subst e; exact List.mem_append_left _ hb
    · rw [if_neg e]; exact hb
  refine ⟨⟨hwf, h.start, h.stop, h.nodes, ?_, ?_⟩, grow, ?_, n.nArcs, ?_, ?_, ?_⟩
  · intro w b hb
    obtain ⟨k1, k2, k3⟩ := h.old w b hb
    obtain ⟨g1, g2, g3, _⟩ := grow w b k1
    exact ⟨g1, g2.trans k2, g3.trans k3⟩
  · intro w b hb
    rw [insert_out h.wf] at hb
    have key : (w = u ∧ b = n.nArcs) ∨ b ∈ n.out w := by
      by_cases e : w = u
      · rw [if_pos e] at hb
        rcases List.mem_append.1 hb with h | h
        · exact Or.inr (e ▸ h)
        · exact Or.inl ⟨e, List.mem_singleton.1 h⟩
      · rw [if_neg e] at hb; exact Or.inr hb
    rcases key with ⟨rfl, rfl⟩ | hb
    · rw [insert_dst, insert_data, if_pos rfl, if_pos rfl]
      exact ⟨p, ws, d, hp, hd, rfl, hj, Or.inr ⟨hl, hc⟩⟩
    · rw [insert_dst, insert_data, if_neg (ne w b hb), if_neg (ne w b hb)]
      exact h.made w b hb
  · intro w hne
    rw [insert_out h.wf, if_neg hne]
  · rw [insert_out h.wf, if_pos rfl]; simp
  · rw [insert_dst, if_pos rfl]
  · rw [insert_data, if_pos rfl]

end Verif.Infer
