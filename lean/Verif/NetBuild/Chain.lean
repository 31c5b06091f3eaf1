import Verif.NetBuild.Merge
/-!
# The chain of tokens built before groups are expanded
-/
set_option autoImplicit false
namespace Verif.NetBuild
open Verif.Net Verif.Split
variable {W : Type}

/-- `Chain n s v L`: from `v` there is exactly one way on, along the arcs `L`, ending in `s`. -/
inductive Chain (n : Net W) (s : Nat) : Nat → List Nat → Prop where
  | nil : Chain n s s []
  | cons (v a : Nat) (L : List Nat) : n.out v = [a] → Chain n s (n.dst a) L → Chain n s v (a :: L)

theorem Chain.at_stop {n : Net W} {s : Nat} {L : List Nat} (h : Chain n s s L) (hs : n.out s = []) : L = [] := by
  cases h with
  | nil => rfl
  | cons _ a L h1 => rw [hs] at h1; cases h1

theorem Chain.mem {n : Net W} {s v : Nat} {L : List Nat} (h : Chain n s v L) : ∀ a ∈ L, ∃ w, n.out w = [a] := by
  induction h with
  | nil => intro a h; cases h
  | cons v a L h1 _ ih =>
    intro b hb
    rcases List.mem_cons.1 hb with e | e
    · subst e; exact ⟨v, h1⟩
    · exact ih b e

/-- Inserting an arc in front of the end prolongs the chain. -/
theorem Chain.before {n : Net W} {rank : Nat → Nat} {s v : Nat} {L : List Nat} (hw : n.WF rank) (hs : n.out s = []) (d : Option W)
    (h : Chain n s v L) : v ≠ s → v ≠ n.nNodes → Chain (n.insertBefore s d) s v (L ++ [n.nArcs]) := by
  induction h with
  | nil => intro h; exact absurd rfl h
  | cons v a L h1 h2 ih =>
    intro hv hvn
    have ha : a ∈ n.out v := by rw [h1]; exact List.mem_singleton.2 rfl
    obtain ⟨g1, g2, g3, g4, g5, g6⟩ := hw.out_ok _ _ ha
    refine .cons v a _ ?_ ?_
    · rw [before_out, if_neg hvn]; exact h1
    · rw [before_dst, if_neg (by omega)]
      by_cases e : n.dst a = s
      · rw [if_pos ((inn_iff hw ha s).2 e)]
        rw [e] at h2
        rw [h2.at_stop hs]
        refine .cons n.nNodes n.nArcs [] ?_ ?_
        · rw [before_out, if_pos rfl]
        · rw [before_dst, if_pos rfl]; exact .nil
      · rw [if_neg (fun h => e ((inn_iff hw ha s).1 h))]
        exact ih e (by omega)

/-- The state of the construction after the tokens `ps` have been appended. -/
structure Base (dg : Nat) (b : Built) (ps : List Parts) (s : Nat) (L : List Nat) : Prop where
  wf : ∃ r, b.net.WF r
  stop : b.net.stop = some s
  words : b.net.Words
  chain : Chain b.net s b.net.start L
  data : L.map b.net.data = ps.map some
  nodup : L.Nodup
  arcs : b.net.nArcs = ps.length
  nodes : b.net.nNodes = ps.length + 1
  hi : b.hi + 1 = ps.length
  flags : ∀ w d, b.flag2 w d = false
  nStart : b.nameLen b.net.start = 5
  nStop : b.nameLen s = 4
  names : ∀ w, b.net.inn w ≠ [] → w ≠ s → b.nameLen w ≤ dg
  live : ∀ w, b.net.inn w ≠ [] → w ≠ s → b.net.out w ≠ []

theorem base_one (dg : Nat) (p : Parts) : ∃ s L, Base dg (Built.init.addTail p) [p] s L := by
  have hw := init_wf (W := Parts)
  have e : (Built.init.addTail p).net = (Net.init Parts).addHead (some p) := rfl
  refine ⟨1, [0], ⟨⟨_, e ▸ head_wf (some p) hw⟩, rfl, ?_, ?_, rfl, by simp, rfl, rfl, rfl, ?_, rfl, rfl, ?_, ?_⟩⟩
  · intro v a ha
    rw [e, head_out _ hw] at ha
    split at ha
    · have := List.mem_singleton.1 ha
      subst this
      exact ⟨p, rfl⟩
    · split at ha <;> cases ha
  · rw [e]
    refine .cons 0 0 [] ?_ ?_
    · rw [head_out _ hw]; rfl
    · exact .nil
  · intro w d
    show upd (fun _ _ => false) 1 (fun _ => false) w d = false
    unfold upd
    split <;> rfl
  · intro w h1 h2
    rw [e, head_inn] at h1
    split at h1
    · rename_i h3; exact absurd h3 h2
    · exact absurd rfl h1
  · intro w h1 h2
    rw [e, head_inn] at h1
    split at h1
    · rename_i h3; exact absurd h3 h2
    · exact absurd rfl h1

theorem base_snoc {dg : Nat} {b : Built} {ps : List Parts} {s : Nat} {L : List Nat} (h : Base dg b ps s L) (p : Parts)
    (hd : digits ps.length ≤ dg) : Base dg (b.addTail p) (ps ++ [p]) s (L ++ [b.net.nArcs]) := by
  obtain ⟨r, hw⟩ := h.wf
  have hso := hw.stop_ok s h.stop
  obtain ⟨hsl, hss⟩ := inn_node hw hso.2
  have hst := hw.start_lt
  have e : (b.addTail p).net = b.net.insertBefore s (some p) := by
    show b.net.addTail (some p) = _
    unfold Net.addTail
    rw [h.stop]
  have ef : (b.addTail p).flag2 = upd b.flag2 b.net.nNodes (b.flag2 b.net.start) := rfl
  have en : (b.addTail p).nameLen = upd b.nameLen b.net.nNodes (digits (b.hi + 1)) := by
    show upd b.nameLen b.net.nNodes (if b.net.stop = none then 4 else _) = _
    rw [if_neg (by rw [h.stop]; simp)]
  have eh : (b.addTail p).hi = b.hi + 1 := by
    show (if b.net.stop = none then _ else _) = _
    rw [if_neg (by rw [h.stop]; simp)]
  have hLa : ∀ a ∈ L, a < b.net.nArcs := by
    intro a ha
    obtain ⟨w, hw'⟩ := h.chain.mem a ha
    exact (hw.out_ok w a (by rw [hw']; exact List.mem_singleton.2 rfl)).1
  refine ⟨⟨_, e ▸ before_wf (some p) hw hso.2⟩, by rw [e]; exact h.stop, ?_, ?_, ?_, ?_, ?_, ?_, ?_, ?_, ?_, ?_, ?_, ?_⟩
  · intro v a ha
    have ha : a ∈ (b.net.addTail (some p)).out v := ha
    exact tail_words p hw h.words v a ha
  · rw [e]
    exact h.chain.before hw hso.1 (some p) hss.symm (by show b.net.start ≠ _; omega)
  · rw [List.map_append, List.map_append, ← h.data, e]
    congr 1
    · apply List.map_congr_left
      intro a ha
      rw [before_data, if_neg (by have := hLa a ha; omega)]
    · show [(b.net.insertBefore s (some p)).data b.net.nArcs] = _
      rw [before_data, if_pos rfl]
      rfl
  · rw [List.nodup_append]
    refine ⟨h.nodup, by simp, ?_⟩
    intro a ha c hc e2
    have := hLa a ha
    rw [List.mem_singleton.1 hc] at e2
    omega
  · rw [e, List.length_append]
    show b.net.nArcs + 1 = _
    rw [h.arcs]; rfl
  · rw [e, List.length_append]
    show b.net.nNodes + 1 = _
    rw [h.nodes]; rfl
  · rw [eh, h.hi, List.length_append]; rfl
  · intro w d
    rw [ef]
    unfold upd
    split
    · exact h.flags _ d
    · exact h.flags w d
  · rw [e, en]
    show upd b.nameLen b.net.nNodes _ b.net.start = 5
    rw [upd_ne _ _ _ _ (by omega)]
    exact h.nStart
  · rw [en, upd_ne _ _ _ _ (by omega)]
    exact h.nStop
  · intro w h1 h2
    rw [e, before_inn _ hw, if_neg h2] at h1
    rw [en]
    by_cases h3 : w = b.net.nNodes
    · rw [h3, upd_self, h.hi]; exact hd
    · rw [if_neg h3] at h1
      rw [upd_ne _ _ _ _ h3]
      exact h.names w h1 h2
  · intro w h1 h2
    rw [e, before_inn _ hw, if_neg h2] at h1
    rw [e, before_out]
    by_cases h3 : w = b.net.nNodes
    · rw [if_pos h3]; simp
    · rw [if_neg h3] at h1 ⊢
      exact h.live w h1 h2

/-- The chain of one or more tokens. -/
theorem base_all (dg : Nat) : ∀ (k : Nat) (ps : List Parts), ps.length = k + 1 → (∀ i, i < ps.length → digits i ≤ dg) →
    ∃ s L, Base dg (ps.foldl Built.addTail Built.init) ps s L := by
  intro k
  induction k with
  | zero =>
    intro ps hk _
    match ps, hk with
    | [p], _ => exact base_one dg p
  | succ k ih =>
    intro ps hk hd
    rcases List.eq_nil_or_concat ps with e | ⟨ps', p, e⟩
    · subst e; simp at hk
    · rw [List.concat_eq_append] at e
      subst e
      have hl : ps'.length = k + 1 := by simpa using hk
      obtain ⟨s, L, hb⟩ := ih ps' hl (fun i hi => hd i (by rw [List.length_append]; omega))
      refine ⟨s, L ++ [(ps'.foldl Built.addTail Built.init).net.nArcs], ?_⟩
      rw [List.foldl_append]
      exact base_snoc hb p (hd _ (by rw [List.length_append]; simp))

/-- Reading a chain: one reading per arc, in order. -/
theorem chain_sp {n : Net W} {s v : Nat} {L : List Nat} (hs : n.out s = []) (σ : Nat → List W → Prop) (h : Chain n s v L) (ws : List W) :
    Sp n σ v ws s ↔ ∃ parts : List (List W), ws = parts.flatten ∧ parts.length = L.length ∧
      ∀ (i : Nat) (a : Nat) (p : List W), L[i]? = some a → parts[i]? = some p → σ a p := by
  induction h generalizing ws with
  | nil =>
    constructor
    · intro h
      refine ⟨[], ?_, rfl, by intro i a p h; simp at h⟩
      cases h with
      | nil => rfl
      | cons _ a vs ws _ h1 => rw [hs] at h1; cases h1
    · rintro ⟨parts, e, hl, _⟩
      have : parts = [] := List.length_eq_zero_iff.1 hl
      subst this; subst e
      exact .nil s
  | cons v a L h1 h2 ih =>
    constructor
    · intro h
      generalize hy : s = y at h
      cases h with
      | nil =>
        subst hy
        rw [hs] at h1; cases h1
      | cons _ b vs ws' _ g1 g2 g3 =>
        rw [h1] at g1
        have := List.mem_singleton.1 g1
        subst this
        subst hy
        obtain ⟨parts, e1, e2, e3⟩ := (ih ws').1 g3
        refine ⟨vs :: parts, by rw [e1]; rfl, by simp [e2], ?_⟩
        intro i c p hc hp
        cases i with
        | zero =>
          simp only [List.getElem?_cons_zero, Option.some.injEq] at hc hp
          subst hc; subst hp; exact g2
        | succ i =>
          simp only [List.getElem?_cons_succ] at hc hp
          exact e3 i c p hc hp
    · rintro ⟨parts, e1, e2, e3⟩
      match parts, e2 with
      | q :: parts, e2 =>
        subst e1
        rw [List.flatten_cons]
        refine .cons v a q _ s (by rw [h1]; exact List.mem_singleton.2 rfl) (e3 0 a q rfl rfl) ?_
        rw [ih]
        exact ⟨parts, rfl, by simpa using e2, fun i c p hc hp => e3 (i + 1) c p (by simpa using hc) (by simpa using hp)⟩

end Verif.NetBuild
