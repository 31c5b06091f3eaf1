import Verif.NetBuild.Chain
/-!
# Expanding the groups of a chain
-/
set_option autoImplicit false
namespace Verif.NetBuild
open Verif.Net Verif.Split

/-- A finished network: well-formed, with stop node `s`, reading exactly `P`; its sizes are bounded by `len`, the lengths
of the names of its inner nodes by `bd`, and its visited bits are uniform. -/
structure Good (bd len : Nat) (b : Built) (s : Nat) (P : List Parts → Prop) : Prop where
  wf : ∃ r, b.net.WF r
  stop : b.net.stop = some s
  words : b.net.Words
  lang : ∀ ws, Sp b.net (one b.net) b.net.start ws s ↔ P ws
  arcs : b.net.nArcs ≤ len
  hi : b.hi + 1 ≤ len
  flags : ∀ w i, b.net.inn w ≠ [] → b.flag2 w i = b.flag2 b.net.start i
  nStart : b.nameLen b.net.start ≤ 5
  nStop : b.nameLen s ≤ 4
  names : ∀ w, b.net.inn w ≠ [] → w ≠ s → b.nameLen w ≤ bd
  live : ∀ w, b.net.inn w ≠ [] → w ≠ s → b.net.out w ≠ []

/-- The result of `Built.merge`. -/
def mb (b : Built) (u v : Nat) (m : Built) (t : Nat) : Built :=
  { net := mg b.net u v m.net t
    flag2 := fun w => if w < b.net.nNodes then b.flag2 w else if m.net.out (w - b.net.nNodes) ≠ [] then b.flag2 b.net.start
      else m.flag2 (w - b.net.nNodes)
    nameLen := fun w => if w < b.net.nNodes then b.nameLen w else 1 + digits (b.hi + 1) + m.nameLen (w - b.net.nNodes)
    hi := b.hi + 1 }

theorem mb_eq {b m : Built} {u v t : Nat} (ht : m.net.stop = some t)
    (hn : ∀ k, k = m.net.start ∨ m.net.inn k ≠ [] → 1 + digits (b.hi + 1) + m.nameLen k < nameBuf) :
    b.merge u v m = some (mb b u v m t) := by
  unfold Built.merge
  simp only
  rw [if_pos, merge_eq ht]
  · rfl
  · rw [List.all_eq_true]
    intro k _
    by_cases h : k = m.net.start ∨ m.net.inn k ≠ []
    · have := hn k h
      simp [this]
    · have h1 : k ≠ m.net.start := fun e => h (Or.inl e)
      have h2 : m.net.inn k = [] := Classical.byContradiction fun e => h (Or.inr e)
      simp [visited, h1, h2]

theorem good_names {bd len dg h : Nat} {m : Built} {t : Nat} {P : List Parts → Prop} (hg : Good bd len m t P)
    (hd : digits h ≤ dg) (h1 : bd + 1 + dg < nameBuf) (h2 : 5 ≤ bd) :
    ∀ k, k = m.net.start ∨ m.net.inn k ≠ [] → 1 + digits h + m.nameLen k < nameBuf := by
  intro k hk
  have : m.nameLen k ≤ bd := by
    rcases hk with e | e
    · rw [e]; have := hg.nStart; omega
    · by_cases e2 : k = t
      · rw [e2]; have := hg.nStop; omega
      · exact hg.names k e e2
  omega

theorem mg_inn_old {W : Type} {n m : Net W} {rn rm : Nat → Nat} {u v t w : Nat} (hn : n.WF rn) (hm : m.WF rm) (hv : n.inn v ≠ [])
    (hw : w < n.nNodes) (h : (mg n u v m t).inn w ≠ []) : n.inn w ≠ [] := by
  rw [mg_inn hn hm] at h
  by_cases e : w = v
  · rw [e]; exact hv
  · rw [if_neg e, if_pos hw] at h; exact h

theorem mg_inn_new {W : Type} {n m : Net W} {rn rm : Nat → Nat} {u v t w : Nat} (hn : n.WF rn) (hm : m.WF rm) (hv : v < n.nNodes)
    (hw : ¬ w < n.nNodes) (h : (mg n u v m t).inn w ≠ []) :
    m.inn (w - n.nNodes) ≠ [] ∧ w - n.nNodes ≠ m.start ∧ w - n.nNodes ≠ t := by
  rw [mg_inn hn hm, if_neg (by omega), if_neg hw] at h
  split at h
  · exact absurd rfl h
  · rename_i h2
    refine ⟨fun e => h (by rw [e]; rfl), fun e => h2 (Or.inl e), fun e => h2 (Or.inr e)⟩

theorem mg_out_new {W : Type} {n m : Net W} {rn rm : Nat → Nat} {u v t w : Nat} (hn : n.WF rn) (hm : m.WF rm) (hu : u < n.nNodes)
    (hw : ¬ w < n.nNodes) (h1 : w - n.nNodes ≠ m.start) (h2 : w - n.nNodes ≠ t) :
    (mg n u v m t).out w = (m.out (w - n.nNodes)).map (n.nArcs + ·) := by
  rw [mg_out hn hm, if_neg (by omega), if_neg hw, if_neg (by simp [h1, h2])]

theorem mg_words {W : Type} {n m : Net W} {rn rm : Nat → Nat} {u v t : Nat} (hn : n.WF rn) (hm : m.WF rm) (h1 : n.Words) (h2 : m.Words) :
    (mg n u v m t).Words := by
  intro w a ha
  rw [mg_out hn hm] at ha
  have old : ∀ w, a ∈ n.out w → ∃ x, (mg n u v m t).data a = some x := by
    intro w h
    rw [mg_data_old (hn.out_ok _ _ h).1]
    exact h1 w a h
  have new : ∀ k, a ∈ (m.out k).map (n.nArcs + ·) → ∃ x, (mg n u v m t).data a = some x := by
    intro k h
    obtain ⟨b, hb, e⟩ := List.mem_map.1 h
    rw [← e, mg_data_new]
    exact h2 k b hb
  split at ha
  · rcases List.mem_append.1 ha with h | h
    · exact old _ h
    · exact new _ h
  · split at ha
    · exact old _ ha
    · split at ha
      · cases ha
      · exact new _ ha

theorem mix_congr {W : Type} {n : Net W} {σ τ : Nat → List W → Prop} {L M : List W → Prop} {u v : Nat}
    (h : ∀ x a vs, a ∈ n.out x → (σ a vs → τ a vs)) (hL : ∀ vs, L vs → M vs) {x y : Nat} {ws : List W}
    (hp : Mix n σ u v L x ws y) : Mix n τ u v M x ws y := by
  induction hp with
  | nil x => exact .nil x
  | arc x a vs ws y h1 h2 _ ih => exact .arc x a vs ws y h1 (h x a vs h1 h2) ih
  | sub vs ws y h1 _ ih => exact .sub vs ws y (hL vs h1) ih

theorem start_lt_stop {W : Type} {n : Net W} {r : Nat → Nat} (hn : n.WF r) : ∀ v, n.Reach v → v ≠ n.start → r n.start < r v := by
  intro v h
  induction h with
  | start => intro h; exact absurd rfl h
  | step v a hv ha ih =>
    intro _
    have := (hn.out_ok _ _ ha).2.2.2.2.2
    by_cases e : v = n.start
    · rw [← e]; exact this
    · have := ih e; omega

theorem start_out {W : Type} {n : Net W} {r : Nat → Nat} (hn : n.WF r) {s : Nat} (hs : n.stop = some s) : n.out n.start ≠ [] := by
  have h : ∀ v, n.Reach v → v ≠ n.start → n.out n.start ≠ [] := by
    intro v h
    induction h with
    | start => intro h; exact absurd rfl h
    | step v a hv ha ih =>
      intro _
      by_cases e : v = n.start
      · rw [← e]; exact List.ne_nil_of_mem ha
      · exact ih e
  have h1 := (hn.stop_ok s hs).2
  exact h s ((hn.reach_iff s).2 (Or.inr h1)) (inn_node hn h1).2

/-- Joining the networks of two alternatives. -/
theorem join_good {bd bd' len1 len2 dg : Nat} {f g : Built} {s t : Nat} {P Q : List Parts → Prop}
    (hf : Good bd' len1 f s P) (hg : Good bd len2 g t Q) (hd : digits (f.hi + 1) ≤ dg) (h1 : bd + 1 + dg ≤ bd') (h2 : bd' < nameBuf)
    (h3 : 5 ≤ bd) :
    ∃ b, join (some f) g = some b ∧ Good bd' (len1 + 1 + len2) b s (fun ws => P ws ∨ Q ws) := by
  obtain ⟨rn, hn⟩ := hf.wf
  obtain ⟨rm, hm⟩ := hg.wf
  have hi := (hn.stop_ok s hf.stop).2
  have hso := (hn.stop_ok s hf.stop).1
  obtain ⟨hsl, hss⟩ := inn_node hn hi
  have hto := (hm.stop_ok t hg.stop).1
  have hst := hn.start_lt
  have fits : Fits f.net rn f.net.start s :=
    ⟨hst, hsl, start_lt_stop hn s ((hn.reach_iff s).2 (Or.inr hi)) hss, ⟨s, hf.stop, hss.symm⟩, hss, Or.inl rfl⟩
  refine ⟨mb f f.net.start s g t, ?_, ?_⟩
  · unfold join
    simp only [hf.stop]
    exact mb_eq hg.stop (good_names hg hd (by omega) h3)
  · refine ⟨mg_wf hn hm hg.stop fits, hf.stop, mg_words hn hm hf.words hg.words, ?_, ?_, ?_, ?_, ?_, ?_, ?_, ?_⟩
    · intro ws
      show Sp (mg f.net f.net.start s g.net t) _ f.net.start ws s ↔ _
      rw [mg_sp hn hm hg.stop fits _ _ _ hst hsl, ← hf.lang, ← hg.lang, ← mix_parallel hn (one f.net) (fun ws => Sp g.net (one g.net) g.net.start ws t) hf.stop ws]
      have e1 : ∀ x a vs, a ∈ f.net.out x → (one (mg f.net f.net.start s g.net t) a vs ↔ one f.net a vs) := by
        intro x a vs ha
        unfold one
        rw [mg_data_old (hn.out_ok _ _ ha).1]
      have e2 : (fun b => one (mg f.net f.net.start s g.net t) (f.net.nArcs + b)) = one g.net := by
        funext b vs
        unfold one
        rw [mg_data_new]
      constructor
      · exact mix_congr (fun x a vs ha => (e1 x a vs ha).1) (fun vs h => e2 ▸ h)
      · exact mix_congr (fun x a vs ha => (e1 x a vs ha).2) (fun vs h => by rw [show (mb f f.net.start s g t).net = mg f.net f.net.start s g.net t from rfl, e2]; exact h)
    · show f.net.nArcs + g.net.nArcs ≤ _
      have := hf.arcs
      have := hg.arcs
      omega
    · show f.hi + 1 + 1 ≤ _
      have := hf.hi
      omega
    · intro w i hw
      show (if w < f.net.nNodes then f.flag2 w else if g.net.out (w - f.net.nNodes) ≠ [] then f.flag2 f.net.start
        else g.flag2 (w - f.net.nNodes)) i = (if f.net.start < f.net.nNodes then f.flag2 f.net.start else _) i
      rw [if_pos hst]
      by_cases h : w < f.net.nNodes
      · rw [if_pos h]
        exact hf.flags w i (mg_inn_old hn hm hi h hw)
      · obtain ⟨k1, k2, k3⟩ := mg_inn_new hn hm hsl h hw
        rw [if_neg h, if_pos (hg.live _ k1 k3)]
    · show (if f.net.start < f.net.nNodes then f.nameLen f.net.start else _) ≤ 5
      rw [if_pos hst]; exact hf.nStart
    · show (if s < f.net.nNodes then f.nameLen s else _) ≤ 4
      rw [if_pos hsl]; exact hf.nStop
    · intro w hw hws
      show (if w < f.net.nNodes then f.nameLen w else 1 + digits (f.hi + 1) + g.nameLen (w - f.net.nNodes)) ≤ bd'
      by_cases h : w < f.net.nNodes
      · rw [if_pos h]
        exact hf.names w (mg_inn_old hn hm hi h hw) hws
      · obtain ⟨k1, k2, k3⟩ := mg_inn_new hn hm hsl h hw
        rw [if_neg h]
        have := hg.names _ k1 k3
        omega
    · intro w hw hws
      show (mg f.net f.net.start s g.net t).out w ≠ []
      by_cases h : w < f.net.nNodes
      · have := hf.live w (mg_inn_old hn hm hi h hw) hws
        rw [mg_out hn hm]
        split
        · rename_i e
          intro h2
          rw [List.append_eq_nil_iff] at h2
          rw [e] at this
          exact this h2.1
        · exact this
      · obtain ⟨k1, k2, k3⟩ := mg_inn_new hn hm hsl h hw
        rw [mg_out_new hn hm hst h k2 k3]
        intro e
        exact hg.live _ k1 k3 (List.map_eq_nil_iff.1 e)

/-! ### One expansion -/

/-- State of the traversal in front of node `v`: the arcs `L` of the chain behind it are not yet expanded; they stand for
`D`. -/
structure Inv (d : Nat) (cur : Bool) (bd len : Nat) (wgt : Nat → Nat) (D : Nat → List Parts → Prop) (P : List Parts → Prop) (s : Nat)
    (b : Built) (v : Nat) (L : List Nat) : Prop where
  wf : ∃ r, b.net.WF r
  stop : b.net.stop = some s
  words : b.net.Words
  chain : Chain b.net s v L
  nodup : L.Nodup
  sp : ∀ ws, Sp b.net (fun a vs => if a ∈ L then D a vs else one b.net a vs) b.net.start ws s ↔ P ws
  arcs : b.net.nArcs + (L.map wgt).sum ≤ len
  hi : b.hi + 1 + (L.map wgt).sum ≤ len
  flags : ∀ w i, b.net.inn w ≠ [] → b.flag2 w i = if w ∈ L.map b.net.dst ∧ i = d then cur else b.flag2 b.net.start i
  bit : b.flag2 b.net.start d = !cur
  nStart : b.nameLen b.net.start ≤ 5
  nStop : b.nameLen s ≤ 4
  names : ∀ w, b.net.inn w ≠ [] → w ≠ s → b.nameLen w ≤ bd
  live : ∀ w, b.net.inn w ≠ [] → w ≠ s → b.net.out w ≠ []

/-- What the callback finds on an arc: a word, or a group whose alternatives give the network `sub`. -/
def ArcOk (create : List Nat → Option Built) (dg bd : Nat) (wgt : Nat → Nat) (D : Nat → List Parts → Prop) (data : Nat → Option Parts) (a : Nat) : Prop :=
  ∃ p, data a = some p ∧
    ((123 ∉ p.value ∧ ∀ vs, D a vs ↔ vs = [p]) ∨
     (123 ∈ p.value ∧ 1 ≤ wgt a ∧ ∃ toks sub t bdm, 5 ≤ bdm ∧ bdm + 1 + dg ≤ bd ∧ bd < nameBuf ∧
        pieces nextAlt (cutLast (p.value.drop 1)).length (cutLast (p.value.drop 1)) = some toks ∧
        toks.foldlM (altStep create) none = some (some sub) ∧
        Good bdm (wgt a) sub t (D a)))

theorem chain_congr {n n' : Net Parts} {s w : Nat} {L : List Nat} (h : Chain n s w L)
    (hc : ∀ x a, n.out x = [a] → a ∈ L → n'.out x = [a] ∧ n'.dst a = n.dst a) : Chain n' s w L := by
  induction h with
  | nil => exact .nil
  | cons v a L h1 _ ih =>
    obtain ⟨e1, e2⟩ := hc v a h1 (List.mem_cons_self ..)
    exact .cons v a L e1 (by rw [e2]; exact ih fun x b hx hb => hc x b hx (List.mem_cons_of_mem _ hb))

theorem chain_rank {n : Net Parts} {r : Nat → Nat} (hn : n.WF r) {s v : Nat} {L : List Nat} (h : Chain n s v L) :
    ∀ a ∈ L, r v < r (n.dst a) := by
  induction h with
  | nil => intro a h; cases h
  | cons v a L h1 _ ih =>
    intro b hb
    have := (hn.out_ok v a (by rw [h1]; exact List.mem_singleton.2 rfl)).2.2.2.2.2
    rcases List.mem_cons.1 hb with e | e
    · subst e; exact this
    · have := ih b e; omega

/-- Expanding the arc at the front of the chain. -/
theorem expand_step {create : List Nat → Option Built} {d : Nat} {cur : Bool} {bd dg len : Nat} {wgt : Nat → Nat}
    {D : Nat → List Parts → Prop} {P : List Parts → Prop} {s : Nat} {b : Built} {v a : Nat} {L : List Nat}
    (h : Inv d cur bd len wgt D P s b v (a :: L)) (ha : ArcOk create dg bd wgt D b.net.data a)
    (hd : ∀ k, k ≤ len → digits k ≤ dg) :
    ∃ b', expandArc create { b with flag2 := upd b.flag2 (b.net.dst a) (upd (b.flag2 (b.net.dst a)) d (!b.flag2 (b.net.dst a) d)) } a = some b' ∧
      Inv d cur bd len wgt D P s b' (b.net.dst a) L ∧ ∀ c ∈ L, b'.net.data c = b.net.data c := by
  obtain ⟨rn, hn⟩ := h.wf
  obtain ⟨p, hp, hcase⟩ := ha
  have hst := hn.start_lt
  -- the arc
  have hout : b.net.out v = [a] ∧ Chain b.net s (b.net.dst a) L := by
    have := h.chain
    cases this with
    | cons _ _ _ g1 g2 => exact ⟨g1, g2⟩
  obtain ⟨hout, hch⟩ := hout
  have hav : a ∈ b.net.out v := by rw [hout]; exact List.mem_singleton.2 rfl
  obtain ⟨g1, g2, g3, g4, g5, g6⟩ := hn.out_ok _ _ hav
  have hds := dst_ne_start hn hav
  have hdi : b.net.inn (b.net.dst a) ≠ [] := List.ne_nil_of_mem g3
  have hnd := List.nodup_cons.1 h.nodup
  have hdL : b.net.dst a ∉ L.map b.net.dst := by
    intro hm
    obtain ⟨c, hc, e⟩ := List.mem_map.1 hm
    have := chain_rank hn hch c hc
    rw [e] at this
    omega
  -- the flags after the push
  generalize hfl : upd b.flag2 (b.net.dst a) (upd (b.flag2 (b.net.dst a)) d (!b.flag2 (b.net.dst a) d)) = fl
  have hfs : fl b.net.start = b.flag2 b.net.start := by
    rw [← hfl, upd_ne _ _ _ _ hds.symm]
  have hflags : ∀ w i, b.net.inn w ≠ [] → fl w i = if w ∈ L.map b.net.dst ∧ i = d then cur else fl b.net.start i := by
    intro w i hw
    rw [hfs, ← hfl]
    have hold := h.flags w i hw
    by_cases e : w = b.net.dst a
    · rw [e, upd_self]
      rw [if_neg (fun hh => hdL hh.1)]
      rw [e] at hold
      by_cases ei : i = d
      · rw [ei, upd_self]
        rw [ei, if_pos ⟨by simp, rfl⟩] at hold
        rw [hold, h.bit]
      · rw [upd_ne _ _ _ _ ei, hold, if_neg (fun hh => ei hh.2)]
    · rw [upd_ne _ _ _ _ e, hold]
      have : (w ∈ (a :: L).map b.net.dst ∧ i = d) ↔ (w ∈ L.map b.net.dst ∧ i = d) := by
        rw [List.map_cons, List.mem_cons]
        constructor
        · rintro ⟨h1 | h1, h2⟩
          · exact absurd h1 e
          · exact ⟨h1, h2⟩
        · rintro ⟨h1, h2⟩; exact ⟨Or.inr h1, h2⟩
      by_cases hh : w ∈ L.map b.net.dst ∧ i = d
      · rw [if_pos hh, if_pos (this.2 hh)]
      · rw [if_neg hh, if_neg (fun h => hh (this.1 h))]
  have hsum : ((a :: L).map wgt).sum = wgt a + (L.map wgt).sum := by simp
  rcases hcase with ⟨hno, hD⟩ | ⟨hyes, hwg, toks, sub, t, bdm, h3, h1, h2, hpc, hfold, hg⟩
  · -- a word
    refine ⟨{ b with flag2 := fl }, ?_, ?_, fun _ _ => rfl⟩
    · unfold expandArc
      simp only [hp, if_neg hno]
    · have ha' := h.arcs
      have hh' := h.hi
      rw [hsum] at ha' hh'
      refine ⟨h.wf, h.stop, h.words, hch, hnd.2, ?_, by show b.net.nArcs + _ ≤ _; omega, by show b.hi + 1 + _ ≤ _; omega, hflags, by
        show fl b.net.start d = _; rw [hfs]; exact h.bit, h.nStart, h.nStop, h.names, h.live⟩
      intro ws
      rw [← h.sp ws]
      have key : ∀ c vs, (if c ∈ L then D c vs else one b.net c vs) ↔ (if c ∈ a :: L then D c vs else one b.net c vs) := by
        intro c vs
        by_cases hc : c = a
        · rw [if_neg (hc ▸ hnd.1), if_pos (hc ▸ List.mem_cons_self ..), hc, hD]
          unfold one
          rw [hp]
          constructor
          · rintro ⟨x, hx, e⟩; cases hx; exact e
          · intro e; exact ⟨p, rfl, e⟩
        · by_cases hc2 : c ∈ L
          · rw [if_pos hc2, if_pos (List.mem_cons_of_mem _ hc2)]
          · rw [if_neg hc2, if_neg (by simp [hc, hc2])]
      exact ⟨sp_congr fun _ c vs _ => (key c vs).1, sp_congr fun _ c vs _ => (key c vs).2⟩
  · -- a group
    obtain ⟨rm, hm⟩ := hg.wf
    have hso := hn.stop_ok s h.stop
    obtain ⟨hsl, hss⟩ := inn_node hn hso.2
    have hti := (hm.stop_ok t hg.stop).2
    have hvs : v ≠ s := by
      intro e; rw [e, hso.1] at hav; cases hav
    have hvi : v = b.net.start ∨ b.net.inn v ≠ [] := by
      by_cases e : v = b.net.start
      · exact Or.inl e
      · exact Or.inr (hn.source v (List.ne_nil_of_mem hav) e)
    have fits : Fits b.net rn v (b.net.dst a) := ⟨g4, g5, g6, ⟨s, h.stop, hvs⟩, hds, hvi⟩
    have hh' := h.hi
    have ha' := h.arcs
    rw [hsum] at hh' ha'
    have hdig : digits (b.hi + 1) ≤ dg := hd _ (by omega)
    let B : Built := { b with flag2 := fl }
    have hmrg : B.merge v (b.net.dst a) sub = some (mb B v (b.net.dst a) sub t) :=
      mb_eq hg.stop (good_names hg hdig (by omega) h3)
    let M := mg b.net v (b.net.dst a) sub.net t
    obtain ⟨rM, hM⟩ := mg_wf hn hm hg.stop fits
    have hMs : M.src a = v := by show (mg _ _ _ _ _).src a = v; rw [mg_src_old g1, g2]
    have hMd : M.dst a = b.net.dst a := mg_dst_old g1
    have hMi : (M.inn (M.dst a)).filter (· ≠ a) ≠ [] := by
      rw [hMd]
      obtain ⟨c, hc⟩ := List.exists_mem_of_ne_nil _ hti
      refine List.ne_nil_of_mem (a := b.net.nArcs + c) (List.mem_filter.2 ⟨?_, by simp; omega⟩)
      show _ ∈ (mg _ _ _ _ _).inn _
      rw [mg_inn hn hm, if_pos rfl]
      exact List.mem_append_right _ (List.mem_map.2 ⟨c, hc, rfl⟩)
    have hMo : (M.out (M.src a)).filter (· ≠ a) ≠ [] := by
      rw [hMs]
      obtain ⟨c, hc⟩ := List.exists_mem_of_ne_nil _ (start_out hm hg.stop)
      refine List.ne_nil_of_mem (a := b.net.nArcs + c) (List.mem_filter.2 ⟨?_, by simp; omega⟩)
      show _ ∈ (mg _ _ _ _ _).out _
      rw [mg_out hn hm, if_pos rfl]
      exact List.mem_append_right _ (List.mem_map.2 ⟨c, hc, rfl⟩)
    have hLa : ∀ c ∈ L, c < b.net.nArcs ∧ c ≠ a := by
      intro c hc
      obtain ⟨x, hx⟩ := hch.mem c hc
      exact ⟨(hn.out_ok x c (by rw [hx]; exact List.mem_singleton.2 rfl)).1, fun e => hnd.1 (e ▸ hc)⟩
    have hdelI : ∀ w, (del M a).inn w ≠ [] → M.inn w ≠ [] := by
      intro w hw e
      rw [del_inn hM, e] at hw
      exact hw rfl
    have hdstL : L.map (del M a).dst = L.map b.net.dst := by
      apply List.map_congr_left
      intro c hc
      exact mg_dst_old (u := v) (hLa c hc).1
    refine ⟨{ mb B v (b.net.dst a) sub t with net := del M a }, ?_, ?_, ?_⟩
    · unfold expandArc
      simp only [hp, if_pos hyes, hpc, hfold, g2]
      rw [show ({ net := b.net, flag2 := fl, nameLen := b.nameLen, hi := b.hi } : Built).merge v (b.net.dst a) sub = _ from hmrg]
      simp only
      rw [show (mb B v (b.net.dst a) sub t).net = M from rfl, deleteArc_eq hMi hMo]
      rfl
    · refine ⟨⟨rM, del_wf hM hMi hMo⟩, h.stop, ?_, ?_, hnd.2, ?_, ?_, ?_, ?_, ?_, ?_, ?_, ?_, ?_⟩
      · intro w c hc
        have hc : c ∈ (del M a).out w := hc
        rw [del_out hM, List.mem_filter] at hc
        exact mg_words hn hm h.words hg.words w c hc.1
      · refine chain_congr hch ?_
        intro x c hx hc
        have hcx : c ∈ b.net.out x := by rw [hx]; exact List.mem_singleton.2 rfl
        have hxv : x ≠ v := by
          intro e
          rw [e, hout] at hx
          exact (hLa c hc).2 (List.cons.inj hx).1.symm
        refine ⟨?_, mg_dst_old (u := v) (hLa c hc).1⟩
        show (del M a).out x = [c]
        rw [del_out hM]
        show ((mg _ _ _ _ _).out x).filter _ = _
        rw [mg_out hn hm, if_neg hxv, if_pos (hn.out_ok _ _ hcx).2.2.2.1, hx]
        simp [(hLa c hc).2]
      · intro ws
        rw [← h.sp ws]
        show Sp (del M a) _ b.net.start ws s ↔ _
        rw [del_sp hM, mg_sp hn hm hg.stop fits _ _ _ hst hsl]
        have hAl : ∀ vs, Sp sub.net (fun c vs => b.net.nArcs + c ≠ a ∧
            (if b.net.nArcs + c ∈ L then D (b.net.nArcs + c) vs else one (del M a) (b.net.nArcs + c) vs)) sub.net.start vs t ↔ D a vs := by
          intro vs
          rw [← hg.lang]
          have key : ∀ c vs, (b.net.nArcs + c ≠ a ∧
              (if b.net.nArcs + c ∈ L then D (b.net.nArcs + c) vs else one (del M a) (b.net.nArcs + c) vs)) ↔ one sub.net c vs := by
            intro c vs
            have hn1 : b.net.nArcs + c ∉ L := fun hh => by have := (hLa _ hh).1; omega
            rw [if_neg hn1]
            have : one (del M a) (b.net.nArcs + c) vs ↔ one sub.net c vs := by
              unfold one
              rw [show (del M a).data (b.net.nArcs + c) = sub.net.data c from mg_data_new (u := v) (v := b.net.dst a) (t := t) c]
            rw [this]
            exact ⟨fun hh => hh.2, fun hh => ⟨by omega, hh⟩⟩
          exact ⟨sp_congr fun _ c vs _ => (key c vs).1, sp_congr fun _ c vs _ => (key c vs).2⟩
        have hao : a ∈ b.net.out (b.net.src a) := by rw [g2]; exact hav
        have hsub := mix_subst (fun c vs => if c ∈ L then D c vs else one b.net c vs) (D a) hao b.net.start s ws hn
        rw [g2] at hsub
        have step1 : Mix b.net (fun c vs => c ≠ a ∧ (if c ∈ L then D c vs else one (del M a) c vs)) v (b.net.dst a)
            (fun vs => Sp sub.net (fun c vs => b.net.nArcs + c ≠ a ∧
              (if b.net.nArcs + c ∈ L then D (b.net.nArcs + c) vs else one (del M a) (b.net.nArcs + c) vs)) sub.net.start vs t) b.net.start ws s ↔
            Mix b.net (fun c vs => c ≠ a ∧ (if c ∈ L then D c vs else one b.net c vs)) v (b.net.dst a) (D a) b.net.start ws s := by
          have key : ∀ x c vs, c ∈ b.net.out x → ((c ≠ a ∧ (if c ∈ L then D c vs else one (del M a) c vs)) ↔
              (c ≠ a ∧ (if c ∈ L then D c vs else one b.net c vs))) := by
            intro x c vs hc
            have : one (del M a) c vs ↔ one b.net c vs := by
              unfold one
              rw [show (del M a).data c = b.net.data c from mg_data_old (u := v) (v := b.net.dst a) (t := t) (m := sub.net) (hn.out_ok _ _ hc).1]
            by_cases hcL : c ∈ L
            · rw [if_pos hcL, if_pos hcL]
            · rw [if_neg hcL, if_neg hcL, this]
          exact ⟨mix_congr (fun x c vs hc => (key x c vs hc).1) (fun vs => (hAl vs).1),
            mix_congr (fun x c vs hc => (key x c vs hc).2) (fun vs => (hAl vs).2)⟩
        refine step1.trans (hsub.trans ?_)
        have key : ∀ c vs, (if c = a then D a vs else if c ∈ L then D c vs else one b.net c vs) ↔
            (if c ∈ a :: L then D c vs else one b.net c vs) := by
          intro c vs
          by_cases hc : c = a
          · rw [if_pos hc, if_pos (hc ▸ List.mem_cons_self ..), hc]
          · rw [if_neg hc]
            by_cases hc2 : c ∈ L
            · rw [if_pos hc2, if_pos (List.mem_cons_of_mem _ hc2)]
            · rw [if_neg hc2, if_neg (by simp [hc, hc2])]
        exact ⟨sp_congr fun _ c vs _ => (key c vs).1, sp_congr fun _ c vs _ => (key c vs).2⟩
      · show b.net.nArcs + sub.net.nArcs + _ ≤ _
        have := hg.arcs
        omega
      · show b.hi + 1 + 1 + _ ≤ _
        omega
      · intro w i hw
        rw [hdstL]
        show (if w < b.net.nNodes then fl w else if sub.net.out (w - b.net.nNodes) ≠ [] then fl b.net.start
          else sub.flag2 (w - b.net.nNodes)) i = if w ∈ L.map b.net.dst ∧ i = d then cur else
            (if b.net.start < b.net.nNodes then fl b.net.start else _) i
        have hw := hdelI w hw
        by_cases hlt : w < b.net.nNodes
        · rw [if_pos hlt, if_pos hst]
          exact hflags w i (mg_inn_old hn hm hdi hlt hw)
        · obtain ⟨k1, k2, k3⟩ := mg_inn_new hn hm g5 hlt hw
          have : w ∉ L.map b.net.dst := by
            intro hm'
            obtain ⟨c, hc, e⟩ := List.mem_map.1 hm'
            obtain ⟨x, hx⟩ := hch.mem c hc
            have := (hn.out_ok x c (by rw [hx]; exact List.mem_singleton.2 rfl)).2.2.2.2.1
            omega
          rw [if_neg hlt, if_pos (hg.live _ k1 k3), if_neg (fun hh => this hh.1), if_pos hst]
      · show (if b.net.start < b.net.nNodes then fl b.net.start else _) d = _
        rw [if_pos hst, hfs]
        exact h.bit
      · show (if b.net.start < b.net.nNodes then b.nameLen b.net.start else _) ≤ 5
        rw [if_pos hst]; exact h.nStart
      · show (if s < b.net.nNodes then b.nameLen s else _) ≤ 4
        rw [if_pos hsl]; exact h.nStop
      · intro w hw hws
        have hw := hdelI w hw
        show (if w < b.net.nNodes then b.nameLen w else 1 + digits (b.hi + 1) + sub.nameLen (w - b.net.nNodes)) ≤ bd
        by_cases hlt : w < b.net.nNodes
        · rw [if_pos hlt]
          exact h.names w (mg_inn_old hn hm hdi hlt hw) hws
        · obtain ⟨k1, k2, k3⟩ := mg_inn_new hn hm g5 hlt hw
          rw [if_neg hlt]
          have := hg.names _ k1 k3
          omega
      · intro w hw hws
        have hw := hdelI w hw
        show (del M a).out w ≠ []
        by_cases hwv : w = v
        · rw [hwv, del_out hM]
          rw [hMs] at hMo
          exact hMo
        rw [del_out hM]
        by_cases hlt : w < b.net.nNodes
        · have := h.live w (mg_inn_old hn hm hdi hlt hw) hws
          show ((mg _ _ _ _ _).out w).filter _ ≠ _
          rw [mg_out hn hm, if_neg hwv, if_pos hlt]
          obtain ⟨c, hc⟩ := List.exists_mem_of_ne_nil _ this
          refine List.ne_nil_of_mem (a := c) (List.mem_filter.2 ⟨hc, ?_⟩)
          simp only [ne_eq, decide_eq_true_eq]
          intro e
          have := (hn.out_ok _ _ hc).2.1
          rw [e, g2] at this
          exact hwv this.symm
        · obtain ⟨k1, k2, k3⟩ := mg_inn_new hn hm g5 hlt hw
          show ((mg _ _ _ _ _).out w).filter _ ≠ _
          rw [mg_out_new hn hm g4 hlt k2 k3]
          obtain ⟨c, hc⟩ := List.exists_mem_of_ne_nil _ (hg.live _ k1 k3)
          refine List.ne_nil_of_mem (a := b.net.nArcs + c) (List.mem_filter.2 ⟨List.mem_map.2 ⟨c, hc, rfl⟩, by simp; omega⟩)
    · intro c hc
      exact mg_data_old (u := v) (v := b.net.dst a) (t := t) (hLa c hc).1

/-- The whole traversal. -/
theorem expand_loop {create : List Nat → Option Built} {d : Nat} {cur : Bool} {bd dg len : Nat} {wgt : Nat → Nat}
    {D : Nat → List Parts → Prop} {P : List Parts → Prop} {s : Nat}
    (hd : ∀ k, k ≤ len → digits k ≤ dg) :
    ∀ (L : List Nat) (fuel : Nat) (b : Built) (v : Nat), L.length < fuel → Inv d cur bd len wgt D P s b v L →
      (∀ a ∈ L, ArcOk create dg bd wgt D b.net.data a) →
      ∃ b', expandLoop create d cur fuel b [v] = some b' ∧ Good bd len b' s P := by
  intro L
  induction L with
  | nil =>
    intro fuel b v hf h _
    match fuel, hf with
    | fuel + 1, _ =>
      obtain ⟨r, hn⟩ := h.wf
      have hv : v = s := by
        have := h.chain
        cases this with
        | nil => rfl
      have hout : b.net.out v = [] := by rw [hv]; exact (hn.stop_ok s h.stop).1
      refine ⟨b, ?_, ?_⟩
      · unfold expandLoop
        simp only [hout, List.map_nil, List.foldl_nil]
        show (match some b with | none => none | some b' => expandLoop create d cur fuel b' []) = some b
        simp only
        cases fuel <;> rfl
      · refine ⟨h.wf, h.stop, h.words, ?_, by simpa using h.arcs, by simpa using h.hi, ?_, h.nStart, h.nStop, h.names, h.live⟩
        · intro ws
          rw [← h.sp ws]
          simp
        · intro w i hw
          rw [h.flags w i hw]
          simp
  | cons a L ih =>
    intro fuel b v hf h hA
    match fuel, hf with
    | fuel + 1, hf =>
      obtain ⟨b', e1, e2, e3⟩ := expand_step h (hA a (List.mem_cons_self ..)) hd
      have hchain := h.chain
      obtain ⟨r, hn⟩ := h.wf
      have hout : b.net.out v = [a] := by
        cases hchain with
        | cons _ _ _ g1 g2 => exact g1
      have hav : a ∈ b.net.out v := by rw [hout]; exact List.mem_singleton.2 rfl
      have hfl : b.flag2 (b.net.dst a) d = cur := by
        rw [h.flags _ d (List.ne_nil_of_mem (hn.out_ok _ _ hav).2.2.1), if_pos ⟨by simp, rfl⟩]
      obtain ⟨b'', e4, e5⟩ := ih fuel b' (b.net.dst a) (by simpa using hf) e2 (by
        intro c hc
        have := hA c (List.mem_cons_of_mem _ hc)
        unfold ArcOk at this ⊢
        rw [e3 c hc]
        exact this)
      refine ⟨b'', ?_, e5⟩
      unfold expandLoop
      simp only [hout, List.map_cons, List.map_nil, List.foldl_cons, List.foldl_nil]
      have hp : push d cur (b.flag2, []) (b.net.dst a) =
          (upd b.flag2 (b.net.dst a) (upd (b.flag2 (b.net.dst a)) d (!b.flag2 (b.net.dst a) d)), [b.net.dst a]) := by
        unfold push
        simp only
        rw [if_neg (by simp [hfl])]
      rw [hp]
      simp only [List.foldlM_cons, List.foldlM_nil]
      rw [e1]
      simp only [Option.bind_eq_bind, Option.bind_some, Option.pure_def]
      exact e4

end Verif.NetBuild
