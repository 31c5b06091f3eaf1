import Verif.WtokeNet.Model
import Verif.NetBuild.Expand
import Verif.Net.Build
/-!
# Putting a network at the end or the beginning of another
-/
set_option autoImplicit false
namespace Verif.WtokeNet
open Verif.Net
open Verif.NetBuild (Sp one Mix mg merge deleteArc del Fits produces_sp sp_congr merge_eq mg_wf mg_sp mg_words mg_out mg_inn mg_data_old
  mg_data_new mg_dst_old mg_src_old mix_subst mix_congr mix_parallel deleteArc_eq del_wf del_sp del_out start_lt_stop start_out)
variable {W : Type} {n m : Net W} {rank rn rm : Nat → Nat}

/-- `ws` is put together from what the arcs stand for. -/
def Cat (σ : Nat → List W → Prop) : List Nat → List W → Prop
  | [], ws => ws = []
  | a :: p, ws => ∃ vs us, ws = vs ++ us ∧ σ a vs ∧ Cat σ p us

theorem sp_path (σ : Nat → List W → Prop) (v w : Nat) (ws : List W) : Sp n σ v ws w ↔ ∃ p, n.Walk v p w ∧ Cat σ p ws := by
  constructor
  · intro h
    induction h with
    | nil v => exact ⟨[], .nil v, rfl⟩
    | cons v a vs ws w h1 h2 _ ih =>
      obtain ⟨p, hp, hc⟩ := ih
      exact ⟨a :: p, .cons _ _ _ _ h1 hp, vs, ws, rfl, h2, hc⟩
  · rintro ⟨p, hp, hc⟩
    induction hp generalizing ws with
    | nil v => cases hc; exact .nil v
    | cons v a p w h1 _ ih =>
      obtain ⟨vs, us, e, h2, h3⟩ := hc
      subst e
      exact .cons _ _ _ _ _ h1 h2 (ih us h3)

theorem cat_append (σ : Nat → List W → Prop) (p q : List Nat) (ws : List W) :
    Cat σ (p ++ q) ws ↔ ∃ vs us, ws = vs ++ us ∧ Cat σ p vs ∧ Cat σ q us := by
  induction p generalizing ws with
  | nil =>
    constructor
    · intro h; exact ⟨[], ws, rfl, rfl, h⟩
    · rintro ⟨vs, us, e, h1, h2⟩; cases h1; rw [e]; exact h2
  | cons a p ih =>
    constructor
    · rintro ⟨vs, us, e, h1, h2⟩
      obtain ⟨x, y, e2, h3, h4⟩ := (ih us).1 h2
      exact ⟨vs ++ x, y, by rw [e, e2, List.append_assoc], ⟨vs, x, rfl, h1, h3⟩, h4⟩
    · rintro ⟨vs, us, e, ⟨x, y, e2, h1, h3⟩, h4⟩
      exact ⟨x, y ++ us, by rw [e, e2, List.append_assoc], h1, (ih _).2 ⟨y, us, rfl, h3, h4⟩⟩

theorem cat_single (σ : Nat → List W → Prop) (a : Nat) (ws : List W) : Cat σ [a] ws ↔ σ a ws := by
  constructor
  · rintro ⟨vs, us, e, h1, h2⟩; cases h2; rw [e, List.append_nil]; exact h1
  · intro h; exact ⟨ws, [], by rw [List.append_nil], h, rfl⟩

/-- The paths through the whole network. -/
def Through (n : Net W) (q : List Nat) : Prop :=
  match n.stop with
  | none => q = []
  | some s => n.Walk n.start q s

/-- What a network stands for when its arcs stand for `σ`. -/
def Lang (n : Net W) (σ : Nat → List W → Prop) (ws : List W) : Prop := ∃ q, Through n q ∧ Cat σ q ws

theorem lang_sp {s : Nat} (hs : n.stop = some s) (σ : Nat → List W → Prop) (ws : List W) : Lang n σ ws ↔ Sp n σ n.start ws s := by
  unfold Lang Through
  rw [hs, sp_path]

theorem lang_one (ws : List W) : Lang n (one n) ws ↔ n.Produces ws := by
  cases hs : n.stop with
  | none =>
    unfold Lang Through Net.Produces
    rw [hs]
    constructor
    · rintro ⟨q, e, h⟩; subst e; exact h
    · intro h; exact ⟨[], rfl, h⟩
  | some s => rw [lang_sp hs, produces_sp _ _ hs]

theorem lang_congr {σ τ : Nat → List W → Prop} (hw : n.WF rank) (h : ∀ a, a < n.nArcs → ∀ vs, σ a vs → τ a vs) {ws : List W}
    (hl : Lang n σ ws) : Lang n τ ws := by
  cases hs : n.stop with
  | none =>
    unfold Lang Through at hl ⊢
    rw [hs] at hl ⊢
    obtain ⟨q, e, hc⟩ := hl
    subst e
    exact ⟨[], rfl, hc⟩
  | some s =>
    rw [lang_sp hs] at hl ⊢
    exact sp_congr (fun v a vs ha => h a (hw.out_ok _ _ ha).1 vs) hl

/-! ### Paths after an arc was added at the end or the beginning -/

theorem tail_stop (d : Option W) : (n.addTail d).stop = some (n.stop.getD n.nNodes) := by
  unfold Net.addTail
  cases hs : n.stop with
  | none => show (n.addHead d).stop = _; rw [head_stop, hs]
  | some s => exact hs

theorem head_through (d : Option W) (hw : n.WF rank) (p : List Nat) :
    (n.addHead d).Walk n.start p (n.stop.getD n.nNodes) ↔ ∃ q, Through n q ∧ p = n.nArcs :: q := by
  have hsw : n.start ≠ n.nNodes := Nat.ne_of_lt hw.start_lt
  have hne : n.start ≠ n.stop.getD n.nNodes := by
    cases hs : n.stop with
    | none => exact hsw
    | some s =>
      intro e
      have := (hw.stop_ok s hs).2
      have e : n.start = s := e
      rw [← e] at this
      exact this hw.start_inn
  have inner : ∀ q, (n.addHead d).Walk n.nNodes q (n.stop.getD n.nNodes) ↔ Through n q := by
    intro q
    unfold Through
    cases hs : n.stop with
    | none =>
      show (n.addHead d).Walk n.nNodes q n.nNodes ↔ q = []
      constructor
      · intro h
        cases q with
        | nil => rfl
        | cons b q =>
          cases h with
          | cons _ _ _ _ hb _ =>
            rw [head_out _ hw, if_neg hsw.symm, if_pos rfl, hw.no_stop hs] at hb
            cases hb
      · intro e; subst e; exact .nil _
    | some s =>
      show (n.addHead d).Walk n.nNodes q s ↔ n.Walk n.start q s
      cases q with
      | nil =>
        constructor
        · intro h
          have := (hw.stop_ok s hs)
          obtain ⟨k1, k2⟩ := inn_node hw this.2
          generalize hz : n.nNodes = z at h
          cases h
          omega
        · intro h
          rw [hs] at hne
          generalize hz : n.start = z at h
          cases h
          exact absurd hz hne
      | cons b q => exact head_walk d hw (by simp)
  constructor
  · intro h
    cases p with
    | nil =>
      generalize hz : n.stop.getD n.nNodes = z at h
      cases h
      exact absurd hz.symm hne
    | cons a q =>
      cases h with
      | cons _ _ _ _ ha h =>
        rw [head_out _ hw, if_pos rfl] at ha
        have e := List.mem_singleton.1 ha
        subst e
        rw [head_dst, if_pos rfl] at h
        exact ⟨q, (inner q).1 h, rfl⟩
  · rintro ⟨q, hq, e⟩
    subst e
    refine .cons _ _ _ _ (by rw [head_out _ hw, if_pos rfl]; simp) ?_
    rw [head_dst, if_pos rfl]
    exact (inner q).2 hq

theorem tail_through (d : Option W) (hw : n.WF rank) (p : List Nat) :
    (n.addTail d).Walk n.start p (n.stop.getD n.nNodes) ↔ ∃ q, Through n q ∧ p = q ++ [n.nArcs] := by
  cases hs : n.stop with
  | none =>
    have e : n.addTail d = n.addHead d := by unfold Net.addTail; rw [hs]; rfl
    have h := head_through d hw p
    rw [hs] at h
    rw [e, h]
    unfold Through
    rw [hs]
    constructor
    · rintro ⟨q, e1, e2⟩; subst e1; exact ⟨[], rfl, e2⟩
    · rintro ⟨q, e1, e2⟩; subst e1; exact ⟨[], rfl, e2⟩
  | some s =>
    have e : n.addTail d = n.insertBefore s d := by unfold Net.addTail; rw [hs]
    obtain ⟨g1, g2⟩ := hw.stop_ok s hs
    obtain ⟨k1, k2⟩ := inn_node hw g2
    have hsl := hw.start_lt
    rw [e]
    show (n.insertBefore s d).Walk n.start p s ↔ _
    have hflat : ∀ q' : List Nat, (∀ b ∈ q', b ∉ n.inn s) → q'.flatMap (thenNew n s) = q' := by
      intro q'
      induction q' with
      | nil => intro _; rfl
      | cons a q' ih =>
        intro h
        rw [List.flatMap_cons, ih (fun b hb => h b (by simp [hb]))]
        unfold thenNew
        rw [if_neg (h a (by simp))]
        rfl
    have hexp : ∀ q, n.Walk n.start q s → q.flatMap (thenNew n s) = q ++ [n.nArcs] := by
      intro q hq
      obtain ⟨q', a, e1, e2, e3⟩ := walk_last hw g1 q _ hq k2.symm
      rw [e1, List.flatMap_append, hflat q' e3]
      simp [thenNew, e2]
    unfold Through
    rw [hs]
    rw [before_walk d hw g2 _ p n.start s (Nat.le_refl _) (by omega) (by omega)]
    constructor
    · rintro ⟨q, hq, e⟩; exact ⟨q, hq, by rw [e, hexp q hq]⟩
    · rintro ⟨q, hq, e⟩; exact ⟨q, hq, by rw [e, hexp q hq]⟩

theorem tail_start (d : Option W) : (n.addTail d).start = n.start := by
  unfold Net.addTail
  cases n.stop <;> rfl

theorem tail_lang (d : Option W) (hw : n.WF rank) (σ : Nat → List W → Prop) (ws : List W) :
    Lang (n.addTail d) σ ws ↔ ∃ vs us, ws = vs ++ us ∧ Lang n σ vs ∧ σ n.nArcs us := by
  rw [lang_sp (tail_stop d), sp_path, tail_start]
  constructor
  · rintro ⟨p, hp, hc⟩
    obtain ⟨q, hq, e⟩ := (tail_through d hw p).1 hp
    subst e
    obtain ⟨vs, us, e, h1, h2⟩ := (cat_append σ q _ ws).1 hc
    exact ⟨vs, us, e, ⟨q, hq, h1⟩, (cat_single σ _ _).1 h2⟩
  · rintro ⟨vs, us, e, ⟨q, hq, h1⟩, h2⟩
    exact ⟨q ++ [n.nArcs], (tail_through d hw _).2 ⟨q, hq, rfl⟩, (cat_append σ q _ ws).2 ⟨vs, us, e, h1, (cat_single σ _ _).2 h2⟩⟩

theorem head_lang (d : Option W) (hw : n.WF rank) (σ : Nat → List W → Prop) (ws : List W) :
    Lang (n.addHead d) σ ws ↔ ∃ us vs, ws = us ++ vs ∧ σ n.nArcs us ∧ Lang n σ vs := by
  rw [lang_sp (head_stop d), sp_path]
  show (∃ p, (n.addHead d).Walk n.start p _ ∧ _) ↔ _
  constructor
  · rintro ⟨p, hp, hc⟩
    obtain ⟨q, hq, e⟩ := (head_through d hw p).1 hp
    subst e
    obtain ⟨us, vs, e, h1, h2⟩ := hc
    exact ⟨us, vs, e, h1, q, hq, h2⟩
  · rintro ⟨us, vs, e, h1, q, hq, h2⟩
    exact ⟨n.nArcs :: q, (head_through d hw _).2 ⟨q, hq, rfl⟩, us, vs, e, h1, h2⟩

theorem head_words (w : W) (hw : n.WF rank) (hd : n.Words) : (n.addHead (some w)).Words := by
  intro v a ha
  rw [head_out _ hw] at ha
  rw [head_data]
  by_cases e : a = n.nArcs
  · rw [if_pos e]; exact ⟨w, rfl⟩
  · rw [if_neg e]
    split at ha
    · exact absurd (List.mem_singleton.1 ha) e
    · split at ha
      · exact hd _ _ ha
      · exact hd _ _ ha

theorem head_produces (w : W) (hw : n.WF rank) (ws : List W) :
    (n.addHead (some w)).Produces ws ↔ ∃ vs, n.Produces vs ∧ ws = w :: vs := by
  rw [← lang_one, head_lang _ hw]
  have new : ∀ us, one (n.addHead (some w)) n.nArcs us ↔ us = [w] := by
    intro us
    unfold one
    rw [head_data, if_pos rfl]
    exact ⟨fun ⟨x, h, e⟩ => by cases h; exact e, fun e => ⟨w, rfl, e⟩⟩
  have old : ∀ a, a < n.nArcs → ∀ vs, one (n.addHead (some w)) a vs ↔ one n a vs := by
    intro a ha vs
    unfold one
    rw [head_data, if_neg (by omega)]
  constructor
  · rintro ⟨us, vs, e, h1, h2⟩
    rw [(new us).1 h1] at e
    exact ⟨vs, (lang_one vs).1 (lang_congr hw (fun a ha vs => (old a ha vs).1) h2), e⟩
  · rintro ⟨vs, h, e⟩
    exact ⟨[w], vs, e, (new _).2 rfl, lang_congr hw (fun a ha vs => (old a ha vs).2) ((lang_one vs).2 h)⟩

/-! ### Replacing an arc by a network -/

/-- A network between the ends of an arc, and the arc removed. -/
theorem subst_arc {a s t : Nat} (hn : n.WF rn) (hm : m.WF rm) (hs : n.stop = some s) (ht : m.stop = some t) (ha : a ∈ n.out (n.src a))
    (hnw : ∀ v b, b ∈ n.out v → b ≠ a → ∃ w, n.data b = some w) (hmw : m.Words) :
    ∃ g, merge n (n.src a) (n.dst a) m = some g ∧ ∃ n', deleteArc g a = some n' ∧ (∃ r, n'.WF r) ∧ n'.Words ∧ n'.stop = some s ∧
      n'.nArcs = n.nArcs + m.nArcs ∧
      ∀ ws, n'.Produces ws ↔ Lang n (fun b vs => if b = a then m.Produces vs else one n b vs) ws := by
  obtain ⟨g1, g2, g3, g4, g5, g6⟩ := hn.out_ok _ _ ha
  have hds : n.dst a ≠ n.start := Verif.Net.dst_ne_start hn ha
  have hso := hn.stop_ok s hs
  obtain ⟨hsl, hss⟩ := inn_node hn hso.2
  have hvs : n.src a ≠ s := by intro e; rw [e, hso.1] at ha; cases ha
  have hvi : n.src a = n.start ∨ n.inn (n.src a) ≠ [] := by
    by_cases e : n.src a = n.start
    · exact Or.inl e
    · exact Or.inr (hn.source _ (List.ne_nil_of_mem ha) e)
  have fits : Fits n rn (n.src a) (n.dst a) := ⟨g4, g5, g6, ⟨s, hs, hvs⟩, hds, hvi⟩
  refine ⟨mg n (n.src a) (n.dst a) m t, merge_eq ht, ?_⟩
  generalize hM : mg n (n.src a) (n.dst a) m t = M
  obtain ⟨rM, hMw⟩ := mg_wf hn hm ht fits
  rw [hM] at hMw
  have hMs : M.src a = n.src a := by rw [← hM]; exact mg_src_old g1
  have hMd : M.dst a = n.dst a := by rw [← hM]; exact mg_dst_old g1
  have hMi : (M.inn (M.dst a)).filter (· ≠ a) ≠ [] := by
    rw [hMd]
    obtain ⟨c, hc⟩ := List.exists_mem_of_ne_nil _ (hm.stop_ok t ht).2
    refine List.ne_nil_of_mem (a := n.nArcs + c) (List.mem_filter.2 ⟨?_, by simp; omega⟩)
    rw [← hM, mg_inn hn hm, if_pos rfl]
    exact List.mem_append_right _ (List.mem_map.2 ⟨c, hc, rfl⟩)
  have hMo : (M.out (M.src a)).filter (· ≠ a) ≠ [] := by
    rw [hMs]
    obtain ⟨c, hc⟩ := List.exists_mem_of_ne_nil _ (start_out hm ht)
    refine List.ne_nil_of_mem (a := n.nArcs + c) (List.mem_filter.2 ⟨?_, by simp; omega⟩)
    rw [← hM, mg_out hn hm, if_pos rfl]
    exact List.mem_append_right _ (List.mem_map.2 ⟨c, hc, rfl⟩)
  refine ⟨del M a, deleteArc_eq hMi hMo, ⟨rM, del_wf hMw hMi hMo⟩, ?_, ?_, ?_, ?_⟩
  · intro w c hc
    rw [del_out hMw, List.mem_filter] at hc
    obtain ⟨hc, hca⟩ := hc
    have hca : c ≠ a := by simpa using hca
    show ∃ x, M.data c = some x
    rw [← hM] at hc ⊢
    rw [mg_out hn hm] at hc
    have old : ∀ w, c ∈ n.out w → ∃ x, (mg n (n.src a) (n.dst a) m t).data c = some x := by
      intro w h
      rw [mg_data_old (hn.out_ok _ _ h).1]
      exact hnw w c h hca
    have new : ∀ k, c ∈ (m.out k).map (n.nArcs + ·) → ∃ x, (mg n (n.src a) (n.dst a) m t).data c = some x := by
      intro k h
      obtain ⟨b, hb, e⟩ := List.mem_map.1 h
      rw [← e, mg_data_new]
      exact hmw k b hb
    split at hc
    · rcases List.mem_append.1 hc with h | h
      · exact old _ h
      · exact new _ h
    · split at hc
      · exact old _ hc
      · split at hc
        · cases hc
        · exact new _ hc
  · show M.stop = some s
    rw [← hM]; exact hs
  · show M.nArcs = _
    rw [← hM]; rfl
  · intro ws
    have hst : (del M a).stop = some s := by show M.stop = some s; rw [← hM]; exact hs
    have hstart : (del M a).start = n.start := by show M.start = _; rw [← hM]; rfl
    rw [produces_sp _ _ hst, del_sp hMw, hstart, ← hM, mg_sp hn hm ht fits _ _ _ hn.start_lt hsl, lang_sp hs, ← mix_subst _ _ ha _ _ _ hn]
    have hdat : ∀ b, (del (mg n (n.src a) (n.dst a) m t) a).data b = (mg n (n.src a) (n.dst a) m t).data b := fun _ => rfl
    constructor
    · refine mix_congr ?_ ?_
      · rintro x b vs hb ⟨h1, h2⟩
        refine ⟨h1, ?_⟩
        unfold one at h2 ⊢
        rw [hdat, mg_data_old (hn.out_ok _ _ hb).1] at h2
        exact h2
      · intro vs h
        rw [produces_sp _ _ ht]
        refine sp_congr ?_ h
        rintro _ b us _ ⟨_, h2⟩
        unfold one at h2 ⊢
        rw [hdat, mg_data_new] at h2
        exact h2
    · refine mix_congr ?_ ?_
      · rintro x b vs hb ⟨h1, h2⟩
        refine ⟨h1, ?_⟩
        unfold one at h2 ⊢
        rw [hdat, mg_data_old (hn.out_ok _ _ hb).1]
        exact h2
      · intro vs h
        rw [produces_sp _ _ ht] at h
        refine sp_congr ?_ h
        rintro _ b us _ h2
        refine ⟨by omega, ?_⟩
        unfold one at h2 ⊢
        rw [hdat, mg_data_new]
        exact h2

/-- A finished network with at most `k` arcs that stands for `P`. -/
structure Made (n : Net W) (k : Nat) (P : List W → Prop) : Prop where
  wf : ∃ r, n.WF r
  words : n.Words
  arcs : n.nArcs ≤ k
  lang : ∀ ws, n.Produces ws ↔ P ws

theorem Made.congr {k : Nat} {P Q : List W → Prop} (h : Made n k P) (hq : ∀ ws, P ws ↔ Q ws) : Made n k Q :=
  ⟨h.wf, h.words, h.arcs, fun ws => (h.lang ws).trans (hq ws)⟩

theorem made_init : Made (Net.init W) 0 (fun ws => ws = []) :=
  ⟨⟨_, init_wf⟩, (fun v a h => by cases h), Nat.le_refl _, fun _ => Iff.rfl⟩

/-- Putting a network at the end. -/
theorem addNetTail_made {k j t : Nat} {P Q : List W → Prop} (hn : Made n k P) (hm : Made m j Q) (ht : m.stop = some t) :
    ∃ g, addNetTail n m = some g ∧ g.stop ≠ none ∧ Made g (k + 1 + j) (fun ws => ∃ vs us, ws = vs ++ us ∧ P vs ∧ Q us) := by
  obtain ⟨rn, hw⟩ := hn.wf
  obtain ⟨rm, hmw⟩ := hm.wf
  obtain ⟨r1, h1⟩ := tail_wf none hw
  -- the new arc
  have key : (n.addTail none).inn (n.stop.getD n.nNodes) = [n.nArcs] ∧ (n.addTail none).dst n.nArcs = n.stop.getD n.nNodes ∧
      (n.addTail none).nArcs = n.nArcs + 1 ∧ (∀ b, b < n.nArcs → (n.addTail none).data b = n.data b) ∧
      (∀ v b, b ∈ (n.addTail none).out v → b ≠ n.nArcs → ∃ v', b ∈ n.out v') := by
    unfold Net.addTail
    cases hs : n.stop with
    | none =>
      show (n.addHead none).inn n.nNodes = _ ∧ (n.addHead none).dst n.nArcs = _ ∧ _ ∧ (∀ b, b < n.nArcs → (n.addHead none).data b = _) ∧
        (∀ v b, b ∈ (n.addHead none).out v → _ → _)
      refine ⟨by rw [head_inn, if_pos rfl], by rw [head_dst, if_pos rfl]; rfl, rfl, ?_, ?_⟩
      · intro b hb; rw [head_data, if_neg (by omega)]
      · intro v b hb hne
        rw [head_out _ hw] at hb
        split at hb
        · exact absurd (List.mem_singleton.1 hb) hne
        · split at hb
          · exact ⟨_, hb⟩
          · exact ⟨_, hb⟩
    | some s =>
      show (n.insertBefore s none).inn s = _ ∧ (n.insertBefore s none).dst n.nArcs = _ ∧ _ ∧
        (∀ b, b < n.nArcs → (n.insertBefore s none).data b = _) ∧ (∀ v b, b ∈ (n.insertBefore s none).out v → _ → _)
      refine ⟨by rw [before_inn _ hw, if_pos rfl], by rw [before_dst, if_pos rfl]; rfl, rfl, ?_, ?_⟩
      · intro b hb; rw [before_data, if_neg (by omega)]
      · intro v b hb hne
        rw [before_out] at hb
        split at hb
        · exact absurd (List.mem_singleton.1 hb) hne
        · exact ⟨_, hb⟩
  obtain ⟨e1, e2, e3, e4, e5⟩ := key
  have hmem : n.nArcs ∈ (n.addTail none).inn (n.stop.getD n.nNodes) := by rw [e1]; exact List.mem_singleton.2 rfl
  have ha := (h1.inn_ok _ _ hmem).2
  obtain ⟨g, hg, n', hn', hwf, hwords, hstop, harcs, hprod⟩ := subst_arc h1 hmw (tail_stop none) ht ha (fun v b hb hne => by
    obtain ⟨v', hv'⟩ := e5 v b hb hne
    rw [e4 b (hw.out_ok _ _ hv').1]
    exact hn.words v' b hv') hm.words
  refine ⟨n', ?_, by rw [hstop]; simp, hwf, hwords, ?_, ?_⟩
  · unfold addNetTail
    simp only [tail_stop, e1]
    rw [e2] at hg
    rw [hg]
    exact hn'
  · have := hn.arcs; have := hm.arcs; omega
  · intro ws
    rw [hprod, tail_lang none hw]
    have old : ∀ a, a < n.nArcs → ∀ vs, (if a = n.nArcs then m.Produces vs else one (n.addTail none) a vs) ↔ one n a vs := by
      intro a ha vs
      rw [if_neg (by omega)]
      unfold one
      rw [e4 a ha]
    constructor
    · rintro ⟨vs, us, e, h2, h3⟩
      rw [if_pos rfl] at h3
      exact ⟨vs, us, e, (hn.lang vs).1 ((lang_one vs).1 (lang_congr hw (fun a ha vs => (old a ha vs).1) h2)), (hm.lang us).1 h3⟩
    · rintro ⟨vs, us, e, h2, h3⟩
      refine ⟨vs, us, e, lang_congr hw (fun a ha vs => (old a ha vs).2) ((lang_one vs).2 ((hn.lang vs).2 h2)), ?_⟩
      rw [if_pos rfl]
      exact (hm.lang us).2 h3

/-- Putting a network at the beginning. -/
theorem addNetHead_made {k j t : Nat} {P Q : List W → Prop} (hn : Made n k P) (hm : Made m j Q) (ht : m.stop = some t) :
    ∃ g, addNetHead n m = some g ∧ g.stop ≠ none ∧ Made g (k + 1 + j) (fun ws => ∃ us vs, ws = us ++ vs ∧ Q us ∧ P vs) := by
  obtain ⟨rn, hw⟩ := hn.wf
  obtain ⟨rm, hmw⟩ := hm.wf
  have h1 := head_wf none hw
  have e1 : (n.addHead none).out (n.addHead none).start = [n.nArcs] := by
    show (n.addHead none).out n.start = _
    rw [head_out _ hw, if_pos rfl]
  have e0 : (n.addHead none).src n.nArcs = n.start := by rw [head_src, if_pos rfl]
  have ha : n.nArcs ∈ (n.addHead none).out ((n.addHead none).src n.nArcs) := by
    rw [e0]
    have : n.nArcs ∈ (n.addHead none).out (n.addHead none).start := by rw [e1]; exact List.mem_singleton.2 rfl
    exact this
  obtain ⟨g, hg, n', hn', hwf, hwords, hstop, harcs, hprod⟩ := subst_arc h1 hmw (head_stop none) ht ha (fun v b hb hne => by
    rw [head_data, if_neg hne]
    rw [head_out _ hw] at hb
    split at hb
    · exact absurd (List.mem_singleton.1 hb) hne
    · split at hb
      · exact hn.words _ b hb
      · exact hn.words _ b hb) hm.words
  refine ⟨n', ?_, by rw [hstop]; simp, hwf, hwords, ?_, ?_⟩
  · unfold addNetHead
    simp only [e1]
    rw [hg]
    exact hn'
  · have := hn.arcs; have := hm.arcs
    have : (n.addHead none).nArcs = n.nArcs + 1 := rfl
    omega
  · intro ws
    rw [hprod, head_lang none hw]
    have old : ∀ a, a < n.nArcs → ∀ vs, (if a = n.nArcs then m.Produces vs else one (n.addHead none) a vs) ↔ one n a vs := by
      intro a ha vs
      rw [if_neg (by omega)]
      unfold one
      rw [head_data, if_neg (by omega)]
    constructor
    · rintro ⟨us, vs, e, h3, h2⟩
      rw [if_pos rfl] at h3
      exact ⟨us, vs, e, (hm.lang us).1 h3, (hn.lang vs).1 ((lang_one vs).1 (lang_congr hw (fun a ha vs => (old a ha vs).1) h2))⟩
    · rintro ⟨us, vs, e, h3, h2⟩
      refine ⟨us, vs, e, ?_, lang_congr hw (fun a ha vs => (old a ha vs).2) ((lang_one vs).2 ((hn.lang vs).2 h2))⟩
      rw [if_pos rfl]
      exact (hm.lang us).2 h3

/-- Putting a network next to another. -/
theorem parallel_made {k j s t : Nat} {P Q : List W → Prop} (hn : Made n k P) (hm : Made m j Q) (hs : n.stop = some s) (ht : m.stop = some t) :
    ∃ g, merge n n.start s m = some g ∧ g.stop = some s ∧ Made g (k + j) (fun ws => P ws ∨ Q ws) := by
  obtain ⟨rn, hw⟩ := hn.wf
  obtain ⟨rm, hmw⟩ := hm.wf
  have hi := (hw.stop_ok s hs).2
  obtain ⟨hsl, hss⟩ := inn_node hw hi
  have hst := hw.start_lt
  have fits : Fits n rn n.start s :=
    ⟨hst, hsl, start_lt_stop hw s ((hw.reach_iff s).2 (Or.inr hi)) hss, ⟨s, hs, hss.symm⟩, hss, Or.inl rfl⟩
  refine ⟨mg n n.start s m t, merge_eq ht, hs, mg_wf hw hmw ht fits, mg_words hw hmw hn.words hm.words, ?_, ?_⟩
  · show n.nArcs + m.nArcs ≤ _
    have := hn.arcs; have := hm.arcs; omega
  · intro ws
    have hst' : (mg n n.start s m t).stop = some s := hs
    rw [produces_sp _ _ hst', ← hn.lang, ← hm.lang, produces_sp _ _ hs, produces_sp _ _ ht]
    show Sp (mg n n.start s m t) _ n.start ws s ↔ _
    rw [mg_sp hw hmw ht fits _ _ _ hst hsl, ← mix_parallel hw (one n) (fun ws => Sp m (one m) m.start ws t) hs ws]
    have e1 : ∀ x a vs, a ∈ n.out x → (one (mg n n.start s m t) a vs ↔ one n a vs) := by
      intro x a vs ha
      unfold one
      rw [mg_data_old (hw.out_ok _ _ ha).1]
    have e2 : (fun b => one (mg n n.start s m t) (n.nArcs + b)) = one m := by
      funext b vs
      unfold one
      rw [mg_data_new]
    constructor
    · exact mix_congr (fun x a vs ha => (e1 x a vs ha).1) (fun vs h => e2 ▸ h)
    · exact mix_congr (fun x a vs ha => (e1 x a vs ha).2) (fun vs h => by rw [e2]; exact h)

theorem addTail_made (w : W) {k : Nat} {P : List W → Prop} (hn : Made n k P) :
    (n.addTail (some w)).stop ≠ none ∧ Made (n.addTail (some w)) (k + 1) (fun ws => ∃ vs, P vs ∧ ws = vs ++ [w]) := by
  obtain ⟨rn, hw⟩ := hn.wf
  refine ⟨by rw [tail_stop]; simp, tail_wf _ hw, tail_words w hw hn.words, ?_, ?_⟩
  · have := hn.arcs
    unfold Net.addTail
    cases n.stop with
    | none => show n.nArcs + 1 ≤ _; omega
    | some s => show n.nArcs + 1 ≤ _; omega
  · intro ws
    rw [tail_produces w hw]
    constructor
    · rintro ⟨vs, h, e⟩; exact ⟨vs, (hn.lang vs).1 h, e⟩
    · rintro ⟨vs, h, e⟩; exact ⟨vs, (hn.lang vs).2 h, e⟩

theorem addHead_made (w : W) {k : Nat} {P : List W → Prop} (hn : Made n k P) :
    (n.addHead (some w)).stop ≠ none ∧ Made (n.addHead (some w)) (k + 1) (fun ws => ∃ vs, P vs ∧ ws = w :: vs) := by
  obtain ⟨rn, hw⟩ := hn.wf
  refine ⟨by rw [head_stop]; simp, ⟨_, head_wf _ hw⟩, head_words w hw hn.words, ?_, ?_⟩
  · have := hn.arcs
    show n.nArcs + 1 ≤ _; omega
  · intro ws
    rw [head_produces w hw]
    constructor
    · rintro ⟨vs, h, e⟩; exact ⟨vs, (hn.lang vs).1 h, e⟩
    · rintro ⟨vs, h, e⟩; exact ⟨vs, (hn.lang vs).2 h, e⟩

end Verif.WtokeNet
