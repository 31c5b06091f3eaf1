import Verif.Diar.Regions
/-!
# The segments: what they cover, which speakers they have
-/
set_option autoImplicit false
namespace Verif.Diar

/-! ## Counters of speakers -/

/-- The count of a speaker. -/
def get (l : List (Nat × Int)) (s : Nat) : Int := ((l.find? (fun x => x.1 == s)).map Prod.snd).getD 0

/-- A hash of counters: names once, no zeros. -/
def Hash (l : List (Nat × Int)) : Prop := (l.map Prod.fst).Nodup ∧ ∀ x ∈ l, x.2 ≠ 0

theorem get_cons (x : Nat × Int) (l : List (Nat × Int)) (s : Nat) : get (x :: l) s = if x.1 = s then x.2 else get l s := by
  unfold get
  by_cases h : x.1 = s
  · rw [List.find?_cons_of_pos (by simpa using h), if_pos h]; rfl
  · rw [List.find?_cons_of_neg (by simpa using h), if_neg h]

theorem get_none {l : List (Nat × Int)} {s : Nat} (h : s ∉ l.map Prod.fst) : get l s = 0 := by
  induction l with
  | nil => rfl
  | cons x l ih =>
    rw [List.map_cons, List.mem_cons, not_or] at h
    rw [get_cons, if_neg (fun h' => h.1 h'.symm), ih h.2]

theorem mem_get {l : List (Nat × Int)} (h : ∀ x ∈ l, x.2 ≠ 0) (s : Nat) : s ∈ l.map Prod.fst ↔ get l s ≠ 0 := by
  induction l with
  | nil => simp [get]
  | cons x l ih =>
    rw [List.map_cons, List.mem_cons, get_cons, ih (fun y hy => h y (List.mem_cons_of_mem _ hy))]
    by_cases hx : x.1 = s
    · rw [if_pos hx]; simp [hx.symm, h x (List.mem_cons_self ..)]
    · rw [if_neg hx]; simp [fun h' => hx (Eq.symm h'), show ¬ s = x.1 from fun h' => hx h'.symm]

theorem bump_keys (s : Nat) (d : Int) : ∀ (l : List (Nat × Int)) (k : Nat), k ∈ (bump s d l).map Prod.fst → k = s ∨ k ∈ l.map Prod.fst
  | [], k, h => by simp [bump] at h; exact Or.inl h
  | x :: l, k, h => by
    rw [bump] at h
    split at h
    · split at h
      · right; rw [List.map_cons]; exact List.mem_cons_of_mem _ h
      · right; exact h
    · rw [List.map_cons, List.mem_cons] at h
      rcases h with h | h
      · right; rw [h]; simp
      · rcases bump_keys s d l k h with h | h
        · exact Or.inl h
        · right; rw [List.map_cons]; exact List.mem_cons_of_mem _ h

theorem bump_hash (s : Nat) (d : Int) (hd : d ≠ 0) : ∀ (l : List (Nat × Int)), Hash l →
    Hash (bump s d l) ∧ ∀ k, get (bump s d l) k = get l k + if k = s then d else 0
  | [], _ => by
    refine ⟨⟨by simp [bump], by simp [bump, hd]⟩, fun k => ?_⟩
    rw [bump, get_cons]
    by_cases h : k = s
    · simp [h, get]
    · simp [h, get, show ¬ s = k from fun h' => h h'.symm]
  | x :: l, h => by
    have hl : Hash l := ⟨(List.nodup_cons.1 (List.map_cons (f := Prod.fst) ▸ h.1)).2, fun y hy => h.2 y (List.mem_cons_of_mem _ hy)⟩
    have hx : x.1 ∉ l.map Prod.fst := (List.nodup_cons.1 (List.map_cons (f := Prod.fst) ▸ h.1)).1
    rw [bump]
    by_cases hs : x.1 = s
    · rw [if_pos hs]
      by_cases h0 : x.2 + d = 0
      · rw [if_pos h0]
        refine ⟨hl, fun k => ?_⟩
        rw [get_cons]
        by_cases hk : k = s
        · rw [if_pos (hs.trans hk.symm), if_pos hk, get_none (by rw [hk, ← hs]; exact hx), h0]
        · rw [if_neg (fun h' => hk (h'.symm.trans hs)), if_neg hk]; omega
      · rw [if_neg h0]
        refine ⟨⟨h.1, fun y hy => ?_⟩, fun k => ?_⟩
        · rcases List.mem_cons.1 hy with rfl | hy
          · exact h0
          · exact h.2 y (List.mem_cons_of_mem _ hy)
        · rw [get_cons, get_cons]
          by_cases hk : k = s
          · rw [if_pos (hs.trans hk.symm), if_pos (hs.trans hk.symm), if_pos hk]
          · rw [if_neg (fun h' => hk (h'.symm.trans hs)), if_neg (fun h' => hk (h'.symm.trans hs)), if_neg hk]; omega
    · rw [if_neg hs]
      obtain ⟨ih1, ih2⟩ := bump_hash s d hd l hl
      refine ⟨⟨?_, fun y hy => ?_⟩, fun k => ?_⟩
      · rw [List.map_cons, List.nodup_cons]
        refine ⟨fun hm => ?_, ih1.1⟩
        rcases bump_keys s d l _ hm with h' | h'
        · exact hs h'
        · exact hx h'
      · rcases List.mem_cons.1 hy with rfl | hy
        · exact h.2 _ (List.mem_cons_self ..)
        · exact ih1.2 y hy
      · rw [get_cons, get_cons, ih2]
        by_cases hk : x.1 = k
        · rw [if_pos hk, if_pos hk, if_neg (fun h' => hs (hk.trans h'))]; omega
        · rw [if_neg hk, if_neg hk]

/-! ## The loop, instant by instant -/

/-- The part of the state that does not depend on where the segment began. -/
def core (st : SweepSt) : Bool × List (Nat × Int) × List (Nat × Int) := (st.ev, st.refs, st.syss)

theorem core_step {st st' : SweepSt} (h : core st = core st') (e : Ev) : core (st.step e) = core (st'.step e) := by
  simp only [core, Prod.mk.injEq] at h
  unfold SweepSt.step core
  cases e.kind <;> simp [h.1, h.2.1, h.2.2]

theorem core_fold {st st' : SweepSt} (h : core st = core st') (es : List Ev) :
    core (es.foldl SweepSt.step st) = core (es.foldl SweepSt.step st') := by
  induction es generalizing st st' with
  | nil => exact h
  | cons e es ih => exact ih (core_step h e)

/-- After an event, an open segment begins no later than it. -/
theorem step_tb (st : SweepSt) (e : Ev) (h : st.ev = true → st.tb = e.time) : (st.step e).ev = true → (st.step e).tb = e.time := by
  unfold SweepSt.step
  cases e.kind with
  | uem => intro h'; dsimp only at h' ⊢; rw [h', if_pos rfl]
  | ref s => exact h
  | sys s => exact h
  | nsz => exact h

/-- At `x` there is a segment with the property `P` of its speakers. -/
def SegAt (l : List Sg) (x : Int) (P : List Nat → List Nat → Prop) : Prop := ∃ g ∈ l, (g.tb ≤ x ∧ x < g.te) ∧ P g.ref g.sys

theorem segAt_cons (g : Sg) (l : List Sg) (x : Int) (P : List Nat → List Nat → Prop) :
    SegAt (g :: l) x P ↔ ((g.tb ≤ x ∧ x < g.te) ∧ P g.ref g.sys) ∨ SegAt l x P := by
  unfold SegAt; simp

theorem sweep_at (P : List Nat → List Nat → Prop) (x : Int) :
    ∀ (es : List Ev) (st : SweepSt), es.Pairwise (fun a b => a.time ≤ b.time) → (es.foldl SweepSt.step st).ev = false →
      (st.ev = true → ∀ e ∈ es, st.tb ≤ e.time) →
      (SegAt (sweep st es) x P ↔
        let s := (es.filter (fun a => decide (a.time ≤ x))).foldl SweepSt.step st
        s.ev = true ∧ P (s.refs.map Prod.fst) (s.syss.map Prod.fst) ∧ (st.ev = true → st.tb ≤ x))
  | [], st, _, hf, _ => by
    have : st.ev = false := hf
    simp [sweep, SegAt, this]
  | e :: es, st, hs, hf, htb => by
    have hs' := List.pairwise_cons.1 hs
    -- the state handed on, with `tb` set to the time of the event when a segment is open
    have main : ∀ st1 : SweepSt, core st1 = core st → (st1.ev = true → st1.tb = e.time) →
        (SegAt (sweep (st1.step e) es) x P ↔
          let s := (es.filter (fun a => decide (a.time ≤ x))).foldl SweepSt.step (st.step e)
          s.ev = true ∧ P (s.refs.map Prod.fst) (s.syss.map Prod.fst) ∧ ((st1.step e).ev = true → e.time ≤ x)) := by
      intro st1 hc h1
      have h2 := step_tb st1 e h1
      have hc' := core_step hc e
      have hfin : (es.foldl SweepSt.step (st1.step e)).ev = false := by
        have := core_fold hc' es
        simp only [core, Prod.mk.injEq] at this
        rw [this.1]; exact hf
      rw [sweep_at P x es (st1.step e) hs'.2 hfin (fun h a ha => by rw [h2 h]; exact hs'.1 a ha)]
      have := core_fold hc' (es.filter (fun a => decide (a.time ≤ x)))
      simp only [core, Prod.mk.injEq] at this
      dsimp only
      rw [this.1, this.2.1, this.2.2]
      constructor
      · rintro ⟨a, b, c⟩; exact ⟨a, b, fun h => by rw [← h2 h]; exact c h⟩
      · rintro ⟨a, b, c⟩; exact ⟨a, b, fun h => by rw [h2 h]; exact c h⟩
    rw [sweep]
    by_cases hx : x < e.time
    · rw [filter_late hs'.1 hx]
      have hnil : es.filter (fun a => decide (a.time ≤ x)) = [] := by
        have := filter_late hs'.1 hx
        rw [List.filter_cons_of_neg (by simp; omega)] at this
        exact this
      rw [hnil] at main
      simp only [List.foldl_nil] at main ⊢
      have none_ : ∀ st1 : SweepSt, core st1 = core st → (st1.ev = true → st1.tb = e.time) → ¬ SegAt (sweep (st1.step e) es) x P := by
        intro st1 hc h1 h
        rw [main st1 hc h1] at h
        have hev : (st1.step e).ev = (st.step e).ev := by
          have := core_step hc e
          simp only [core, Prod.mk.injEq] at this
          exact this.1
        have := h.2.2 (hev.trans h.1)
        omega
      split
      · rename_i hc
        rw [segAt_cons]
        have := none_ { st with tb := e.time } rfl (fun _ => rfl)
        constructor
        · rintro (⟨⟨a, b⟩, c⟩ | h)
          · exact ⟨hc.1, c, fun _ => a⟩
          · exact absurd h this
        · rintro ⟨a, b, c⟩
          exact Or.inl ⟨⟨c a, hx⟩, b⟩
      · rename_i hc
        have hte : st.ev = true → st.tb = e.time := fun h => by
          have := htb h e (List.mem_cons_self ..)
          have : ¬ st.tb < e.time := fun h' => hc ⟨h, h'⟩
          omega
        have := none_ st rfl hte
        constructor
        · intro h; exact absurd h this
        · rintro ⟨a, _, c⟩
          have := hte a
          have := c a
          omega
    · rw [List.filter_cons_of_pos (by simp; omega), List.foldl_cons]
      have hle : e.time ≤ x := by omega
      have tb_le : st.ev = true → st.tb ≤ x := fun h => by
        have := htb h e (List.mem_cons_self ..)
        omega
      split
      · rw [segAt_cons, main { st with tb := e.time } rfl (fun _ => rfl)]
        dsimp only
        constructor
        · rintro (⟨⟨a, b⟩, c⟩ | ⟨a, b, c⟩)
          · omega
          · exact ⟨a, b, tb_le⟩
        · rintro ⟨a, b, c⟩
          exact Or.inr ⟨a, b, fun _ => hle⟩
      · rename_i hc
        have hte : st.ev = true → st.tb = e.time := fun h => by
          have := htb h e (List.mem_cons_self ..)
          have : ¬ st.tb < e.time := fun h' => hc ⟨h, h'⟩
          omega
        rw [main st rfl hte]
        dsimp only
        constructor
        · rintro ⟨a, b, c⟩; exact ⟨a, b, tb_le⟩
        · rintro ⟨a, b, c⟩; exact ⟨a, b, fun _ => hle⟩

/-! ## Order of the segments -/

theorem sweep_low (m : Int) : ∀ (es : List Ev) (st : SweepSt), (st.ev = true → m ≤ st.tb) → (∀ e ∈ es, m ≤ e.time) →
    ∀ g ∈ sweep st es, m ≤ g.tb
  | [], _, _, _, g, hg => by simp [sweep] at hg
  | e :: es, st, h1, h2, g, hg => by
    have he := h2 e (List.mem_cons_self ..)
    have hes : ∀ a ∈ es, m ≤ a.time := fun a ha => h2 a (List.mem_cons_of_mem _ ha)
    have st_low : ∀ st1 : SweepSt, (st1.ev = true → m ≤ st1.tb) → (st1.step e).ev = true → m ≤ (st1.step e).tb := by
      intro st1 h
      unfold SweepSt.step
      cases e.kind with
      | uem => intro h'; dsimp only at h' ⊢; rw [h', if_pos rfl]; exact he
      | ref s => exact h
      | sys s => exact h
      | nsz => exact h
    rw [sweep] at hg
    split at hg
    · rename_i hc
      rcases List.mem_cons.1 hg with rfl | hg
      · exact h1 hc.1
      · exact sweep_low m es _ (st_low _ (fun _ => he)) hes g hg
    · exact sweep_low m es _ (st_low _ h1) hes g hg

theorem sweep_order : ∀ (es : List Ev) (st : SweepSt), es.Pairwise (fun a b => a.time ≤ b.time) →
    (∀ g ∈ sweep st es, g.tb < g.te) ∧ (sweep st es).Pairwise (fun g h => g.te ≤ h.tb)
  | [], _, _ => by simp [sweep]
  | e :: es, st, hs => by
    have hs' := List.pairwise_cons.1 hs
    rw [sweep]
    split
    · rename_i hc
      have ih := sweep_order es ({ st with tb := e.time }.step e) hs'.2
      refine ⟨fun g hg => ?_, List.pairwise_cons.2 ⟨fun g hg => ?_, ih.2⟩⟩
      · rcases List.mem_cons.1 hg with rfl | hg
        · exact hc.2
        · exact ih.1 g hg
      · exact sweep_low e.time es _ (fun h => by rw [step_tb _ e (fun _ => rfl) h]; exact Int.le_refl _) hs'.1 g hg
    · exact sweep_order es _ hs'.2

/-! ## The state at an instant -/

def isR (s : Nat) (e : Ev) : Bool := decide (e.kind = .ref s)
def isS (s : Nat) (e : Ev) : Bool := decide (e.kind = .sys s)

theorem fold_state : ∀ (es : List Ev) (st : SweepSt), Hash st.refs → Hash st.syss →
    Hash (es.foldl SweepSt.step st).refs ∧ Hash (es.foldl SweepSt.step st).syss ∧
      (∀ s, get (es.foldl SweepSt.step st).refs s = get st.refs s + net (isR s) es) ∧
      (∀ s, get (es.foldl SweepSt.step st).syss s = get st.syss s + net (isS s) es)
  | [], st, h1, h2 => ⟨h1, h2, fun s => by rw [net_nil]; simp, fun s => by rw [net_nil]; simp⟩
  | e :: es, st, h1, h2 => by
    have hd : (if e.beg then 1 else -1 : Int) ≠ 0 := by cases e.beg <;> decide
    rw [List.foldl_cons]
    have hst : Hash (st.step e).refs ∧ Hash (st.step e).syss ∧
        (∀ s, get (st.step e).refs s = get st.refs s + if isR s e then (if e.beg then 1 else -1) else 0) ∧
        (∀ s, get (st.step e).syss s = get st.syss s + if isS s e then (if e.beg then 1 else -1) else 0) := by
      unfold SweepSt.step
      cases hk : e.kind with
      | uem => refine ⟨h1, h2, fun s => ?_, fun s => ?_⟩ <;> simp [isR, isS, hk]
      | nsz => refine ⟨h1, h2, fun s => ?_, fun s => ?_⟩ <;> simp [isR, isS, hk]
      | ref r =>
        refine ⟨(bump_hash r _ hd _ h1).1, h2, fun s => ?_, fun s => ?_⟩
        · dsimp only
          rw [(bump_hash r _ hd _ h1).2 s]
          by_cases h : s = r
          · simp [isR, hk, h]
          · simp [isR, hk, h, show ¬ r = s from fun h' => h h'.symm]
        · simp [isS, hk]
      | sys r =>
        refine ⟨h1, (bump_hash r _ hd _ h2).1, fun s => ?_, fun s => ?_⟩
        · simp [isR, hk]
        · dsimp only
          rw [(bump_hash r _ hd _ h2).2 s]
          by_cases h : s = r
          · simp [isS, hk, h]
          · simp [isS, hk, h, show ¬ r = s from fun h' => h h'.symm]
    obtain ⟨i1, i2, i3, i4⟩ := fold_state es (st.step e) hst.1 hst.2.1
    refine ⟨i1, i2, fun s => ?_, fun s => ?_⟩
    · rw [i3, hst.2.2.1, net_cons]; omega
    · rw [i4, hst.2.2.2, net_cons]; omega

theorem fold_ev (L : List Ev) (uem : List (Int × Int)) (hu : Of isU L uem) (hpos : ∀ u ∈ uem, u.1 < u.2) (hap : Apart uem)
    (ho : L.Pairwise (fun a b => endFirst a b = true)) :
    ∀ (es pre rest : List Ev) (st : SweepSt), L = pre ++ es ++ rest → st.ev = decide (net isU pre = 1) →
      (es.foldl SweepSt.step st).ev = decide (net isU (pre ++ es) = 1)
  | [], pre, _, st, _, h => by simpa using h
  | e :: es, pre, rest, st, hL, h => by
    rw [List.foldl_cons]
    have hL' : L = (pre ++ [e]) ++ es ++ rest := by rw [hL]; simp
    have hLe : L = pre ++ e :: (es ++ rest) := by rw [hL]; simp
    have := fold_ev L uem hu hpos hap ho es (pre ++ [e]) rest (st.step e) hL' ?_
    · rw [this]; simp
    · have lo := prefix_lower hu hpos hLe ho
      have hi := prefix_upper hu hpos hap hLe ho
      have pl : 0 ≤ net isU pre ∧ net isU pre ≤ 1 := by
        rcases List.eq_nil_or_concat pre with rfl | ⟨p, a, hpa⟩
        · simp [net_nil]
        · rw [hpa, List.concat_eq_append]
          have hLa : L = p ++ a :: (e :: (es ++ rest)) := by rw [hLe, hpa]; simp
          exact ⟨prefix_lower hu hpos hLa ho, prefix_upper hu hpos hap hLa ho⟩
      have nU : net isU (pre ++ [e]) = net isU pre + (if isU e then (if e.beg then 1 else -1) else 0) := by
        rw [net_append, net_cons, net_nil]; omega
      rw [nU] at lo hi ⊢
      unfold SweepSt.step
      cases hk : e.kind with
      | uem =>
        have : isU e = true := by simp [isU, hk]
        rw [this, if_pos rfl] at lo hi ⊢
        dsimp only
        cases hb : e.beg
        · rw [hb] at lo hi; simp at lo hi ⊢; omega
        · rw [hb] at lo hi; simp at lo hi ⊢; omega
      | nsz => have : isU e = false := by simp [isU, hk]
               simp [this, h]
      | ref s => have : isU e = false := by simp [isU, hk]
                 simp [this, h]
      | sys s => have : isU e = false := by simp [isU, hk]
                 simp [this, h]

theorem take_filter {es : List Ev} (h : es.Pairwise (fun a b => a.time ≤ b.time)) (x : Int) :
    ∃ rest, es = es.filter (fun a => decide (a.time ≤ x)) ++ rest := by
  induction es with
  | nil => exact ⟨[], rfl⟩
  | cons e es ih =>
    have h' := List.pairwise_cons.1 h
    by_cases hx : e.time ≤ x
    · obtain ⟨rest, hr⟩ := ih h'.2
      refine ⟨rest, ?_⟩
      rw [List.filter_cons_of_pos (by simpa using hx), List.cons_append, ← hr]
    · rw [filter_late h'.1 (by omega)]
      exact ⟨e :: es, rfl⟩

theorem speaks_pos (l : List Turn) (x : Int) (s : Nat) :
    (((l.filter (fun t => decide (t.tb < t.te))).filter (fun t => t.spkr == s)).map (fun t => (t.tb, t.te))).countP
      (fun u => decide (u.1 ≤ x ∧ x < u.2)) ≠ 0 ↔ Speaks l x s := by
  rw [← Nat.pos_iff_ne_zero, List.countP_pos_iff]
  constructor
  · rintro ⟨u, hu, hx⟩
    obtain ⟨t, ht, rfl⟩ := List.mem_map.1 hu
    have h1 := List.mem_filter.1 ht
    have h2 := List.mem_filter.1 h1.1
    have hx : t.tb ≤ x ∧ x < t.te := by simpa using hx
    exact ⟨t, h2.1, by simpa using h1.2, hx⟩
  · rintro ⟨t, ht, hs, h1, h2⟩
    refine ⟨(t.tb, t.te), List.mem_map.2 ⟨t, List.mem_filter.2 ⟨List.mem_filter.2 ⟨ht, by simp; omega⟩, by simpa using hs⟩, rfl⟩, by simp [h1, h2]⟩

theorem turns_of (k : Ev → Bool) (g : Nat → Kind) (s : Nat) (hk : ∀ r b t, k ⟨g r, b, t⟩ = decide (r = s)) (l : List Turn) :
    Of k (l.flatMap (fun t => both (g t.spkr) t.tb t.te)) ((l.filter (fun t => t.spkr == s)).map (fun t => (t.tb, t.te))) := by
  intro b q
  induction l with
  | nil => rfl
  | cons t l ih =>
    rw [List.flatMap_cons, List.countP_append, ih]
    unfold both
    by_cases h : t.spkr = s
    · rw [List.filter_cons_of_pos (by simpa using h), List.map_cons, List.countP_cons, List.countP_cons, List.countP_cons, List.countP_nil, hk, hk]
      cases b <;> simp [h] <;> omega
    · rw [List.filter_cons_of_neg (by simpa using h), List.countP_cons, List.countP_cons, List.countP_nil, hk, hk]
      simp [h]

/-- What the events say of the partition and of the speakers. -/
theorem segEvents_of (uem : List (Int × Int)) (ref sys : List Turn) (hpos : ∀ u ∈ uem, u.1 < u.2) :
    Of isU (segEvents uem ref sys) uem ∧
    (∀ s, Of (isR s) (segEvents uem ref sys) (((ref.filter (fun t => decide (t.tb < t.te))).filter (fun t => t.spkr == s)).map (fun t => (t.tb, t.te)))) ∧
    (∀ s, Of (isS s) (segEvents uem ref sys) (((sys.filter (fun t => decide (t.tb < t.te))).filter (fun t => t.spkr == s)).map (fun t => (t.tb, t.te)))) := by
  have huf : uem.filter (fun u => decide (u.1 < u.2)) = uem := by
    rw [List.filter_eq_self]; intro u hu; simpa using hpos u hu
  have kind_of : ∀ {α : Type} (l : List α) (g : α → Kind) (f : α → Int × Int) (e : Ev),
      e ∈ l.flatMap (fun a => both (g a) (f a).1 (f a).2) → ∃ a ∈ l, e.kind = g a := by
    intro α l g f e he
    obtain ⟨a, ha, he⟩ := List.mem_flatMap.1 he
    unfold both at he
    rcases List.mem_cons.1 he with rfl | he
    · exact ⟨a, ha, rfl⟩
    · rcases List.mem_cons.1 he with rfl | he
      · exact ⟨a, ha, rfl⟩
      · cases he
  have U : ∀ e ∈ uem.flatMap (fun u => both .uem u.1 u.2), e.kind = .uem := fun e he => by
    obtain ⟨_, _, h⟩ := kind_of uem (fun _ => .uem) (fun u => u) e he; exact h
  have Rk : ∀ e ∈ (ref.filter (fun t => decide (t.tb < t.te))).flatMap (fun t => both (.ref t.spkr) t.tb t.te), ∃ r, e.kind = .ref r := fun e he => by
    obtain ⟨t, _, h⟩ := kind_of _ (fun t : Turn => Kind.ref t.spkr) (fun t => (t.tb, t.te)) e he; exact ⟨_, h⟩
  have Sk : ∀ e ∈ (sys.filter (fun t => decide (t.tb < t.te))).flatMap (fun t => both (.sys t.spkr) t.tb t.te), ∃ r, e.kind = .sys r := fun e he => by
    obtain ⟨t, _, h⟩ := kind_of _ (fun t : Turn => Kind.sys t.spkr) (fun t => (t.tb, t.te)) e he; exact ⟨_, h⟩
  unfold segEvents
  rw [huf]
  refine ⟨?_, fun s => ?_, fun s => ?_⟩
  · have h := Of.flat (k := isU) uem (fun _ => Kind.uem) (fun u => u) (fun _ _ _ => rfl)
    rw [List.map_id'] at h
    have h' := (h.append (Of.none (k := isU) (fun e he => by obtain ⟨r, hr⟩ := Rk e he; simp [isU, hr]))).append
      (Of.none (k := isU) (fun e he => by obtain ⟨r, hr⟩ := Sk e he; simp [isU, hr]))
    rw [List.append_nil, List.append_nil] at h'
    exact h'
  · have h := turns_of (isR s) Kind.ref s (fun r b t => by simp [isR]) (ref.filter (fun t => decide (t.tb < t.te)))
    have h' := ((Of.none (k := isR s) (L := uem.flatMap (fun u => both .uem u.1 u.2)) (fun e he => by simp [isR, U e he])).append h).append
      (Of.none (k := isR s) (fun e he => by obtain ⟨r, hr⟩ := Sk e he; simp [isR, hr]))
    rw [List.append_nil, List.nil_append] at h'
    exact h'
  · have h := turns_of (isS s) Kind.sys s (fun r b t => by simp [isS]) (sys.filter (fun t => decide (t.tb < t.te)))
    have h' := ((Of.none (k := isS s) (L := uem.flatMap (fun u => both .uem u.1 u.2)) (fun e he => by simp [isS, U e he])).append
      (Of.none (k := isS s) (fun e he => by obtain ⟨r, hr⟩ := Rk e he; simp [isS, hr]))).append h
    rw [List.append_nil, List.nil_append] at h'
    exact h'

/-- The segments at an instant. -/
theorem createSegs_at (sort : List Ev → List Ev) (hs : Sorts endFirst sort) (uem : List (Int × Int)) (ref sys : List Turn)
    (hpos : ∀ u ∈ uem, u.1 < u.2) (hap : Apart uem) (x : Int) :
    ∃ R S : List Nat, R.Nodup ∧ S.Nodup ∧ (∀ s, s ∈ R ↔ Speaks ref x s) ∧ (∀ s, s ∈ S ↔ Speaks sys x s) ∧
      ∀ P : List Nat → List Nat → Prop, SegAt (createSegs sort uem ref sys) x P ↔ Inside uem x ∧ P R S := by
  obtain ⟨hp, ho⟩ := hs (segEvents uem ref sys)
  obtain ⟨oU, oR, oS⟩ := segEvents_of uem ref sys hpos
  have ht := end_time ho
  have hH : Hash ([] : List (Nat × Int)) := ⟨.nil, by simp⟩
  obtain ⟨i1, i2, i3, i4⟩ := fold_state ((sort (segEvents uem ref sys)).filter (fun a => decide (a.time ≤ x))) ⟨false, 0, [], []⟩ hH hH
  have tpos : ∀ (l : List Turn) (s : Nat), ∀ u ∈ ((l.filter (fun t => decide (t.tb < t.te))).filter (fun t => t.spkr == s)).map (fun t => (t.tb, t.te)), u.1 < u.2 := by
    intro l s u hu
    obtain ⟨t, ht, rfl⟩ := List.mem_map.1 hu
    simpa using (List.mem_filter.1 (List.mem_filter.1 ht).1).2
  refine ⟨_, _, i1.1, i2.1, fun s => ?_, fun s => ?_, fun P => ?_⟩
  · rw [mem_get i1.2, i3, ← speaks_pos, net_perm (hp.filter _), net_at (oR s) (tpos ref s)]
    have : get ([] : List (Nat × Int)) s = 0 := rfl
    dsimp only
    rw [this]; omega
  · rw [mem_get i2.2, i4, ← speaks_pos, net_perm (hp.filter _), net_at (oS s) (tpos sys s)]
    have : get ([] : List (Nat × Int)) s = 0 := rfl
    dsimp only
    rw [this]; omega
  · unfold createSegs
    have hfin := fold_ev _ uem (oU.perm hp) hpos hap ho (sort (segEvents uem ref sys)) [] [] ⟨false, 0, [], []⟩ (by simp) rfl
    rw [sweep_at P x _ _ ht ?_ (fun h => by cases h)]
    · dsimp only
      obtain ⟨rest, hr⟩ := take_filter ht x
      have hev := fold_ev _ uem (oU.perm hp) hpos hap ho ((sort (segEvents uem ref sys)).filter (fun a => decide (a.time ≤ x))) [] rest
        ⟨false, 0, [], []⟩ (by rw [List.nil_append]; exact hr) rfl
      rw [hev, List.nil_append, net_perm (hp.filter _), net_at oU hpos, ← inside_pos (iv := uem)]
      have h1 := apart_one hap x
      simp only [decide_eq_true_eq]
      constructor
      · rintro ⟨a, b, _⟩; exact ⟨by omega, b⟩
      · rintro ⟨a, b⟩; exact ⟨by omega, b, fun h => by cases h⟩
    · rw [hfin, List.nil_append, net_perm hp, of_net_zero oU]
      rfl

end Verif.Diar
