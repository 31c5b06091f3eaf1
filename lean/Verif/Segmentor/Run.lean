import Verif.Segmentor.Lemmas
/-!
# The complete iteration of the segmentor
-/
set_option autoImplicit false
namespace Verif.Segmentor

/-- A source/channel pair still to be visited. -/
def Pending (st : St) (s c : String) : Prop := (s = st.src ∨ s ∈ st.sources) ∧ c ∈ st.channels s

instance (st : St) (s c : String) : Decidable (Pending st s c) := by unfold Pending; infer_instance

/-- The collections are consistent. -/
structure Pinv (st : St) : Prop where
  nodup : st.sources.Nodup
  src : st.src ∉ st.sources
  chans : ∀ s, (st.channels s).Nodup
  ch : st.ch ∉ st.channels st.src
  ne : ∀ s ∈ st.sources, st.channels s ≠ []

theorem Pinv.key_done {st : St} (h : Pinv st) : ¬ Pending st st.src st.ch := fun p => h.ch p.2

/-- Starting on the source `s`. -/
theorem enter_spec (refs : SpeechSet) (s : String) (ss : List String) (cs : String → List String)
    (c : String) (cr : List String) (hc : cs s = c :: cr) (hn : (s :: ss).Nodup)
    (hcs : ∀ x, (cs x).Nodup) (hne : ∀ x ∈ ss, cs x ≠ []) :
    let st2 : St := { sources := ss, channels := fun x => if x = s then cr else cs x,
                      src := s, ch := c, cur := getFirst refs 0 s c }
    Pinv st2 ∧ ∀ x y, ((x = st2.src ∧ y = st2.ch) ∨ Pending st2 x y) ↔ (x ∈ s :: ss ∧ y ∈ cs x) := by
  intro st2
  have hn' := List.nodup_cons.1 hn
  have hcr : (c :: cr).Nodup := hc ▸ hcs s
  have hcr' := List.nodup_cons.1 hcr
  refine ⟨⟨hn'.2, hn'.1, ?_, ?_, ?_⟩, ?_⟩
  · intro x; show (if x = s then cr else cs x).Nodup
    split
    · exact hcr'.2
    · exact hcs x
  · show c ∉ (if s = s then cr else cs s); rw [if_pos rfl]; exact hcr'.1
  · intro x hx; show (if x = s then cr else cs x) ≠ []
    have hxs : x ≠ s := fun e => hn'.1 (e ▸ hx)
    rw [if_neg hxs]; exact hne x hx
  · intro x y
    show (x = s ∧ y = c) ∨ ((x = s ∨ x ∈ ss) ∧ y ∈ (if x = s then cr else cs x)) ↔ _
    by_cases e : x = s
    · subst e; rw [if_pos rfl, hc]; simp
    · rw [if_neg e]; simp [e]

theorem advance_spec (refs : SpeechSet) (st : St) (h : Pinv st) :
    (∃ st2, advance refs st = some st2 ∧ Pinv st2 ∧ st2.cur = getFirst refs 0 st2.src st2.ch ∧
      ∀ x y, ((x = st2.src ∧ y = st2.ch) ∨ Pending st2 x y) ↔ Pending st x y) ∨
    (advance refs st = some st ∧ st.sources = [] ∧ st.channels st.src = []) := by
  unfold advance
  cases hc : st.channels st.src with
  | cons c cs =>
    left
    simp only
    have hcc : (c :: cs).Nodup := hc ▸ h.chans st.src
    have hcc' := List.nodup_cons.1 hcc
    refine ⟨_, rfl, ⟨h.nodup, h.src, ?_, ?_, ?_⟩, rfl, ?_⟩
    · intro x; show (if x = st.src then cs else st.channels x).Nodup
      split
      · exact hcc'.2
      · exact h.chans x
    · show c ∉ (if st.src = st.src then cs else _); rw [if_pos rfl]; exact hcc'.1
    · intro x hx; show (if x = st.src then cs else st.channels x) ≠ []
      have : x ≠ st.src := fun e => h.src (e ▸ hx)
      rw [if_neg this]; exact h.ne x hx
    · intro x y
      show (x = st.src ∧ y = c) ∨ ((x = st.src ∨ x ∈ st.sources) ∧
        y ∈ (if x = st.src then cs else st.channels x)) ↔ (x = st.src ∨ x ∈ st.sources) ∧ y ∈ st.channels x
      by_cases e : x = st.src
      · rw [if_pos e, e, hc]; simp
      · rw [if_neg e]; simp [e]
  | nil =>
    simp only
    cases hs : st.sources with
    | nil => right; exact ⟨rfl, by simp⟩
    | cons s ss =>
      left
      simp only
      have hne := h.ne s (by rw [hs]; simp)
      cases hcs : st.channels s with
      | nil => exact absurd hcs hne
      | cons c cs =>
        have hn : (s :: ss).Nodup := hs ▸ h.nodup
        obtain ⟨h1, h2⟩ := enter_spec refs s ss st.channels c cs hcs hn h.chans
          (fun x hx => h.ne x (by rw [hs]; exact List.mem_cons_of_mem _ hx))
        refine ⟨_, rfl, h1, rfl, ?_⟩
        intro x y
        rw [h2 x y]
        unfold Pending
        rw [← hs]
        constructor
        · rintro ⟨a, b⟩; exact ⟨Or.inr a, b⟩
        · rintro ⟨a | a, b⟩
          · subst a; rw [hc] at b; cases b
          · exact ⟨a, b⟩

/-- A time window of one source and channel. -/
structure Win where
  src : String
  ch : String
  a : Int
  b : Int

/-- The midpoint of the segment is in the window. -/
def Win.holds (w : Win) (x : Seg) : Bool :=
  decide (x.source = w.src) && decide (x.channel = w.ch) &&
    (decide ((x.stop + x.start).tdiv 2 ≥ w.a) && decide ((x.stop + x.start).tdiv 2 < w.b))

/-- The group made for a window. -/
def groupOf (refs hyps : SpeechSet) (w : Win) : Group :=
  ⟨inWindow refs w.a w.b w.src w.ch, inWindow hyps w.a w.b w.src w.ch⟩

theorem mid_bounds (x : Seg) (h : Proper x) :
    x.start ≤ (x.stop + x.start).tdiv 2 ∧ (x.stop + x.start).tdiv 2 < x.stop := by
  obtain ⟨h1, h2, _⟩ := h
  rw [Int.tdiv_eq_ediv_of_nonneg (by omega)]
  omega

/-- Segments not yet handed out. -/
def rem (st : St) (T : Int) (x : Seg) : Bool :=
  (keyed st.src st.ch x && decide (x.stop > T)) || decide (Pending st x.source x.channel)

theorem rem_iff (st : St) (T : Int) (x : Seg) : rem st T x = true ↔
    (keyed st.src st.ch x = true ∧ x.stop > T) ∨ Pending st x.source x.channel := by
  simp [rem]

/-- Invariant of the iteration: time `T` of the current channel has been reached. -/
structure Inv (refs : SpeechSet) (st : St) (T : Int) : Prop where
  nonneg : 0 ≤ T
  cur : st.cur = getFirst refs T st.src st.ch
  blank : ∀ x ∈ refs.flatten, keyed st.src st.ch x = true → x.stop ≤ T ∨ T ≤ x.start
  p : Pinv st
  used : ∀ s c, Pending st s c → ∃ x ∈ refs.flatten, x.source = s ∧ x.channel = c
  done : st.cur = none → st.sources = [] ∧ st.channels st.src = []

/-- What the iteration has delivered from a state on. -/
structure Out (refs hyps : SpeechSet) (st : St) (T : Int) (gs : List Group) (e : St) (ws : List Win) : Prop where
  gs : gs = ws.map (groupOf refs hyps)
  order : ws.Pairwise fun w w' => w.src = w'.src → w.ch = w'.ch → w.b ≤ w'.a
  place : ∀ w ∈ ws, (w.src = st.src ∧ w.ch = st.ch ∧ T ≤ w.a) ∨ Pending st w.src w.ch
  cover : ∀ x ∈ refs.flatten, rem st T x = true → ∃ w ∈ ws, w.holds x = true
  tight : ∀ w ∈ ws, ∀ x ∈ refs.flatten, w.holds x = true → w.a ≤ x.start ∧ x.stop ≤ w.b
  filled : ∀ w ∈ ws, ∀ t, w.a ≤ t → t < w.b → Spoken refs w.src w.ch t
  nonempty : ∀ w ∈ ws, ∃ x ∈ refs.flatten, w.holds x = true
  finished : e.sources = [] ∧ e.channels e.src = [] ∧ e.cur = none

theorem run_spec (refs hyps : SpeechSet) (hg : Good refs) : ∀ (fuel : Nat) (st : St) (T : Int),
    Inv refs st T → refs.flatten.countP (rem st T) < fuel →
    ∃ gs e ws, run refs hyps fuel st = some (gs, e) ∧ Out refs hyps st T gs e ws := by
  intro fuel
  induction fuel with
  | zero => intro st T _ h; omega
  | succ fuel ih =>
    intro st T inv hf
    unfold run
    cases hc : st.cur with
    | none =>
      simp only
      have hd := inv.done hc
      refine ⟨[], st, [], rfl, rfl, List.Pairwise.nil, by simp, ?_, by simp, by simp, by simp, hd.1, hd.2, hc⟩
      intro x hx hr
      exfalso
      rcases (rem_iff _ _ _).1 hr with h | h
      · have := getFirst_none refs hg T st.src st.ch inv.nonneg (inv.cur ▸ hc) x hx h.1
        have := h.2
        omega
      · obtain ⟨h1, h2⟩ := h
        rcases h1 with h1 | h1
        · rw [h1, hd.2] at h2; cases h2
        · rw [hd.1] at h1; cases h1
    | some g =>
      simp only
      obtain ⟨g1, g2, g3, g4⟩ := getFirst_some refs hg T st.src st.ch inv.nonneg g (inv.cur ▸ hc)
      obtain ⟨l, l1, l2, l3, l4, l5⟩ := lastLoop_spec refs hg st.src st.ch (refs.flatten.length + 1) g g1 g2
        (Nat.lt_succ_of_le List.countP_le_length)
      have hTg : T ≤ g.start := by
        rcases inv.blank g g1 g2 with h | h
        · omega
        · exact h
      have hkg := (keyed_iff _ _ _).1 g2
      let w : Win := ⟨st.src, st.ch, g.start, l.stop⟩
      have hblank : ∀ x ∈ refs.flatten, keyed st.src st.ch x = true → x.stop ≤ l.stop ∨ l.stop ≤ x.start := by
        intro x hx hk
        rcases Int.lt_or_le l.stop x.stop with h | h
        · exact Or.inr (l5 x hx hk h)
        · exact Or.inl h
      have htight : ∀ x ∈ refs.flatten, w.holds x = true → w.a ≤ x.start ∧ x.stop ≤ w.b := by
        intro x hx hw
        simp only [w, Win.holds, Bool.and_eq_true, decide_eq_true_eq] at hw
        have hk : keyed st.src st.ch x = true := (keyed_iff _ _ _).2 hw.1
        have hm := mid_bounds x (hg.proper hx)
        show g.start ≤ x.start ∧ x.stop ≤ l.stop
        rcases Int.lt_or_le T x.stop with h | h
        · refine ⟨g4 x hx hk h, ?_⟩
          rcases hblank x hx hk with h' | h'
          · exact h'
          · omega
        · omega
      have hhold : ∀ x ∈ refs.flatten, keyed st.src st.ch x = true → x.stop > T → x.stop ≤ l.stop →
          w.holds x = true := by
        intro x hx hk h1 h2
        have hm := mid_bounds x (hg.proper hx)
        have h3 := g4 x hx hk h1
        simp only [w, Win.holds, Bool.and_eq_true, decide_eq_true_eq]
        exact ⟨(keyed_iff _ _ _).1 hk, by omega, by omega⟩
      have hcur_rem : rem st T g = true := (rem_iff _ _ _).2 (Or.inl ⟨g2, g3⟩)
      have h0 : 0 ≤ l.stop := by have := inv.nonneg; omega
      -- what is left to prove for a next state `st'` at time `T'`
      have fin : ∀ (st' : St) (T' : Int), next refs hyps st = some (groupOf refs hyps w, st') →
          Inv refs st' T' →
          (∀ x ∈ refs.flatten, rem st' T' x = true → rem st T x = true) →
          rem st' T' g = false →
          (∀ x ∈ refs.flatten, keyed st.src st.ch x = true → x.stop > l.stop → rem st' T' x = true) →
          (∀ s c, Pending st s c → (s = st'.src ∧ c = st'.ch ∧ T' = 0) ∨ Pending st' s c) →
          (∀ s c, Pending st' s c → Pending st s c) →
          ((st'.src = st.src ∧ st'.ch = st.ch ∧ T' = l.stop) ∨ Pending st st'.src st'.ch) →
          ∃ gs e ws, (match next refs hyps st with
            | none => none
            | some (g, st') =>
              match run refs hyps fuel st' with
              | none => none
              | some (gs, e) => some (g :: gs, e)) = some (gs, e) ∧ Out refs hyps st T gs e ws := by
        intro st' T' hn inv' hsub hgone hkeep hpend hpend' hkey
        have hcount : refs.flatten.countP (rem st' T') < refs.flatten.countP (rem st T) :=
          countP_lt_of _ _ _ hsub ⟨g, g1, hcur_rem, hgone⟩
        obtain ⟨gs, e, ws, r, o⟩ := ih st' T' inv' (by omega)
        rw [hn]
        simp only [r]
        refine ⟨_, e, w :: ws, rfl, ?_, ?_, ?_, ?_, ?_, ?_, ?_, o.finished⟩
        · rw [o.gs]; rfl
        · refine List.pairwise_cons.2 ⟨?_, o.order⟩
          intro w' hw' e1 e2
          show l.stop ≤ w'.a
          have hnp := inv.p.key_done
          rcases o.place w' hw' with ⟨p1, p2, p3⟩ | p
          · rcases hkey with ⟨k1, k2, k3⟩ | k
            · omega
            · rw [← p1, ← p2, ← e1, ← e2] at k; exact absurd k hnp
          · have := hpend' _ _ p
            rw [← e1, ← e2] at this
            exact absurd this hnp
        · intro w' hw'
          rcases List.mem_cons.1 hw' with e | hw'
          · subst e; exact Or.inl ⟨rfl, rfl, hTg⟩
          · rcases o.place w' hw' with ⟨p1, p2, p3⟩ | p
            · rcases hkey with ⟨k1, k2, k3⟩ | k
              · exact Or.inl ⟨p1.trans k1, p2.trans k2, by omega⟩
              · exact Or.inr (p1 ▸ p2 ▸ k)
            · exact Or.inr (hpend' _ _ p)
        · intro x hx hr
          by_cases hk : keyed st.src st.ch x = true ∧ x.stop > T ∧ x.stop ≤ l.stop
          · exact ⟨w, by simp, hhold x hx hk.1 hk.2.1 hk.2.2⟩
          · have hr' : rem st' T' x = true := by
              rcases (rem_iff _ _ _).1 hr with h | h
              · exact hkeep x hx h.1 (by
                  rcases Int.lt_or_le l.stop x.stop with h' | h'
                  · exact h'
                  · exact absurd ⟨h.1, h.2, h'⟩ hk)
              · rcases hpend _ _ h with ⟨a, b, c⟩ | h'
                · refine (rem_iff _ _ _).2 (Or.inl ⟨(keyed_iff _ _ _).2 ⟨a, b⟩, ?_⟩)
                  have := hg.proper hx
                  have h1 := this.1
                  have h2 := this.2.1
                  omega
                · exact (rem_iff _ _ _).2 (Or.inr h')
            obtain ⟨w', h1, h2⟩ := o.cover x hx hr'
            exact ⟨w', List.mem_cons_of_mem _ h1, h2⟩
        · intro w' hw'
          rcases List.mem_cons.1 hw' with e | hw'
          · subst e; exact htight
          · exact o.tight w' hw'
        · intro w' hw'
          rcases List.mem_cons.1 hw' with e | hw'
          · subst e
            exact lastLoop_fill refs st.src st.ch g.start _ g l
              (fun t h1 h2 => ⟨g, g1, g2, h1, h2⟩) l1
          · exact o.filled w' hw'
        · intro w' hw'
          rcases List.mem_cons.1 hw' with e | hw'
          · subst e; exact ⟨g, g1, hhold g g1 g2 g3 l2⟩
          · exact o.nonempty w' hw'
      have hnext : next refs hyps st =
          match getFirst refs l.stop st.src st.ch with
          | some q => some (groupOf refs hyps w, { st with cur := some q })
          | none => match advance refs { st with cur := none } with
            | none => none
            | some st2 => some (groupOf refs hyps w, st2) := by
        unfold next
        rw [hc]
        simp only
        rw [l1]
        simp only
        cases hq : getFirst refs l.stop st.src st.ch <;> rfl
      cases hq : getFirst refs l.stop st.src st.ch with
      | some q =>
        rw [hq] at hnext
        refine fin { st with cur := some q } l.stop hnext
          ⟨h0, hq.symm, hblank, ⟨inv.p.nodup, inv.p.src, inv.p.chans, inv.p.ch, inv.p.ne⟩, inv.used,
            by intro h; cases h⟩ ?_ ?_ ?_ ?_ ?_ ?_
        · intro x _ hr
          rcases (rem_iff _ _ _).1 hr with h | h
          · exact (rem_iff _ _ _).2 (Or.inl ⟨h.1, by have := h.2; omega⟩)
          · exact (rem_iff _ _ _).2 (Or.inr h)
        · rw [Bool.eq_false_iff]
          intro hr
          rcases (rem_iff _ _ _).1 hr with h | h
          · have := h.2; omega
          · rw [hkg.1, hkg.2] at h; exact inv.p.key_done h
        · intro x _ hk hs; exact (rem_iff _ _ _).2 (Or.inl ⟨hk, hs⟩)
        · intro s c h; exact Or.inr h
        · intro s c h; exact h
        · exact Or.inl ⟨rfl, rfl, rfl⟩
      | none =>
        rw [hq] at hnext
        have hnone := getFirst_none refs hg l.stop st.src st.ch h0 hq
        have hp1 : Pinv { st with cur := none } := ⟨inv.p.nodup, inv.p.src, inv.p.chans, inv.p.ch, inv.p.ne⟩
        rcases advance_spec refs { st with cur := none } hp1 with ⟨st2, a1, a2, a3, a4⟩ | ⟨a1, a2, a3⟩
        · rw [a1] at hnext
          have a4' : ∀ x y, ((x = st2.src ∧ y = st2.ch) ∨ Pending st2 x y) ↔ Pending st x y := a4
          have hused2 : ∀ s c, Pending st2 s c → ∃ x ∈ refs.flatten, x.source = s ∧ x.channel = c :=
            fun s c h => inv.used s c ((a4' s c).1 (Or.inr h))
          refine fin st2 0 hnext ⟨Int.le_refl _, a3, ?_, a2, hused2, ?_⟩ ?_ ?_ ?_ ?_ ?_ ?_
          · intro x hx _; exact Or.inr (hg.proper hx).1
          · intro h
            exfalso
            obtain ⟨x, hx, hx1, hx2⟩ := inv.used st2.src st2.ch ((a4' _ _).1 (Or.inl ⟨rfl, rfl⟩))
            have h1 := getFirst_none refs hg 0 st2.src st2.ch (Int.le_refl _) (a3 ▸ h) x hx
              ((keyed_iff _ _ _).2 ⟨hx1, hx2⟩)
            have h2 := hg.proper hx
            have h3 := h2.1
            have h4 := h2.2.1
            omega
          · intro x _ hr
            rcases (rem_iff _ _ _).1 hr with h | h
            · exact (rem_iff _ _ _).2 (Or.inr ((a4' _ _).1 (Or.inl ((keyed_iff _ _ _).1 h.1))))
            · exact (rem_iff _ _ _).2 (Or.inr ((a4' _ _).1 (Or.inr h)))
          · rw [Bool.eq_false_iff]
            intro hr
            have : Pending st g.source g.channel := by
              rcases (rem_iff _ _ _).1 hr with h | h
              · exact (a4' _ _).1 (Or.inl ((keyed_iff _ _ _).1 h.1))
              · exact (a4' _ _).1 (Or.inr h)
            rw [hkg.1, hkg.2] at this
            exact inv.p.key_done this
          · intro x hx hk hs
            have := hnone x hx hk
            omega
          · intro s c h
            rcases (a4' s c).2 h with h | h
            · exact Or.inl ⟨h.1, h.2, rfl⟩
            · exact Or.inr h
          · intro s c h; exact (a4' s c).1 (Or.inr h)
          · exact Or.inr ((a4' _ _).1 (Or.inl ⟨rfl, rfl⟩))
        · rw [a1] at hnext
          refine fin { st with cur := none } l.stop hnext
            ⟨h0, hq.symm, hblank, hp1, inv.used, fun _ => ⟨a2, a3⟩⟩ ?_ ?_ ?_ ?_ ?_ ?_
          · intro x _ hr
            rcases (rem_iff _ _ _).1 hr with h | h
            · exact (rem_iff _ _ _).2 (Or.inl ⟨h.1, by have := h.2; omega⟩)
            · exact (rem_iff _ _ _).2 (Or.inr h)
          · rw [Bool.eq_false_iff]
            intro hr
            rcases (rem_iff _ _ _).1 hr with h | h
            · have := h.2; omega
            · rw [hkg.1, hkg.2] at h; exact inv.p.key_done h
          · intro x hx hk hs; exact (rem_iff _ _ _).2 (Or.inl ⟨hk, hs⟩)
          · intro s c h; exact Or.inr h
          · intro s c h; exact h
          · exact Or.inl ⟨rfl, rfl, rfl⟩

/-- The state after `Reset` with new references. -/
theorem reset_spec (refs : SpeechSet) (hg : Good refs) (hne : refs.flatten ≠ []) :
    ∃ st, reset refs none = some st ∧ Inv refs st 0 ∧ ∀ x ∈ refs.flatten, rem st 0 x = true := by
  unfold reset
  simp only
  obtain ⟨c1, c2, c3, c4⟩ := collect_spec refs.flatten [] (fun _ => []) List.Pairwise.nil
    (fun _ => List.Pairwise.nil) (by simp)
  generalize hcol : collect refs.flatten ([], fun _ => []) = col at c1 c2 c3 c4
  obtain ⟨ss, cs⟩ := col
  simp only at c1 c2 c3 c4 ⊢
  have c4' : ∀ s c, c ∈ cs s ↔ ∃ g ∈ refs.flatten, g.source = s ∧ g.channel = c := by
    intro s c; rw [c4]; simp
  unfold start
  cases hss : ss with
  | nil =>
    exfalso
    cases hr : refs.flatten with
    | nil => exact hne hr
    | cons x xs =>
      have h1 : x.channel ∈ cs x.source := (c4' _ _).2 ⟨x, by rw [hr]; simp, rfl, rfl⟩
      have h2 : x.source ∈ ss := (c3 _).2 (fun e => by rw [e] at h1; cases h1)
      rw [hss] at h2; cases h2
  | cons s ss' =>
    simp only
    have hsne : cs s ≠ [] := (c3 s).1 (by rw [hss]; simp)
    cases hcs : cs s with
    | nil => exact absurd hcs hsne
    | cons c cr =>
      simp only
      have hn : (s :: ss').Nodup := hss ▸ c1.nodup
      obtain ⟨p1, p2⟩ := enter_spec refs s ss' cs c cr hcs hn (fun x => (c2 x).nodup)
        (fun x hx => (c3 x).1 (by rw [hss]; exact List.mem_cons_of_mem _ hx))
      have hall : ∀ x y, (x ∈ s :: ss' ∧ y ∈ cs x) ↔ ∃ g ∈ refs.flatten, g.source = x ∧ g.channel = y := by
        intro x y
        rw [← c4']
        constructor
        · exact fun h => h.2
        · intro h
          refine ⟨?_, h⟩
          rw [← hss, c3]
          intro e; rw [e] at h; cases h
      refine ⟨_, rfl, ⟨Int.le_refl _, rfl, ?_, p1, ?_, ?_⟩, ?_⟩
      · intro x hx _; exact Or.inr (hg.proper hx).1
      · intro x y h; exact (hall x y).1 ((p2 x y).1 (Or.inr h))
      · intro h
        exfalso
        obtain ⟨x, hx, hx1, hx2⟩ := (hall s c).1 ((p2 s c).1 (Or.inl ⟨rfl, rfl⟩))
        have h1 := getFirst_none refs hg 0 s c (Int.le_refl _) h x hx ((keyed_iff _ _ _).2 ⟨hx1, hx2⟩)
        have h2 := hg.proper hx
        have h3 := h2.1
        have h4 := h2.2.1
        omega
      · intro x hx
        have h2 := hg.proper hx
        have h3 := h2.1
        have h4 := h2.2.1
        rcases (p2 _ _).2 ((hall _ _).2 ⟨x, hx, rfl, rfl⟩) with h | h
        · exact (rem_iff _ _ _).2 (Or.inl ⟨(keyed_iff _ _ _).2 h, by omega⟩)
        · exact (rem_iff _ _ _).2 (Or.inr h)

theorem flatten_inWindow (ss : SpeechSet) (w : Win) :
    (inWindow ss w.a w.b w.src w.ch).flatten = ss.flatten.filter w.holds := by
  unfold inWindow
  have : ∀ l : List (List Seg), (l.filter fun v => decide (v.length ≠ 0)).flatten = l.flatten := by
    intro l
    induction l with
    | nil => rfl
    | cons v l ih =>
      cases v with
      | nil => simpa using ih
      | cons a v =>
        rw [List.filter_cons_of_pos (by simp), List.flatten_cons, ih, List.flatten_cons]
  rw [this]
  induction ss with
  | nil => rfl
  | cons sp ss ih =>
    rw [List.map_cons, List.flatten_cons, ih, List.flatten_cons, List.filter_append]
    rfl

theorem count_filter' (p : Seg → Bool) (x : Seg) (l : List Seg) :
    (l.filter p).count x = if p x = true then l.count x else 0 := by
  induction l with
  | nil => simp
  | cons a l ih =>
    by_cases hp : p a = true
    · rw [List.filter_cons_of_pos hp, List.count_cons, List.count_cons, ih]
      by_cases e : a = x
      · subst e; simp [hp]
      · simp [e]
    · rw [List.filter_cons_of_neg hp, List.count_cons, ih]
      by_cases e : a = x
      · subst e; simp [hp]
      · simp [e]

theorem count_windows (ss : SpeechSet) (x : Seg) (ws : List Win) :
    ((ws.map fun w => (inWindow ss w.a w.b w.src w.ch).flatten).flatten).count x =
      ws.countP (fun w => w.holds x) * ss.flatten.count x := by
  induction ws with
  | nil => simp
  | cons w ws ih =>
    rw [List.map_cons, List.flatten_cons, List.count_append, ih, flatten_inWindow, count_filter',
      List.countP_cons]
    split <;> simp [Nat.add_mul, Nat.add_comm]

/-- At most one window holds a given segment. -/
theorem windows_disjoint (x : Seg) : ∀ (ws : List Win),
    ws.Pairwise (fun w w' => w.src = w'.src → w.ch = w'.ch → w.b ≤ w'.a) →
    ws.countP (fun w => w.holds x) ≤ 1 := by
  intro ws
  induction ws with
  | nil => intro _; simp
  | cons w ws ih =>
    intro h
    have h' := List.pairwise_cons.1 h
    rw [List.countP_cons]
    by_cases hw : w.holds x = true
    · have hz : ws.countP (fun w => w.holds x) = 0 := by
        rw [List.countP_eq_zero]
        intro w' hw' hh
        simp only [Win.holds, Bool.and_eq_true, decide_eq_true_eq] at hw hh
        have := h'.1 w' hw' (hw.1.1.symm.trans hh.1.1) (hw.1.2.symm.trans hh.1.2)
        omega
      rw [hz]; split <;> omega
    · have := ih h'.2
      simp only [hw]
      simpa using this

end Verif.Segmentor
