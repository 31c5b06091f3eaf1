import Verif.AscSgml.Spec
/-!
# Reports of asclite: lemmas on the grouping of segments
-/
set_option autoImplicit false
namespace Verif.AscSgml

/-! ## Sorting -/

theorem insBy_perm {α : Type} (f : α → Nat) (x : α) (l : List α) : (insBy f x l).Perm (x :: l) := by
  induction l with
  | nil => exact List.Perm.refl _
  | cons y l ih =>
    show (if f x ≤ f y then x :: y :: l else y :: insBy f x l).Perm _
    split
    · exact List.Perm.refl _
    · exact (List.Perm.cons y ih).trans (List.Perm.swap x y l)

theorem sortBy_perm {α : Type} (f : α → Nat) (l : List α) : (sortBy f l).Perm l := by
  induction l with
  | nil => exact List.Perm.refl _
  | cons x l ih => exact (insBy_perm f x _).trans (List.Perm.cons x ih)

theorem insBy_sorted {α : Type} (f : α → Nat) (x : α) (l : List α) (h : l.Pairwise fun a b => f a ≤ f b) :
    (insBy f x l).Pairwise fun a b => f a ≤ f b := by
  induction l with
  | nil => exact List.pairwise_singleton _ _
  | cons y l ih =>
    rw [List.pairwise_cons] at h
    show (if f x ≤ f y then x :: y :: l else y :: insBy f x l).Pairwise _
    split
    · rename_i hxy
      rw [List.pairwise_cons]
      refine ⟨?_, List.pairwise_cons.2 h⟩
      intro b hb
      rcases List.mem_cons.1 hb with rfl | hb
      · exact hxy
      · exact Nat.le_trans hxy (h.1 b hb)
    · rename_i hxy
      rw [List.pairwise_cons]
      refine ⟨?_, ih h.2⟩
      intro b hb
      rcases List.mem_cons.1 ((insBy_perm f x l).mem_iff.1 hb) with rfl | hb
      · omega
      · exact h.1 b hb

theorem sortBy_sorted {α : Type} (f : α → Nat) (l : List α) : (sortBy f l).Pairwise fun a b => f a ≤ f b := by
  induction l with
  | nil => exact List.Pairwise.nil
  | cons x l ih => exact insBy_sorted f x _ ih

/-! ## Collecting the segments of speakers -/

/-- A speaker with the segments `L` seen so far. -/
def SpkOk (L : List Seg) (p : Spk) : Prop :=
  p.segs.Perm (L.filter fun s => s.spk = p.name) ∧ (∀ s ∈ p.segs, p.seq ≤ s.seq) ∧ ∃ s ∈ p.segs, s.seq = p.seq

/-- The speakers after the segments `L`. -/
structure Inv (L : List Seg) (ps : List Spk) : Prop where
  names : (ps.map Spk.name).Nodup
  spks : ∀ p ∈ ps, SpkOk L p
  covered : ∀ s ∈ L, ∃ p ∈ ps, p.name = s.spk

theorem filter_same (L : List Seg) (g : Seg) (n : List Nat) (h : g.spk = n) :
    (L ++ [g]).filter (fun s => s.spk = n) = L.filter (fun s => s.spk = n) ++ [g] := by
  rw [List.filter_append, List.filter_cons_of_pos (by simpa using h)]
  rfl

theorem filter_other (L : List Seg) (g : Seg) (n : List Nat) (h : g.spk ≠ n) :
    (L ++ [g]).filter (fun s => s.spk = n) = L.filter (fun s => s.spk = n) := by
  rw [List.filter_append, List.filter_cons_of_neg (by simpa using h)]
  simp

theorem spkOk_add (L : List Seg) (p : Spk) (g : Seg) (h : SpkOk L p) (hn : p.name = g.spk) : SpkOk (L ++ [g]) (p.add g) := by
  obtain ⟨h1, h2, s, h3, h4⟩ := h
  refine ⟨?_, ?_, ?_⟩
  · show (p.segs ++ [g]).Perm ((L ++ [g]).filter fun s => s.spk = p.name)
    rw [filter_same L g p.name hn.symm]
    exact h1.append_right _
  · intro t ht
    show (if g.seq < p.seq then g.seq else p.seq) ≤ t.seq
    rcases List.mem_append.1 ht with ht | ht
    · have := h2 t ht
      split <;> omega
    · rw [List.mem_singleton] at ht
      subst ht
      split <;> omega
  · show ∃ t ∈ p.segs ++ [g], t.seq = if g.seq < p.seq then g.seq else p.seq
    by_cases hc : g.seq < p.seq
    · exact ⟨g, by simp, by rw [if_pos hc]⟩
    · exact ⟨s, List.mem_append_left _ h3, by rw [if_neg hc]; exact h4⟩

theorem addSeg_names (ps : List Spk) (g : Seg) : (addSeg ps g).map Spk.name =
    if g.spk ∈ ps.map Spk.name then ps.map Spk.name else ps.map Spk.name ++ [g.spk] := by
  induction ps with
  | nil => rfl
  | cons p ps ih =>
    show (if p.name = g.spk then p.add g :: ps else p :: addSeg ps g).map Spk.name = _
    by_cases hp : p.name = g.spk
    · rw [if_pos hp, if_pos (by simp [hp])]
      rfl
    · rw [if_neg hp, List.map_cons, ih]
      by_cases hm : g.spk ∈ ps.map Spk.name
      · rw [if_pos hm, if_pos (by rw [List.map_cons]; exact List.mem_cons_of_mem _ hm)]
        rfl
      · rw [if_neg hm, if_neg (by rw [List.map_cons, List.mem_cons, not_or]; exact ⟨fun h => hp h.symm, hm⟩)]
        rfl

theorem addSeg_mem (ps : List Spk) (g : Seg) (hnd : (ps.map Spk.name).Nodup) : ∀ q ∈ addSeg ps g,
    (q ∈ ps ∧ q.name ≠ g.spk) ∨ (∃ p ∈ ps, p.name = g.spk ∧ q = p.add g) ∨
      ((∀ p ∈ ps, p.name ≠ g.spk) ∧ q = Spk.add ⟨g.spk, g.seq, []⟩ g) := by
  induction ps with
  | nil =>
    intro q hq
    have hq : q ∈ [Spk.add ⟨g.spk, g.seq, []⟩ g] := hq
    rw [List.mem_singleton] at hq
    exact Or.inr (Or.inr ⟨fun p hp => (by cases hp), hq⟩)
  | cons p ps ih =>
    intro q hq
    rw [List.map_cons, List.nodup_cons] at hnd
    have hq : q ∈ (if p.name = g.spk then p.add g :: ps else p :: addSeg ps g) := hq
    by_cases hp : p.name = g.spk
    · rw [if_pos hp] at hq
      rcases List.mem_cons.1 hq with rfl | hq
      · exact Or.inr (Or.inl ⟨p, List.mem_cons_self, hp, rfl⟩)
      · refine Or.inl ⟨List.mem_cons_of_mem _ hq, ?_⟩
        intro h
        exact hnd.1 (List.mem_map.2 ⟨q, hq, by rw [h, hp]⟩)
    · rw [if_neg hp] at hq
      rcases List.mem_cons.1 hq with rfl | hq
      · exact Or.inl ⟨List.mem_cons_self, hp⟩
      · rcases ih hnd.2 q hq with h | ⟨p', h1, h2, h3⟩ | ⟨h1, h2⟩
        · exact Or.inl ⟨List.mem_cons_of_mem _ h.1, h.2⟩
        · exact Or.inr (Or.inl ⟨p', List.mem_cons_of_mem _ h1, h2, h3⟩)
        · refine Or.inr (Or.inr ⟨?_, h2⟩)
          intro p' hp'
          rcases List.mem_cons.1 hp' with rfl | hp'
          · exact hp
          · exact h1 p' hp'

theorem Inv.add {L : List Seg} {ps : List Spk} (h : Inv L ps) (g : Seg) : Inv (L ++ [g]) (addSeg ps g) := by
  have hnames := addSeg_names ps g
  refine ⟨?_, ?_, ?_⟩
  · rw [hnames]
    split
    · exact h.names
    · rename_i hm
      refine List.nodup_append.2 ⟨h.names, by simp, ?_⟩
      intro a ha b hb
      rw [List.mem_singleton] at hb
      subst hb
      rintro rfl
      exact hm ha
  · intro q hq
    rcases addSeg_mem ps g h.names q hq with ⟨h1, h2⟩ | ⟨p, h1, h2, rfl⟩ | ⟨h1, rfl⟩
    · obtain ⟨a, b, c⟩ := h.spks q h1
      refine ⟨?_, b, c⟩
      rw [filter_other L g q.name (fun h => h2 h.symm)]
      exact a
    · exact spkOk_add L p g (h.spks p h1) h2
    · have hf : L.filter (fun s => s.spk = g.spk) = [] := by
        rw [List.filter_eq_nil_iff]
        intro s hs
        obtain ⟨p, hp, hpn⟩ := h.covered s hs
        have := h1 p hp
        rw [hpn] at this
        simpa using this
      refine ⟨?_, ?_, g, by simp [Spk.add], by simp [Spk.add]⟩
      · show [g].Perm ((L ++ [g]).filter fun s => s.spk = g.spk)
        rw [filter_same L g g.spk rfl, hf]
        exact List.Perm.refl _
      · intro s hs
        have hs : s ∈ [g] := hs
        rw [List.mem_singleton] at hs
        subst hs
        simp [Spk.add]
  · intro s hs
    have key : ∀ n, n ∈ (addSeg ps g).map Spk.name → ∃ p ∈ addSeg ps g, p.name = n := fun n hn => by
      obtain ⟨p, h1, h2⟩ := List.mem_map.1 hn
      exact ⟨p, h1, h2⟩
    apply key
    rw [hnames]
    rcases List.mem_append.1 hs with hs | hs
    · obtain ⟨p, hp, hpn⟩ := h.covered s hs
      have : s.spk ∈ ps.map Spk.name := List.mem_map.2 ⟨p, hp, hpn⟩
      split
      · exact this
      · exact List.mem_append_left _ this
    · rw [List.mem_singleton] at hs
      subst hs
      split
      · assumption
      · simp

theorem Inv.sort {L : List Seg} {ps : List Spk} (h : Inv L ps) (n : List Nat) : Inv L (sortOf n ps) := by
  have hn : (sortOf n ps).map Spk.name = ps.map Spk.name := by
    unfold sortOf
    rw [List.map_map]
    apply List.map_congr_left
    intro p _
    show (if p.name = n then _ else p).name = _
    split <;> rfl
  refine ⟨by rw [hn]; exact h.names, ?_, ?_⟩
  · intro q hq
    obtain ⟨p, hp, rfl⟩ := List.mem_map.1 hq
    obtain ⟨a, b, c, d, f⟩ := h.spks p hp
    split
    · have hperm := sortBy_perm Seg.seq p.segs
      exact ⟨hperm.trans a, fun s hs => b s (hperm.mem_iff.1 hs), c, hperm.mem_iff.2 d, f⟩
    · exact ⟨a, b, c, d, f⟩
  · intro s hs
    obtain ⟨p, hp, hpn⟩ := h.covered s hs
    have : s.spk ∈ (sortOf n ps).map Spk.name := by rw [hn]; exact List.mem_map.2 ⟨p, hp, hpn⟩
    obtain ⟨q, h1, h2⟩ := List.mem_map.1 this
    exact ⟨q, h1, h2⟩

/-! ## The loop over the speeches -/

/-- Every token alignment of the segment has an entry for the system. -/
def Known (sys : List Nat) (g : Seg) : Prop := ∀ t ∈ g.toks, ∃ ev, t.get sys = some ev

/-- The first hypothesis token of a segment, if the segment begins with one. -/
def firstFile (sys : List Nat) (g : Seg) : Option (List Nat) :=
  g.toks.head?.bind fun t => (t.get sys).bind fun ev => ev.tok.map Tok.file

/-- What the loop knows after the segments `L`. -/
structure PInv (sys : List Nat) (L : List Seg) (s : Prep) : Prop where
  inv : Inv L s.spks
  cur : L ≠ [] → s.cur ≠ none
  files : (s.set = true ∧ L.findSome? (firstFile sys) = some s.hyp) ∨ (s.set = false ∧ L.findSome? (firstFile sys) = none ∧ s.hyp = [])

theorem prepSeg_spec (sys : List Nat) (s : Prep) (g : Seg) (L : List Seg) (h : PInv sys L s) (hk : Known sys g) :
    ∃ s', prepSeg sys s g = some s' ∧ PInv sys (L ++ [g]) s' ∧ s'.ref = s.ref ∧ s'.cur = some g.spk ∧ s'.spks = addSeg s.spks g := by
  have hinv := h.inv.add g
  unfold prepSeg
  dsimp only
  rcases h.files with ⟨h1, h2⟩ | ⟨h1, h2, h3⟩
  · rw [if_pos h1]
    refine ⟨_, rfl, ⟨hinv, fun _ => by simp, Or.inl ⟨rfl, ?_⟩⟩, rfl, rfl, rfl⟩
    rw [List.findSome?_append, h2]
    rfl
  · rw [h1, if_neg (by decide)]
    cases ht : g.toks with
    | nil =>
      refine ⟨_, rfl, ⟨hinv, fun _ => by simp, Or.inr ⟨rfl, ?_, h3⟩⟩, rfl, rfl, rfl⟩
      rw [List.findSome?_append, h2]
      simp [firstFile, ht]
    | cons t ts =>
      obtain ⟨ev, hev⟩ := hk t (by rw [ht]; exact List.mem_cons_self)
      dsimp only
      rw [hev]
      dsimp only
      cases hk' : ev.tok with
      | none =>
        refine ⟨_, rfl, ⟨hinv, fun _ => by simp, Or.inr ⟨rfl, ?_, h3⟩⟩, rfl, rfl, rfl⟩
        rw [List.findSome?_append, h2]
        simp [firstFile, ht, hev, hk']
      | some k =>
        refine ⟨_, rfl, ⟨hinv, fun _ => by simp, Or.inl ⟨rfl, ?_⟩⟩, rfl, rfl, rfl⟩
        rw [List.findSome?_append, h2]
        simp [firstFile, ht, hev, hk']

theorem prepSegs_spec (sys : List Nat) (gs : List Seg) : ∀ (s : Prep) (L : List Seg), PInv sys L s → (∀ g ∈ gs, Known sys g) →
    ∃ s', prepSegs sys s gs = some s' ∧ PInv sys (L ++ gs) s' ∧ s'.ref = s.ref ∧ s'.spks = gs.foldl addSeg s.spks ∧
      s'.cur = (gs.getLast?.map Seg.spk).or s.cur := by
  induction gs with
  | nil =>
    intro s L h _
    exact ⟨s, rfl, by rw [List.append_nil]; exact h, rfl, rfl, rfl⟩
  | cons g gs ih =>
    intro s L h hk
    obtain ⟨s1, a1, a2, a3, a4, a5⟩ := prepSeg_spec sys s g L h (hk g List.mem_cons_self)
    obtain ⟨s2, b1, b2, b3, b4, b5⟩ := ih s1 (L ++ [g]) a2 fun x hx => hk x (List.mem_cons_of_mem _ hx)
    refine ⟨s2, ?_, ?_, by rw [b3, a3], by rw [b4, a5]; rfl, ?_⟩
    · show (prepSeg sys s g).bind (fun s' => prepSegs sys s' gs) = _
      rw [a1]
      exact b1
    · rw [List.append_assoc] at b2
      exact b2
    · rw [b5, a4]
      cases gs with
      | nil => rfl
      | cons x xs =>
        rw [List.getLast?_cons_cons]
        obtain ⟨y, hy⟩ : ∃ y, (x :: xs).getLast? = some y := ⟨_, List.getLast?_eq_some_getLast (by simp)⟩
        rw [hy]
        rfl

/-- All segments of each speaker are in order. -/
def Sorted (ps : List Spk) : Prop := ∀ p ∈ ps, p.segs.Pairwise fun a b => a.seq ≤ b.seq

/-- All segments of the speech have one speaker. -/
def OneSpeaker (sp : Speech) : Prop := ∃ n, ∀ g ∈ sp.segs, g.spk = n

theorem addSegs_others (n : List Nat) (gs : List Seg) (hn : ∀ g ∈ gs, g.spk = n) : ∀ ps : List Spk,
    (ps.map Spk.name).Nodup → ∀ q ∈ gs.foldl addSeg ps, q ∈ ps ∨ q.name = n := by
  induction gs with
  | nil => intro ps _ q hq; exact Or.inl hq
  | cons g gs ih =>
    intro ps hnd q hq
    have hg := hn g List.mem_cons_self
    have hnd' : ((addSeg ps g).map Spk.name).Nodup := by
      rw [addSeg_names]
      split
      · exact hnd
      · rename_i hm
        refine List.nodup_append.2 ⟨hnd, by simp, ?_⟩
        intro a ha b hb
        rw [List.mem_singleton] at hb
        subst hb
        rintro rfl
        exact hm ha
    rcases ih (fun x hx => hn x (List.mem_cons_of_mem _ hx)) (addSeg ps g) hnd' q hq with h | h
    · rcases addSeg_mem ps g hnd q h with ⟨h1, _⟩ | ⟨p, _, h2, rfl⟩ | ⟨_, rfl⟩
      · exact Or.inl h1
      · right
        show p.name = n
        rw [h2, hg]
      · exact Or.inr hg
    · exact Or.inr h

theorem prepSpeech_spec (sys : List Nat) (s : Prep) (sp : Speech) (L : List Seg) (h : PInv sys L s) (hk : ∀ g ∈ sp.segs, Known sys g)
    (hne : L ++ sp.segs ≠ []) :
    ∃ s', prepSpeech sys s sp = some s' ∧ PInv sys (L ++ sp.segs) s' ∧ (sp.refFile = s.ref ∨ L = [] → s'.ref = sp.refFile) ∧
      (OneSpeaker sp → Sorted s.spks → Sorted s'.spks) := by
  generalize hs0 : (if s.set then s else { s with ref := sp.refFile }) = s0
  have h0 : PInv sys L s0 := by
    subst hs0
    split
    · exact h
    · exact ⟨h.inv, h.cur, h.files⟩
  have hspk : s0.spks = s.spks := by subst hs0; split <;> rfl
  obtain ⟨s1, a1, a2, a3, a4, a5⟩ := prepSegs_spec sys sp.segs s0 L h0 hk
  have hc := a2.cur hne
  cases hcur : s1.cur with
  | none => exact absurd hcur hc
  | some n =>
    refine ⟨{ s1 with spks := sortOf n s1.spks }, ?_, ?_, ?_, ?_⟩
    · unfold prepSpeech
      rw [hs0, a1]
      dsimp only
      rw [hcur]
    · exact ⟨a2.inv.sort n, fun _ => by rw [show ({ s1 with spks := sortOf n s1.spks } : Prep).cur = s1.cur from rfl, hcur]; simp, a2.files⟩
    · intro href
      show s1.ref = _
      rw [a3, ← hs0]
      by_cases hset : s.set
      · rw [if_pos hset]
        rcases href with h1 | h1
        · exact h1.symm
        · subst h1
          rcases h.files with ⟨_, hf⟩ | ⟨hf, _⟩
          · cases hf
          · rw [hset] at hf; cases hf
      · rw [if_neg hset]
    · rintro ⟨m, hm⟩ hsort q hq
      obtain ⟨p, hp, rfl⟩ := List.mem_map.1 hq
      split
      · exact sortBy_sorted Seg.seq p.segs
      · rename_i hpn
        rw [a4, hspk] at hp
        rcases addSegs_others m sp.segs hm s.spks h.inv.names p hp with hp' | hp'
        · exact hsort p hp'
        · have a5' : some n = (sp.segs.getLast?.map Seg.spk).or s0.cur := by rw [← hcur]; exact a5
          cases hl : sp.segs.getLast? with
          | none =>
            have h0 : sp.segs = [] := List.getLast?_eq_none_iff.1 hl
            rw [h0] at hp
            exact hsort p hp
          | some g =>
            rw [hl] at a5'
            have hg : g.spk = m := hm g (List.mem_of_getLast? hl)
            have : n = g.spk := by simpa using a5'
            exact absurd (by rw [hp', this, hg]) hpn

theorem prepAll_spec (sys ref : List Nat) (al : List Speech) : ∀ (s : Prep) (L : List Seg), PInv sys L s →
    (∀ sp ∈ al, ∀ g ∈ sp.segs, Known sys g) → (∀ sp ∈ al, sp.refFile = ref) → (L ≠ [] ∧ s.ref = ref ∨ ∃ sp sps, al = sp :: sps ∧ L = [] ∧ sp.segs ≠ []) →
    ∃ s', prepAll sys s al = some s' ∧ PInv sys (L ++ allSegs al) s' ∧ s'.ref = ref ∧
      ((∀ sp ∈ al, OneSpeaker sp) → Sorted s.spks → Sorted s'.spks) := by
  induction al with
  | nil =>
    intro s L h _ _ hL
    rcases hL with hL | ⟨_, _, h0, _⟩
    · exact ⟨s, rfl, by simpa [allSegs] using h, hL.2, fun _ hs => hs⟩
    · cases h0
  | cons sp sps ih =>
    intro s L h hk href hL
    have hne : L ++ sp.segs ≠ [] := by
      rcases hL with hL | ⟨sp', sps', h0, _, h2⟩
      · intro h0; exact hL.1 (List.append_eq_nil_iff.1 h0).1
      · cases h0; intro h0; exact h2 (List.append_eq_nil_iff.1 h0).2
    obtain ⟨s1, a1, a2, a3, a4⟩ := prepSpeech_spec sys s sp L h (hk sp List.mem_cons_self) hne
    have hr := href sp List.mem_cons_self
    have hr1 : s1.ref = ref := by
      rw [← hr]
      apply a3
      rcases hL with hL | ⟨_, _, _, h1, _⟩
      · left; rw [hL.2, hr]
      · exact Or.inr h1
    obtain ⟨s2, b1, b2, b3, b4⟩ := ih s1 (L ++ sp.segs) a2 (fun x hx => hk x (List.mem_cons_of_mem _ hx))
      (fun x hx => href x (List.mem_cons_of_mem _ hx)) (Or.inl ⟨hne, hr1⟩)
    refine ⟨s2, ?_, ?_, b3, fun h1 h2 => b4 (fun x hx => h1 x (List.mem_cons_of_mem _ hx)) (a4 (h1 sp List.mem_cons_self) h2)⟩
    · show (prepSpeech sys s sp).bind (fun s' => prepAll sys s' sps) = _
      rw [a1]
      exact b1
    · have : L ++ allSegs (sp :: sps) = L ++ sp.segs ++ allSegs sps := by simp [allSegs]
      rw [this]
      exact b2

theorem pinv_new (sys : List Nat) : PInv sys [] Prep.new :=
  ⟨⟨List.nodup_nil, fun p hp => (by cases hp), fun s hs => (by cases hs)⟩, fun h => absurd rfl h, Or.inr ⟨rfl, rfl, rfl⟩⟩

/-- The groups of the report. -/
def groupsOf (ps : List Spk) : List (List Nat × List Seg) := ps.map fun p => (p.name, p.segs)

/-- The speakers as they are reported. -/
theorem grouped (L : List Seg) (ps : List Spk) (h : Inv L ps) : Grouped L (groupsOf (sortBy Spk.seq ps)) := by
  have hp := sortBy_perm Spk.seq ps
  refine ⟨?_, ?_, ?_, ?_⟩
  · have : (groupsOf (sortBy Spk.seq ps)).map Prod.fst = (sortBy Spk.seq ps).map Spk.name := by
      unfold groupsOf
      rw [List.map_map]
      rfl
    rw [this]
    exact (hp.map Spk.name).nodup_iff.2 h.names
  · intro g hg
    obtain ⟨p, h1, rfl⟩ := List.mem_map.1 hg
    obtain ⟨a, _, s, b, _⟩ := h.spks p (hp.mem_iff.1 h1)
    exact ⟨List.ne_nil_of_mem b, a⟩
  · intro s hs
    obtain ⟨p, h1, h2⟩ := h.covered s hs
    exact ⟨(p.name, p.segs), List.mem_map.2 ⟨p, hp.mem_iff.2 h1, rfl⟩, h2⟩
  · unfold groupsOf
    rw [List.pairwise_map]
    refine List.Pairwise.imp_of_mem ?_ (sortBy_sorted Spk.seq ps)
    intro a b ha hb hab
    obtain ⟨_, _, s, hs, hseq⟩ := h.spks a (hp.mem_iff.1 ha)
    obtain ⟨_, hle, _⟩ := h.spks b (hp.mem_iff.1 hb)
    exact ⟨s, hs, fun t ht => by have := hle t ht; omega⟩

end Verif.AscSgml
