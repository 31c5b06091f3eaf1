import Verif.Lur.Spec
/-!
# Lemmas on labels
-/
set_option autoImplicit false
namespace Verif.Lur
open Verif.Sgml (Entry)

theorem tally_eq {W : Type} (u : Utt W) : tally u.path = (refs u, errs u) := by
  unfold refs errs
  generalize u.path = es
  induction es with
  | nil => rfl
  | cons e es ih =>
    cases e with
    | ins b => simp [tally, ih, Score.isCorr, Score.isSub, Score.isIns, Score.isDel]
    | del a => simp [tally, ih, Score.isCorr, Score.isSub, Score.isIns, Score.isDel]
    | pair ev a b => cases ev <;> simp [tally, ih, Score.isCorr, Score.isSub, Score.isIns, Score.isDel]

/-- A label to be counted: the speaker, the numbers, the text and the category. -/
structure Ev where
  spk : Nat
  t : Nat × Nat
  f : List Nat
  k : Nat

def evs (spk : Nat) (t : Nat × Nat) : Nat → List (List Nat) → List Ev
  | _, [] => []
  | k, f :: fs => (if f = [] then [] else [⟨spk, t, f, k⟩]) ++ evs spk t (k + 1) fs

def steps (find : List Nat → Option Nat) : Lab → List Ev → Res Lab
  | lab, [] => .ok lab
  | lab, e :: es => (oneLabel find e.spk e.t lab e.f e.k).bind fun lab' => steps find lab' es

theorem steps_append (find : List Nat → Option Nat) (lab : Lab) (a b : List Ev) :
    steps find lab (a ++ b) = (steps find lab a).bind fun lab' => steps find lab' b := by
  induction a generalizing lab with
  | nil => rfl
  | cons e a ih =>
    simp only [List.cons_append, steps]
    cases oneLabel find e.spk e.t lab e.f e.k with
    | ok x => exact ih x
    | fail => rfl
    | undef => rfl

theorem takeWhile_field {f : List Nat} (hf : IsField f) (c : Nat) (hc : c = 44 ∨ c = 62) (r : List Nat) :
    (f ++ c :: r).takeWhile (fun c => decide (c ≠ 60 ∧ c ≠ 44 ∧ c ≠ 62)) = f := by
  obtain ⟨hlen, h1, h2, h3⟩ := hf
  clear hlen
  induction f with
  | nil => rcases hc with rfl | rfl <;> simp
  | cons x f ih =>
    have a1 : x ≠ 60 := fun he => h1 (he ▸ List.mem_cons_self)
    have a2 : x ≠ 44 := fun he => h2 (he ▸ List.mem_cons_self)
    have a3 : x ≠ 62 := fun he => h3 (he ▸ List.mem_cons_self)
    have := ih (fun h => h1 (List.mem_cons_of_mem _ h)) (fun h => h2 (List.mem_cons_of_mem _ h)) (fun h => h3 (List.mem_cons_of_mem _ h))
    rw [List.cons_append, List.takeWhile_cons, if_pos (decide_eq_true ⟨a1, a2, a3⟩), this]

/-- A non-empty label at the head of the text. -/
theorem loop_label (find : List Nat → Option Nat) (spk : Nat) (t : Nat × Nat) (fuel : Nat) (lab : Lab) (k : Nat) (f : List Nat)
    (hf : IsField f) (hne : f ≠ []) (c : Nat) (hc : c = 44 ∨ c = 62) (r : List Nat) :
    labelLoop find spk t (fuel + 1) lab k (f ++ c :: r) =
      (oneLabel find spk t lab f k).bind fun lab' => labelLoop find spk t fuel lab' (k + 1) r := by
  have htw := takeWhile_field hf c hc r
  cases f with
  | nil => exact absurd rfl hne
  | cons x f =>
    obtain ⟨_, h1, h2, h3⟩ := hf
    have a1 : x ≠ 60 := fun he => h1 (he ▸ List.mem_cons_self)
    have a2 : x ≠ 44 := fun he => h2 (he ▸ List.mem_cons_self)
    have a3 : x ≠ 62 := fun he => h3 (he ▸ List.mem_cons_self)
    rw [List.cons_append] at htw ⊢
    rw [labelLoop]
    dsimp only
    rw [if_neg a3, if_neg (fun h => h.elim a1 a2), htw]
    congr 1
    funext lab'
    rw [if_neg (by simp)]
    congr 1
    rw [← List.cons_append, show x :: f ++ c :: r = (x :: f ++ [c]) ++ r by simp, List.drop_left' (by simp)]

theorem loop_eq (find : List Nat → Option Nat) (spk : Nat) (t : Nat × Nat) : ∀ (fs : List (List Nat)) (fuel : Nat) (lab : Lab) (k : Nat),
    (∀ f ∈ fs, IsField f) → (List.intercalate [44] fs ++ [62]).length ≤ fuel →
    labelLoop find spk t fuel lab k (List.intercalate [44] fs ++ [62]) = steps find lab (evs spk t k fs) := by
  intro fs
  induction fs with
  | nil =>
    intro fuel lab k _ hl
    cases fuel with
    | zero => simp at hl
    | succ fuel => rfl
  | cons f fs ih =>
    intro fuel lab k hf hl
    have hff := hf f List.mem_cons_self
    cases fuel with
    | zero => simp at hl
    | succ fuel =>
      cases fs with
      | nil =>
        have hint : List.intercalate [44] [f] ++ [62] = f ++ 62 :: [] := by simp [List.intercalate]
        rw [hint] at hl ⊢
        by_cases hne : f = []
        · subst hne; rfl
        · rw [loop_label find spk t fuel lab k f hff hne 62 (Or.inr rfl) []]
          simp only [evs, if_neg hne, List.append_nil, steps]
          congr 1
          funext lab'
          cases fuel with
          | zero =>
            simp at hl
            exact absurd hl hne
          | succ fuel => rfl
      | cons g fs =>
        have hint : List.intercalate [44] (f :: g :: fs) ++ [62] = f ++ 44 :: (List.intercalate [44] (g :: fs) ++ [62]) := by
          simp [List.intercalate]
        rw [hint] at hl ⊢
        have hl' : (List.intercalate [44] (g :: fs) ++ [62]).length ≤ fuel := by
          rw [List.length_append, List.length_cons] at hl
          omega
        have hih := fun lab => ih fuel lab (k + 1) (fun x hx => hf x (List.mem_cons_of_mem _ hx)) hl'
        by_cases hne : f = []
        · subst hne
          rw [List.nil_append, labelLoop]
          dsimp only
          rw [if_neg (by decide), if_pos (Or.inr rfl), hih]
          rfl
        · rw [loop_label find spk t fuel lab k f hff hne 44 (Or.inl rfl)]
          rw [evs, if_neg hne, List.singleton_append, steps]
          congr 1
          funext lab'
          exact hih lab'

/-- The labels of an utterance, of a speaker, of all speakers. -/
def uttEvs {W : Type} (spk : Nat) (u : Utt W) : List Ev := evs spk (refs u, errs u) 0 (u.labels.getD [])
def spkrEvs {W : Type} (spk : Nat) (us : List (Utt W)) : List Ev := us.flatMap (uttEvs spk)
def allEvs {W : Type} : Nat → List (List (Utt W)) → List Ev
  | _, [] => []
  | spk, g :: gs => spkrEvs spk g ++ allEvs (spk + 1) gs

theorem utt_eq {W : Type} (find : List Nat → Option Nat) (spk : Nat) (lab : Lab) (u : Utt W)
    (hf : ∀ fs, u.labels = some fs → ∀ f ∈ fs, IsField f) : uttLabels find spk lab u.stored = steps find lab (uttEvs spk u) := by
  unfold uttLabels Utt.stored uttEvs
  cases hl : u.labels with
  | none => rfl
  | some fs =>
    simp only [Option.map_some, written]
    rw [if_neg (by decide), tally_eq]
    exact loop_eq find spk _ fs _ lab 0 (hf fs hl) (by omega)

theorem spkr_eq {W : Type} (find : List Nat → Option Nat) (spk : Nat) (us : List (Utt W)) (hf : Fields us) (lab : Lab) :
    spkrLabels find spk lab (us.map (·.stored)) = steps find lab (spkrEvs spk us) := by
  induction us generalizing lab with
  | nil => rfl
  | cons u us ih =>
    rw [List.map_cons, spkrLabels, utt_eq find spk lab u (hf u List.mem_cons_self), spkrEvs, List.flatMap_cons, steps_append]
    congr 1
    funext lab'
    exact ih (fun v hv => hf v (List.mem_cons_of_mem _ hv)) lab'

theorem compute_eq {W : Type} (find : List Nat → Option Nat) (gs : List (List (Utt W))) (hf : ∀ g ∈ gs, Fields g) (spk : Nat) (lab : Lab) :
    computeFrom find spk lab (gs.map (·.map (·.stored))) = steps find lab (allEvs spk gs) := by
  induction gs generalizing spk lab with
  | nil => rfl
  | cons g gs ih =>
    rw [List.map_cons, computeFrom, spkr_eq find spk g (hf g List.mem_cons_self), allEvs, steps_append]
    congr 1
    funext lab'
    exact ih (fun v hv => hf v (List.mem_cons_of_mem _ hv)) (spk + 1) lab'

/-! ## Counting -/

def Good (find : List Nat → Option Nat) (E : List Ev) : Prop :=
  (∀ e ∈ E, find e.f ≠ none) ∧ ∀ e ∈ E, ∀ d ∈ E, ∀ id, find e.f = some id → find d.f = some id → e.k = d.k

def hits (find : List Nat → Option Nat) (id spk : Nat) (E : List Ev) : List Ev := E.filter fun e => decide (find e.f = some id ∧ e.spk = spk)

def total (find : List Nat → Option Nat) (id spk : Nat) (E : List Ev) : Nat × Nat :=
  (((hits find id spk E).map (·.t.1)).sum, ((hits find id spk E).map (·.t.2)).sum)

structure Inv (find : List Nat → Option Nat) (nlab ngrp : Nat) (E : List Ev) (lab : Lab) : Prop where
  loc : lab.loc.length = nlab
  at_ : ∀ (id k : Nat), lab.loc[id]? = some (some k) ↔ ∃ e ∈ E, find e.f = some id ∧ e.k = k
  lsc : lab.lsc.length = nlab
  row : ∀ (id : Nat) (r : List (Nat × Nat)), lab.lsc[id]? = some r → r.length = ngrp ∧
    ∀ (s : Nat) (c : Nat × Nat), r[s]? = some c → c = total find id s E

theorem inv_init (find : List Nat → Option Nat) (nlab ngrp : Nat) : Inv find nlab ngrp [] (noScores nlab ngrp) := by
  refine ⟨by simp [noScores], ?_, by simp [noScores], ?_⟩
  · intro id k
    simp [noScores, List.getElem?_replicate]
  · intro id r hr
    simp only [noScores, List.getElem?_replicate] at hr
    by_cases h : id < nlab
    · rw [if_pos h] at hr
      cases hr
      refine ⟨by simp, ?_⟩
      intro s c hc
      rw [List.getElem?_replicate] at hc
      by_cases h' : s < ngrp
      · rw [if_pos h'] at hc; cases hc; rfl
      · rw [if_neg h'] at hc; cases hc
    · rw [if_neg h] at hr; cases hr

theorem hits_append (find : List Nat → Option Nat) (id spk : Nat) (A B : List Ev) : hits find id spk (A ++ B) = hits find id spk A ++ hits find id spk B := by
  unfold hits; rw [List.filter_append]

theorem total_append (find : List Nat → Option Nat) (id spk : Nat) (A B : List Ev) :
    total find id spk (A ++ B) = ((total find id spk A).1 + (total find id spk B).1, (total find id spk A).2 + (total find id spk B).2) := by
  unfold total; rw [hits_append]; simp

theorem oneLabel_ok {find : List Nat → Option Nat} {nlab ngrp : Nat} (hfind : ∀ f id, find f = some id → id < nlab) {E : List Ev} {lab : Lab}
    (hi : Inv find nlab ngrp E lab) (hE : Good find E) (e : Ev) (hlen : e.f.length < 30) (hs : e.spk < ngrp) :
    (Good find (E ++ [e]) → ∃ lab', oneLabel find e.spk e.t lab e.f e.k = .ok lab' ∧ Inv find nlab ngrp (E ++ [e]) lab') ∧
    (¬ Good find (E ++ [e]) → oneLabel find e.spk e.t lab e.f e.k = .fail) := by
  unfold oneLabel
  rw [if_neg (by omega)]
  cases hfe : find e.f with
  | none =>
    refine ⟨fun hg => absurd hfe (hg.1 e (by simp)), fun _ => rfl⟩
  | some id =>
    have hid := hfind _ _ hfe
    have hll : id < lab.loc.length := by rw [hi.loc]; exact hid
    dsimp only
    cases hl : lab.loc[id]? with
    | none => rw [List.getElem?_eq_none_iff] at hl; omega
    | some l =>
      dsimp only
      by_cases hbad : l ≠ none ∧ l ≠ some e.k
      · rw [if_pos hbad]
        refine ⟨fun hg => ?_, fun _ => rfl⟩
        cases l with
        | none => exact absurd rfl hbad.1
        | some k =>
          obtain ⟨d, hd, h1, h2⟩ := (hi.at_ id k).1 hl
          have := hg.2 d (List.mem_append_left _ hd) e (by simp) id h1 hfe
          exact absurd (by rw [← h2, this]) hbad.2
      · rw [if_neg hbad]
        have hadd : ∃ lsc', addTo lab.lsc id e.spk e.t = some lsc' ∧ lsc'.length = nlab ∧
            (∀ (id' : Nat) (r : List (Nat × Nat)), lsc'[id']? = some r → r.length = ngrp ∧
              ∀ (s : Nat) (c : Nat × Nat), r[s]? = some c → c = total find id' s (E ++ [e])) := by
          have hrl : id < lab.lsc.length := by rw [hi.lsc]; exact hid
          obtain ⟨r1, r2⟩ := hi.row id lab.lsc[id] (List.getElem?_eq_getElem hrl)
          have hsl : e.spk < lab.lsc[id].length := by rw [r1]; exact hs
          refine ⟨_, by unfold addTo; rw [List.getElem?_eq_getElem hrl]; dsimp only; rw [List.getElem?_eq_getElem hsl], by simp [hi.lsc], ?_⟩
          intro id' r hr
          rw [List.getElem?_set] at hr
          have htot : ∀ id' s, total find id' s (E ++ [e]) =
              if id = id' ∧ e.spk = s then ((total find id' s E).1 + e.t.1, (total find id' s E).2 + e.t.2) else total find id' s E := by
            intro id' s
            rw [total_append]
            by_cases hc : id = id' ∧ e.spk = s
            · rw [if_pos hc]
              obtain ⟨rfl, rfl⟩ := hc
              simp [total, hits, hfe]
            · rw [if_neg hc]
              have : hits find id' s [e] = [] := by
                unfold hits
                rw [List.filter_eq_nil_iff]
                intro x hx hh
                rw [List.mem_singleton.1 hx] at hh
                have := of_decide_eq_true hh
                rw [hfe] at this
                exact hc ⟨Option.some.inj this.1, this.2⟩
              simp [total, this]
          by_cases hii : id = id'
          · subst hii
            rw [if_pos rfl, if_pos hrl] at hr
            cases hr
            refine ⟨by simp [r1], ?_⟩
            intro s c hc
            rw [List.getElem?_set] at hc
            rw [htot]
            by_cases hss : e.spk = s
            · subst hss
              rw [if_pos rfl, if_pos hsl] at hc
              cases hc
              rw [if_pos ⟨rfl, rfl⟩]
              have := r2 e.spk _ (List.getElem?_eq_getElem hsl)
              rw [this]
            · rw [if_neg hss] at hc
              rw [if_neg (fun h => hss h.2)]
              exact r2 s c hc
          · rw [if_neg hii] at hr
            obtain ⟨q1, q2⟩ := hi.row id' r hr
            refine ⟨q1, ?_⟩
            intro s c hc
            rw [htot, if_neg (fun h => hii h.1)]
            exact q2 s c hc
        obtain ⟨lsc', ha, hb, hc⟩ := hadd
        rw [ha]
        dsimp only
        have hgood : Good find (E ++ [e]) := by
          refine ⟨?_, ?_⟩
          · intro d hd
            rcases List.mem_append.1 hd with hd | hd
            · exact hE.1 d hd
            · rw [List.mem_singleton.1 hd, hfe]; simp
          · have key : ∀ d ∈ E, find d.f = some id → d.k = e.k := by
              intro d hd hdf
              have := (hi.at_ id d.k).2 ⟨d, hd, hdf, rfl⟩
              rw [hl] at this
              cases this
              by_cases hke : d.k = e.k
              · exact hke
              · exact absurd ⟨by simp, fun h => hke (Option.some.inj h)⟩ hbad
            intro a ha b hb id' h1 h2
            rcases List.mem_append.1 ha with ha | ha <;> rcases List.mem_append.1 hb with hb | hb
            · exact hE.2 a ha b hb id' h1 h2
            · rw [List.mem_singleton.1 hb] at h2 ⊢
              rw [hfe] at h2; cases h2
              exact key a ha h1
            · rw [List.mem_singleton.1 ha] at h1 ⊢
              rw [hfe] at h1; cases h1
              exact (key b hb h2).symm
            · rw [List.mem_singleton.1 ha, List.mem_singleton.1 hb]
        refine ⟨fun _ => ⟨_, rfl, ⟨by simp [hi.loc], ?_, hb, hc⟩⟩, fun h => absurd hgood h⟩
        intro id' k
        show (lab.loc.set id (some e.k))[id']? = some (some k) ↔ _
        rw [List.getElem?_set]
        by_cases hii : id = id'
        · subst hii
          rw [if_pos rfl, if_pos hll]
          constructor
          · intro h
            cases h
            exact ⟨e, by simp, hfe, rfl⟩
          · rintro ⟨d, hd, h1, h2⟩
            have := hgood.2 d hd e (by simp) id h1 hfe
            rw [← h2, this]
        · rw [if_neg hii, hi.at_]
          constructor
          · rintro ⟨d, hd, h1, h2⟩
            exact ⟨d, List.mem_append_left _ hd, h1, h2⟩
          · rintro ⟨d, hd, h1, h2⟩
            rcases List.mem_append.1 hd with hd | hd
            · exact ⟨d, hd, h1, h2⟩
            · rw [List.mem_singleton.1 hd, hfe] at h1
              exact absurd (Option.some.inj h1) hii

theorem Good.left {find : List Nat → Option Nat} {A B : List Ev} (h : Good find (A ++ B)) : Good find A :=
  ⟨fun e he => h.1 e (List.mem_append_left _ he), fun e he d hd => h.2 e (List.mem_append_left _ he) d (List.mem_append_left _ hd)⟩

theorem steps_ok {find : List Nat → Option Nat} {nlab ngrp : Nat} (hfind : ∀ f id, find f = some id → id < nlab) :
    ∀ (es E : List Ev) (lab : Lab), Inv find nlab ngrp E lab → Good find E → (∀ e ∈ es, e.f.length < 30 ∧ e.spk < ngrp) →
    (Good find (E ++ es) → ∃ lab', steps find lab es = .ok lab' ∧ Inv find nlab ngrp (E ++ es) lab') ∧
    (¬ Good find (E ++ es) → steps find lab es = .fail) := by
  intro es
  induction es with
  | nil =>
    intro E lab hi hE _
    rw [List.append_nil]
    exact ⟨fun _ => ⟨lab, rfl, hi⟩, fun h => absurd hE h⟩
  | cons e es ih =>
    intro E lab hi hE hl
    obtain ⟨h1, h2⟩ := oneLabel_ok hfind hi hE e (hl e List.mem_cons_self).1 (hl e List.mem_cons_self).2
    rw [show E ++ e :: es = (E ++ [e]) ++ es by simp]
    by_cases hg : Good find (E ++ [e])
    · obtain ⟨lab', a1, a2⟩ := h1 hg
      obtain ⟨i1, i2⟩ := ih (E ++ [e]) lab' a2 hg (fun x hx => hl x (List.mem_cons_of_mem _ hx))
      rw [steps, a1]
      exact ⟨i1, i2⟩
    · rw [steps, h2 hg]
      exact ⟨fun h => absurd h.left hg, fun _ => rfl⟩

/-! ## What the labels mean -/

theorem mem_evs {spk : Nat} {t : Nat × Nat} : ∀ (fs : List (List Nat)) (k0 : Nat) (e : Ev),
    e ∈ evs spk t k0 fs ↔ e.spk = spk ∧ e.t = t ∧ e.f ≠ [] ∧ ∃ i, fs[i]? = some e.f ∧ e.k = k0 + i := by
  intro fs
  induction fs with
  | nil => intro k0 e; simp [evs]
  | cons f fs ih =>
    intro k0 e
    rw [evs, List.mem_append, ih]
    constructor
    · rintro (h | ⟨h1, h2, h3, i, h4, h5⟩)
      · by_cases hf : f = []
        · rw [if_pos hf] at h; cases h
        · rw [if_neg hf] at h
          rw [List.mem_singleton.1 h]
          exact ⟨rfl, rfl, hf, 0, rfl, rfl⟩
      · exact ⟨h1, h2, h3, i + 1, h4, by omega⟩
    · rintro ⟨h1, h2, h3, i, h4, h5⟩
      cases i with
      | zero =>
        left
        have : f = e.f := by simpa using h4
        rw [if_neg (by rw [this]; exact h3), List.mem_singleton]
        cases e
        simp_all
      | succ i => right; exact ⟨h1, h2, h3, i, by simpa using h4, by omega⟩

theorem mem_allEvs {W : Type} : ∀ (gs : List (List (Utt W))) (s0 : Nat) (e : Ev),
    e ∈ allEvs s0 gs ↔ ∃ (s : Nat) (g : List (Utt W)) (u : Utt W), gs[s]? = some g ∧ u ∈ g ∧ e ∈ uttEvs (s0 + s) u := by
  intro gs
  induction gs with
  | nil => intro s0 e; simp [allEvs]
  | cons g gs ih =>
    intro s0 e
    rw [allEvs, List.mem_append, ih]
    constructor
    · rintro (h | ⟨s, g', u, h1, h2, h3⟩)
      · obtain ⟨u, hu, he⟩ := List.mem_flatMap.1 h
        exact ⟨0, g, u, rfl, hu, he⟩
      · exact ⟨s + 1, g', u, h1, h2, by rw [show s0 + (s + 1) = s0 + 1 + s by omega]; exact h3⟩
    · rintro ⟨s, g', u, h1, h2, h3⟩
      cases s with
      | zero =>
        have : g = g' := by simpa using h1
        subst this
        exact Or.inl (List.mem_flatMap.2 ⟨u, h2, h3⟩)
      | succ s => exact Or.inr ⟨s, g', u, by simpa using h1, h2, by rw [show s0 + 1 + s = s0 + (s + 1) by omega]; exact h3⟩

theorem mem_uttEvs {W : Type} (find : List Nat → Option Nat) (spk : Nat) (u : Utt W) (id k : Nat) :
    (∃ e ∈ uttEvs spk u, find e.f = some id ∧ e.k = k) ↔ HasAt find u id k := by
  unfold uttEvs HasAt
  constructor
  · rintro ⟨e, he, h1, h2⟩
    obtain ⟨_, _, h3, i, h4, h5⟩ := (mem_evs _ _ _).1 he
    cases hl : u.labels with
    | none => rw [hl] at h4; simp at h4
    | some fs =>
      rw [hl] at h4
      exact ⟨fs, e.f, rfl, by rw [show k = i by omega]; exact h4, h3, h1⟩
  · rintro ⟨fs, f, h1, h2, h3, h4⟩
    refine ⟨⟨spk, _, f, k⟩, (mem_evs _ _ _).2 ⟨rfl, rfl, h3, k, ?_, by simp⟩, h4, rfl⟩
    rw [h1]; exact h2

theorem good_iff {W : Type} (find : List Nat → Option Nat) (gs : List (List (Utt W))) :
    Good find (allEvs 0 gs) ↔ Known find gs.flatten ∧ OneCategory find gs.flatten := by
  have hmem : ∀ u, u ∈ gs.flatten ↔ ∃ (s : Nat) (g : List (Utt W)), gs[s]? = some g ∧ u ∈ g := by
    intro u
    rw [List.mem_flatten]
    constructor
    · rintro ⟨g, hg, hu⟩
      obtain ⟨s, hs⟩ := List.mem_iff_getElem?.1 hg
      exact ⟨s, g, hs, hu⟩
    · rintro ⟨s, g, hs, hu⟩
      exact ⟨g, List.mem_of_getElem? hs, hu⟩
  constructor
  · rintro ⟨h1, h2⟩
    refine ⟨?_, ?_⟩
    · intro u hu fs hl f hf hne
      obtain ⟨s, g, hs, hug⟩ := (hmem u).1 hu
      obtain ⟨i, hi⟩ := List.mem_iff_getElem?.1 hf
      refine h1 ⟨0 + s, (refs u, errs u), f, 0 + i⟩ ((mem_allEvs _ _ _).2 ⟨s, g, u, hs, hug, ?_⟩)
      exact (mem_evs _ _ _).2 ⟨rfl, rfl, hne, i, by rw [hl]; exact hi, rfl⟩
    · intro u hu v hv id k l hk hl
      obtain ⟨s, g, hs, hug⟩ := (hmem u).1 hu
      obtain ⟨s', g', hs', hvg⟩ := (hmem v).1 hv
      obtain ⟨e, he, a1, a2⟩ := (mem_uttEvs find (0 + s) u id k).2 hk
      obtain ⟨d, hd, b1, b2⟩ := (mem_uttEvs find (0 + s') v id l).2 hl
      have := h2 e ((mem_allEvs _ _ _).2 ⟨s, g, u, hs, hug, he⟩) d ((mem_allEvs _ _ _).2 ⟨s', g', v, hs', hvg, hd⟩) id a1 b1
      omega
  · rintro ⟨h1, h2⟩
    refine ⟨?_, ?_⟩
    · intro e he
      obtain ⟨s, g, u, hs, hu, heu⟩ := (mem_allEvs _ _ _).1 he
      obtain ⟨_, _, h3, i, h4, _⟩ := (mem_evs _ _ _).1 heu
      cases hl : u.labels with
      | none => rw [hl] at h4; simp at h4
      | some fs =>
        rw [hl] at h4
        exact h1 u ((hmem u).2 ⟨s, g, hs, hu⟩) fs hl e.f (List.mem_of_getElem? h4) h3
    · intro e he d hd id a1 b1
      obtain ⟨s, g, u, hs, hu, heu⟩ := (mem_allEvs _ _ _).1 he
      obtain ⟨s', g', v, hs', hv, hdv⟩ := (mem_allEvs _ _ _).1 hd
      exact h2 u ((hmem u).2 ⟨s, g, hs, hu⟩) v ((hmem v).2 ⟨s', g', hs', hv⟩) id e.k d.k
        ((mem_uttEvs find _ u id e.k).1 ⟨e, heu, a1, rfl⟩) ((mem_uttEvs find _ v id d.k).1 ⟨d, hdv, b1, rfl⟩)

theorem evs_sum (find : List Nat → Option Nat) (id spk : Nat) (t : Nat × Nat) (w : Nat × Nat → Nat) : ∀ (fs : List (List Nat)) (k0 : Nat),
    (∀ (i j : Nat) (f g : List Nat), fs[i]? = some f → fs[j]? = some g → f ≠ [] → g ≠ [] → find f = some id → find g = some id → i = j) →
    ((hits find id spk (evs spk t k0 fs)).map fun e => w e.t).sum =
      if (fs.any fun f => decide (f ≠ [] ∧ find f = some id)) then w t else 0 := by
  intro fs
  induction fs with
  | nil => intro k0 _; rfl
  | cons f fs ih =>
    intro k0 hu
    have ih' := ih (k0 + 1) (fun i j a b ha hb h1 h2 h3 h4 => by
      have := hu (i + 1) (j + 1) a b (by simpa using ha) (by simpa using hb) h1 h2 h3 h4
      omega)
    rw [evs, hits_append, List.map_append, List.sum_append, ih', List.any_cons]
    by_cases hm : f ≠ [] ∧ find f = some id
    · have h0 : (fs.any fun f => decide (f ≠ [] ∧ find f = some id)) = false := by
        rw [List.any_eq_false]
        intro g hg hh
        have hh := of_decide_eq_true hh
        obtain ⟨j, hj⟩ := List.mem_iff_getElem?.1 hg
        have := hu 0 (j + 1) f g rfl (by simpa using hj) hm.1 hh.1 hm.2 hh.2
        omega
      rw [h0, if_neg hm.1, decide_eq_true hm]
      simp [hits, hm.2]
    · have h1 : hits find id spk (if f = [] then [] else [⟨spk, t, f, k0⟩]) = [] := by
        by_cases hf : f = []
        · rw [if_pos hf]; rfl
        · rw [if_neg hf]
          unfold hits
          rw [List.filter_eq_nil_iff]
          intro x hx hh
          rw [List.mem_singleton.1 hx] at hh
          exact hm ⟨hf, (of_decide_eq_true hh).1⟩
      rw [h1, decide_eq_false hm]
      simp

theorem hits_other (find : List Nat → Option Nat) (id spk : Nat) (E : List Ev) (h : ∀ e ∈ E, e.spk ≠ spk) : hits find id spk E = [] := by
  unfold hits
  rw [List.filter_eq_nil_iff]
  intro x hx hh
  exact h x hx (of_decide_eq_true hh).2

theorem spkr_sum {W : Type} (find : List Nat → Option Nat) (id spk : Nat) (w : Nat × Nat → Nat) (us : List (Utt W)) (hc : OneCategory find us) :
    ((hits find id spk (spkrEvs spk us)).map fun e => w e.t).sum =
      ((us.filter (has find id)).map fun u => w (refs u, errs u)).sum := by
  induction us with
  | nil => rfl
  | cons u us ih =>
    have hc' : OneCategory find us := fun a ha b hb => hc a (List.mem_cons_of_mem _ ha) b (List.mem_cons_of_mem _ hb)
    rw [spkrEvs, List.flatMap_cons, hits_append, List.map_append, List.sum_append]
    have := ih hc'
    rw [spkrEvs] at this
    rw [this, uttEvs, evs_sum find id spk _ w (u.labels.getD []) 0, List.filter_cons]
    · have hh : ((u.labels.getD []).any fun f => decide (f ≠ [] ∧ find f = some id)) = has find id u := rfl
      rw [hh]
      cases has find id u <;> simp
    · intro i j f g hi hj h1 h2 h3 h4
      cases hl : u.labels with
      | none => rw [hl] at hi; simp at hi
      | some fs =>
        rw [hl] at hi hj
        exact hc u List.mem_cons_self u List.mem_cons_self id i j ⟨fs, f, hl, hi, h1, h3⟩ ⟨fs, g, hl, hj, h2, h4⟩

theorem all_sum {W : Type} (find : List Nat → Option Nat) (id : Nat) (w : Nat × Nat → Nat) : ∀ (gs : List (List (Utt W))) (s0 s : Nat)
    (g : List (Utt W)), OneCategory find gs.flatten → gs[s]? = some g →
    ((hits find id (s0 + s) (allEvs s0 gs)).map fun e => w e.t).sum = ((g.filter (has find id)).map fun u => w (refs u, errs u)).sum := by
  intro gs
  induction gs with
  | nil => intro s0 s g _ h; simp at h
  | cons g0 gs ih =>
    intro s0 s g hc h
    rw [List.flatten_cons] at hc
    rw [allEvs, hits_append, List.map_append, List.sum_append]
    have hspk : ∀ e ∈ spkrEvs s0 g0, e.spk = s0 := by
      intro e he
      obtain ⟨u, _, he⟩ := List.mem_flatMap.1 he
      exact ((mem_evs _ _ _).1 he).1
    have hspk2 : ∀ e ∈ allEvs (s0 + 1) gs, s0 < e.spk := by
      intro e he
      obtain ⟨s', _, u, _, _, he⟩ := (mem_allEvs _ _ _).1 he
      have := ((mem_evs _ _ _).1 he).1
      omega
    cases s with
    | zero =>
      have : g0 = g := by simpa using h
      subst this
      rw [Nat.add_zero, spkr_sum find id s0 w g0 (fun a ha b hb => hc a (List.mem_append_left _ ha) b (List.mem_append_left _ hb)),
        hits_other find id s0 _ (fun e he => by have := hspk2 e he; omega)]
      simp
    | succ s =>
      rw [hits_other find id (s0 + (s + 1)) (spkrEvs s0 g0) (fun e he => by rw [hspk e he]; omega)]
      have := ih (s0 + 1) s g (fun a ha b hb => hc a (List.mem_append_right _ ha) b (List.mem_append_right _ hb)) (by simpa using h)
      rw [show s0 + (s + 1) = s0 + 1 + s by omega, this]
      simp

end Verif.Lur
