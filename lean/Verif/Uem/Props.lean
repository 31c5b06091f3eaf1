import Verif.Uem.GapLemmas
import Verif.Uem.Chain
/-!
# Theorems on asclite's UEM filter and on the check for overlapping segments (C83 – C88)
-/
set_option autoImplicit false
namespace Verif.Uem
open Segmentor

/-! ## Lemmas on the verdicts -/

theorem applies_iff (g : Seg) (e : Elem) : applies g.source g.channel e = true ↔ e.ForPrefix g := by
  unfold applies Elem.ForPrefix
  rw [Bool.and_eq_true, List.isPrefixOf_iff_prefix, decide_eq_true_eq]
  constructor
  · rintro ⟨⟨r, h⟩, h2⟩; exact ⟨⟨r, h.symm⟩, h2.symm⟩
  · rintro ⟨⟨r, h⟩, h2⟩; exact ⟨⟨r, h.symm⟩, h2.symm⟩

theorem refScan_keep (g : Seg) (l : List Elem) : (refScan g.start g.stop l).1 = true ↔ ∃ e ∈ l, Inside g e := by
  induction l with
  | nil => simp [refScan]
  | cons e es ih =>
    unfold refScan
    by_cases h : contains g.start g.stop e.start e.stop = true
    · rw [if_pos h]
      have : Inside g e := by simpa [contains, Inside] using h
      simp [this]
    · rw [if_neg h]
      have : ¬ Inside g e := by simpa [contains, Inside] using h
      simp only [ih, List.mem_cons]
      constructor
      · rintro ⟨x, hx, hi⟩; exact ⟨x, Or.inr hx, hi⟩
      · rintro ⟨x, hx | hx, hi⟩
        · subst hx; exact absurd hi this
        · exact ⟨x, hx, hi⟩

theorem hypScan_keep (g : Seg) (l : List Elem) : hypScan (midPoint g) l = true ↔ ∃ e ∈ l, MidInside g e := by
  induction l with
  | nil => simp [hypScan]
  | cons e es ih =>
    unfold hypScan
    by_cases h : (decide (e.start ≤ midPoint g) && decide (midPoint g ≤ e.stop)) = true
    · rw [if_pos h]
      rw [Bool.and_eq_true, decide_eq_true_eq, decide_eq_true_eq] at h
      exact ⟨fun _ => ⟨e, by simp, h⟩, fun _ => rfl⟩
    · rw [if_neg h]
      rw [Bool.and_eq_true, decide_eq_true_eq, decide_eq_true_eq] at h
      have hn : ¬ MidInside g e := h
      simp only [ih, List.mem_cons]
      constructor
      · rintro ⟨x, hx, hi⟩; exact ⟨x, Or.inr hx, hi⟩
      · rintro ⟨x, hx | hx, hi⟩
        · subst hx; exact absurd hi hn
        · exact ⟨x, hx, hi⟩

theorem verdict_ref (els : List Elem) (k : Kind) (hk : k = .ref ∨ k = .gen) (g : Seg) :
    verdict els k g = refScan g.start g.stop (findElement els g.source g.channel) := by
  unfold verdict
  cases findElement els g.source g.channel with
  | nil => rfl
  | cons e es => rcases hk with h | h <;> subst h <;> rfl

theorem verdict_hyp (els : List Elem) (g : Seg) :
    verdict els .hyp g = (hypScan (midPoint g) (findElement els g.source g.channel), 0) := by
  unfold verdict
  cases findElement els g.source g.channel with
  | nil => rfl
  | cons e es => rfl

theorem exists_find (els : List Elem) (g : Seg) (P : Elem → Prop) :
    (∃ e ∈ findElement els g.source g.channel, P e) ↔ ∃ e ∈ els, e.ForPrefix g ∧ P e := by
  unfold findElement
  constructor
  · rintro ⟨e, he, hp⟩
    have he := List.mem_filter.1 he
    exact ⟨e, he.1, (applies_iff g e).1 he.2, hp⟩
  · rintro ⟨e, he, h1, hp⟩
    exact ⟨e, List.mem_filter.2 ⟨he, (applies_iff g e).2 h1⟩, hp⟩

theorem step1_some (els : List Elem) (k : Kind) (hk : k ≠ .none) (sp : Speech) :
    step1 els k sp = some (sp.filter (fun g => !(verdict els k g).1), (sp.map fun g => (verdict els k g).2).sum) := by
  cases k with
  | none => exact absurd rfl hk
  | ref => rfl
  | gen => rfl
  | hyp => rfl

/-- What the filter does, whatever the verdicts. -/
theorem process_fits (owner : Nat → Seg) (pos : Seg → Nat) (els : List Elem) (k : Kind) (hk : k ≠ .none) (w : World)
    (h : Fits owner pos w) : ∃ w', processSpeech els k w =
        some (w', (w.segs.map fun g => (verdict els k g).2).sum) ∧
      w'.segs = w.segs.filter (fun g => (verdict els k g).1) ∧ Fits owner pos w' := by
  obtain ⟨w', r1, r2, r3⟩ := removeAll_fits owner pos (w.segs.filter (fun g => !(verdict els k g).1)) w h
    (List.Pairwise.filter _ h.nodup) (fun g hg => (List.mem_filter.1 hg).1)
  refine ⟨w', ?_, ?_, r3⟩
  · unfold processSpeech
    rw [step1_some els k hk]
    simp only [r1]
  · rw [r2]
    apply List.filter_congr
    intro g hg
    cases hv : (verdict els k g).1 <;> simp [hg, hv]

theorem process_chain (toks : Seg → List Nat) (els : List Elem) (k : Kind) (hk : k ≠ .none) (w : World)
    (h : InChain toks w) : ∃ w', processSpeech els k w =
        some (w', (w.segs.map fun g => (verdict els k g).2).sum) ∧
      w'.segs = w.segs.filter (fun g => (verdict els k g).1) ∧ InChain toks w' := by
  obtain ⟨w', r1, r2, r3⟩ := removeAll_chain toks (w.segs.filter (fun g => !(verdict els k g).1)) w h
    (List.Pairwise.filter _ h.segs) (fun g hg => (List.mem_filter.1 hg).1)
  refine ⟨w', ?_, ?_, r3⟩
  · unfold processSpeech
    rw [step1_some els k hk]
    simp only [r1]
  · rw [r2]
    apply List.filter_congr
    intro g hg
    cases hv : (verdict els k g).1 <;> simp [hg, hv]

/-! ## C83: which reference segments are kept -/

/-- The filter keeps, in their order, exactly the reference segments lying within a region whose channel is the
segment's and whose file name is an initial part of the segment's file name; it never stops the program on the way.
`Fits` says that the tokens' links are those a reader of transcripts makes: both ways, from last tokens to first tokens
of a later segment. -/
theorem uem_reference_kept (owner : Nat → Seg) (pos : Seg → Nat) (els : List Elem) (k : Kind)
    (hk : k = .ref ∨ k = .gen) (w : World) (h : Fits owner pos w) :
    ∃ w' n, processSpeech els k w = some (w', n) ∧ w'.segs.Sublist w.segs ∧ Fits owner pos w' ∧
      ∀ g, g ∈ w'.segs ↔ g ∈ w.segs ∧ ∃ e ∈ els, e.ForPrefix g ∧ Inside g e := by
  obtain ⟨w', r1, r2, r3⟩ := process_fits owner pos els k (by rcases hk with h | h <;> subst h <;> decide) w h
  refine ⟨w', _, r1, by rw [r2]; exact List.filter_sublist, r3, ?_⟩
  intro g
  rw [r2, List.mem_filter, verdict_ref els k hk, refScan_keep, exists_find]

/-- The property itself, for file names none of which is a proper initial part of another one in use: a reference
segment is kept exactly if it lies within a region of its own file and channel. -/
theorem uem_reference_kept_partial (owner : Nat → Seg) (pos : Seg → Nat) (els : List Elem) (k : Kind)
    (hk : k = .ref ∨ k = .gen) (w : World) (h : Fits owner pos w)
    (hpre : ∀ e ∈ els, ∀ g ∈ w.segs, e.ForPrefix g → e.file = g.source) :
    ∃ w' n, processSpeech els k w = some (w', n) ∧ w'.segs.Sublist w.segs ∧
      ∀ g, g ∈ w'.segs ↔ g ∈ w.segs ∧ ∃ e ∈ els, e.For g ∧ Inside g e := by
  obtain ⟨w', n, r1, r2, r3, r4⟩ := uem_reference_kept owner pos els k hk w h
  refine ⟨w', n, r1, r2, ?_⟩
  intro g
  rw [r4]
  constructor
  · rintro ⟨h1, e, he, h2, h3⟩
    exact ⟨h1, e, he, ⟨hpre e he g h1 h2, h2.2⟩, h3⟩
  · rintro ⟨h1, e, he, h2, h3⟩
    exact ⟨h1, e, he, ⟨⟨[], by rw [List.append_nil, h2.1]⟩, h2.2⟩, h3⟩

/-- One token per segment, all unlinked, segments with the given times in file `f`. -/
def lone (f : String) (ts : List (Nat × Int × Int)) : World :=
  { segs := ts.map fun t => ⟨t.1, f, "1", t.2.1, t.2.2⟩, firsts := fun g => [g.id], lasts := fun g => [g.id],
    prec := fun _ => [], next := fun _ => [] }

/-- What is missing above: the region given for file `a1` also admits segments of file `a10`, for which the UEM file
has no region. -/
theorem uem_region_of_other_file :
    (processSpeech [⟨"a1", "1", 0, 100⟩] .ref (lone "a10" [(0, 10, 20)])).map (fun r => (r.1.segs.map Seg.id, r.2)) =
      some ([0], 0) ∧
    ¬ ∃ e ∈ [(⟨"a1", "1", 0, 100⟩ : Elem)], e.For ⟨0, "a10", "1", 10, 20⟩ := by
  refine ⟨by decide, ?_⟩
  rintro ⟨e, he, h⟩
  rw [List.mem_singleton] at he
  subst he
  exact absurd h.1 (by decide)

/-- An example for `Fits`: a word, two alternative words, a word; the alternatives lie outside the region. -/
def altSegs : List Seg := [⟨0, "f", "1", 0, 10⟩, ⟨1, "f", "1", 10, 20⟩, ⟨2, "f", "1", 20, 30⟩]
def altOwner : Nat → Seg
  | 1 => ⟨0, "f", "1", 0, 10⟩
  | 2 => ⟨1, "f", "1", 10, 20⟩
  | 3 => ⟨1, "f", "1", 10, 20⟩
  | 4 => ⟨2, "f", "1", 20, 30⟩
  | _ => ⟨9, "", "", 0, 0⟩
def altWorld : World :=
  { segs := altSegs
    firsts := fun g => if g.id = 0 then [1] else if g.id = 1 then [2, 3] else [4]
    lasts := fun g => if g.id = 0 then [1] else if g.id = 1 then [2, 3] else [4]
    prec := fun t => if t = 2 then [1] else if t = 3 then [1] else if t = 4 then [2, 3] else []
    next := fun t => if t = 1 then [2, 3] else if t = 2 then [4] else if t = 3 then [4] else [] }

theorem altOwner_in (s : Nat) (h : altOwner s ∈ altSegs) : s = 1 ∨ s = 2 ∨ s = 3 ∨ s = 4 := by
  match s with
  | 0 => exact absurd h (by decide)
  | 1 => simp
  | 2 => simp
  | 3 => simp
  | 4 => simp
  | n + 5 => exact absurd h (show ¬ (⟨9, "", "", 0, 0⟩ : Seg) ∈ altSegs by decide)

theorem altWorld_fits : Fits altOwner Seg.id altWorld := by
  refine ⟨by decide, ?_, ?_, ?_, ?_, ?_, ?_⟩
  · intro s t hs ht
    rcases altOwner_in s hs with h | h | h | h <;> rcases altOwner_in t ht with h' | h' | h' | h' <;>
      subst h <;> subst h' <;> decide
  · intro s t hs ht
    rcases altOwner_in s hs with h | h | h | h <;> subst h <;>
      simp [altWorld] at ht <;> (try rcases ht with ht | ht) <;> (try subst ht) <;> decide
  · intro s t hs ht
    rcases altOwner_in t hs with h | h | h | h <;> subst h <;>
      simp [altWorld] at ht <;> (try rcases ht with ht | ht) <;> (try subst ht) <;> decide
  · intro s t hs ht hne
    rcases altOwner_in s hs with h | h | h | h <;> subst h <;>
      simp [altWorld] at ht <;> (try rcases ht with ht | ht) <;> (try subst ht) <;> decide
  · intro g hg
    simp only [altWorld, altSegs, List.mem_cons, List.not_mem_nil, or_false] at hg
    rcases hg with h | h | h <;> subst h <;> decide
  · intro g hg
    simp only [altWorld, altSegs, List.mem_cons, List.not_mem_nil, or_false] at hg
    rcases hg with h | h | h <;> subst h <;> decide

example : (processSpeech [⟨"f", "1", 0, 10⟩, ⟨"f", "1", 19, 40⟩] .ref altWorld).map (fun r => (r.1.segs.map Seg.id, r.2)) =
    some ([0, 2], 1) := by decide

/-! ### Reports of segments cut by a region's end -/

theorem straddles_iff (g : Seg) (e : Elem) (he : e.start < e.stop) :
    straddles g.start g.stop e.start e.stop = true ↔ Cut g e ∧ g.start ≠ e.start ∧ g.stop ≠ e.stop := by
  unfold straddles Cut
  simp only [Bool.or_eq_true, Bool.and_eq_true, decide_eq_true_eq]
  omega

theorem refScan_errors (g : Seg) : ∀ (l : List Elem), (∀ e ∈ l, e.start < e.stop) →
    l.Pairwise (fun d e => Apart (d.start, d.stop) (e.start, e.stop)) →
    ((refScan g.start g.stop l).2 = 0 ↔ ∀ e ∈ l, ¬ (Cut g e ∧ g.start ≠ e.start ∧ g.stop ≠ e.stop)) := by
  intro l
  induction l with
  | nil => intro _ _; simp [refScan]
  | cons e es ih =>
    intro hp ha
    rw [List.pairwise_cons] at ha
    have he := hp e (by simp)
    have ih := ih (fun x hx => hp x (by simp [hx])) ha.2
    have hs := straddles_iff g e he
    unfold refScan
    by_cases h : contains g.start g.stop e.start e.stop = true
    · rw [if_pos h]
      have hi : e.start ≤ g.start ∧ g.stop ≤ e.stop := by simpa [contains] using h
      refine ⟨fun _ => ?_, fun _ => rfl⟩
      intro x hx
      rcases List.mem_cons.1 hx with e' | hx
      · subst e'; unfold Cut; omega
      · have h1 := ha.1 x hx
        have h2 := hp x (by simp [hx])
        unfold Apart at h1
        unfold Cut
        simp only at h1
        omega
    · rw [if_neg h]
      simp only
      by_cases hst : straddles g.start g.stop e.start e.stop = true
      · rw [if_pos hst]
        constructor
        · intro h'; omega
        · intro h'; exact absurd (hs.1 hst) (h' e (by simp))
      · rw [if_neg hst, ih]
        constructor
        · intro h' x hx
          rcases List.mem_cons.1 hx with e' | hx
          · subst e'; exact fun c => hst (hs.2 c)
          · exact h' x hx
        · intro h' x hx; exact h' x (by simp [hx])

/-- With disjoint regions the filter counts an error exactly if some reference segment is cut by an end of a region of
its file, provided the segment shares no end with that region. -/
theorem uem_cut_reported_partial (owner : Nat → Seg) (pos : Seg → Nat) (els : List Elem) (k : Kind)
    (hk : k = .ref ∨ k = .gen) (w : World) (h : Fits owner pos w) (hp : ∀ e ∈ els, e.start < e.stop)
    (ha : ∀ f c, (findElement els f c).Pairwise fun d e => Apart (d.start, d.stop) (e.start, e.stop)) :
    ∃ w' n, processSpeech els k w = some (w', n) ∧
      (n = 0 ↔ ∀ g ∈ w.segs, ∀ e ∈ els, e.ForPrefix g → g.start ≠ e.start → g.stop ≠ e.stop → ¬ Cut g e) := by
  obtain ⟨w', r1, _, _⟩ := process_fits owner pos els k (by rcases hk with h | h <;> subst h <;> decide) w h
  refine ⟨w', _, r1, ?_⟩
  have hsum : ∀ (l : List Seg) (f : Seg → Nat), (l.map f).sum = 0 ↔ ∀ g ∈ l, f g = 0 := by
    intro l f
    induction l with
    | nil => simp
    | cons a l ih => simp [ih]
  rw [hsum]
  have hone : ∀ g, (verdict els k g).2 = 0 ↔
      ∀ e ∈ els, e.ForPrefix g → g.start ≠ e.start → g.stop ≠ e.stop → ¬ Cut g e := by
    intro g
    rw [verdict_ref els k hk, refScan_errors g (findElement els g.source g.channel) (fun e he => hp e (List.mem_filter.1 he).1) (ha _ _)]
    constructor
    · intro h' e he h1 h2 h3 h4
      exact h' e (List.mem_filter.2 ⟨he, (applies_iff g e).2 h1⟩) ⟨h4, h2, h3⟩
    · rintro h' e he ⟨h1, h2, h3⟩
      have he := List.mem_filter.1 he
      exact h' e he.1 ((applies_iff g e).1 he.2) h2 h3 h1
  constructor
  · intro h' g hg; exact (hone g).1 (h' g hg)
  · intro h' g hg; exact (hone g).2 (h' g hg)

/-- What is missing: a segment that begins with the region and ends after it is removed without a report. -/
theorem uem_cut_not_reported :
    (processSpeech [⟨"f", "1", 0, 50⟩] .ref (lone "f" [(0, 0, 80)])).map (fun r => (r.1.segs.map Seg.id, r.2)) =
      some ([], 0) ∧ Cut ⟨0, "f", "1", 0, 80⟩ ⟨"f", "1", 0, 50⟩ := by
  refine ⟨by decide, ?_⟩
  unfold Cut; decide

/-- A segment ending in the middle of a region is reported. -/
example : (processSpeech [⟨"f", "1", 10, 50⟩] .ref (lone "f" [(0, 0, 20), (1, 20, 30)])).map
    (fun r => (r.1.segs.map Seg.id, r.2)) = some ([1], 1) := by decide

/-! ## C84: which hypothesis segments are kept -/

/-- The filter keeps, in their order, exactly the hypothesis segments whose middle lies in a region of their channel
whose file name is an initial part of theirs, and never counts an error. -/
theorem uem_hypothesis_kept (owner : Nat → Seg) (pos : Seg → Nat) (els : List Elem) (w : World)
    (h : Fits owner pos w) :
    ∃ w', processSpeech els .hyp w = some (w', 0) ∧ w'.segs.Sublist w.segs ∧ Fits owner pos w' ∧
      ∀ g, g ∈ w'.segs ↔ g ∈ w.segs ∧ ∃ e ∈ els, e.ForPrefix g ∧ MidInside g e := by
  obtain ⟨w', r1, r2, r3⟩ := process_fits owner pos els .hyp (by decide) w h
  have hz : (w.segs.map fun g => (verdict els .hyp g).2).sum = 0 := by
    have : ∀ (l : List Seg), (l.map fun g => (verdict els .hyp g).2).sum = 0 := by
      intro l
      induction l with
      | nil => rfl
      | cons a l ih => rw [List.map_cons, List.sum_cons, ih, verdict_hyp]
    exact this _
  rw [hz] at r1
  refine ⟨w', r1, by rw [r2]; exact List.filter_sublist, r3, ?_⟩
  intro g
  rw [r2, List.mem_filter, verdict_hyp, hypScan_keep, exists_find]

/-- The same for file names none of which is a proper initial part of another one in use. -/
theorem uem_hypothesis_kept_partial (owner : Nat → Seg) (pos : Seg → Nat) (els : List Elem) (w : World)
    (h : Fits owner pos w) (hpre : ∀ e ∈ els, ∀ g ∈ w.segs, e.ForPrefix g → e.file = g.source) :
    ∃ w', processSpeech els .hyp w = some (w', 0) ∧ w'.segs.Sublist w.segs ∧
      ∀ g, g ∈ w'.segs ↔ g ∈ w.segs ∧ ∃ e ∈ els, e.For g ∧ MidInside g e := by
  obtain ⟨w', r1, r2, r3, r4⟩ := uem_hypothesis_kept owner pos els w h
  refine ⟨w', r1, r2, ?_⟩
  intro g
  rw [r4]
  constructor
  · rintro ⟨h1, e, he, h2, h3⟩
    exact ⟨h1, e, he, ⟨hpre e he g h1 h2, h2.2⟩, h3⟩
  · rintro ⟨h1, e, he, h2, h3⟩
    exact ⟨h1, e, he, ⟨⟨[], by rw [List.append_nil, h2.1]⟩, h2.2⟩, h3⟩

/-- Two words, one of them with its middle in the region though it ends outside. -/
example : (processSpeech [⟨"f", "1", 0, 12⟩] .hyp altWorld).map (fun r => (r.1.segs.map Seg.id, r.2)) =
    some ([0], 0) ∧
    (processSpeech [⟨"f", "1", 0, 15⟩] .hyp altWorld).map (fun r => (r.1.segs.map Seg.id, r.2)) =
    some ([0, 1], 0) := by decide

/-! ## C85: the chain of words after the filter -/

/-- Words linked one after the other, without alternatives: after the filter the words of the kept segments are linked
one after the other, and to nothing else. -/
theorem removal_keeps_chain_partial (toks : Seg → List Nat) (els : List Elem) (k : Kind) (hk : k ≠ .none) (w : World)
    (hs : w.segs.Nodup) (hf : ∀ g ∈ w.segs, w.firsts g = (toks g).head?.toList)
    (hl : ∀ g ∈ w.segs, w.lasts g = (toks g).getLast?.toList) (hn : (w.segs.flatMap toks).Nodup)
    (hc : Linked w.prec w.next (w.segs.flatMap toks)) :
    ∃ w' n, processSpeech els k w = some (w', n) ∧ w'.segs.Sublist w.segs ∧
      Linked w'.prec w'.next (w'.segs.flatMap toks) := by
  obtain ⟨w', r1, r2, r3⟩ := process_chain toks els k hk w ⟨hs, hf, hl, hn, hc⟩
  exact ⟨w', _, r1, by rw [r2]; exact List.filter_sublist, r3.linked⟩

/-- Three words, one per segment; the second one is removed. -/
def rowWorld : World :=
  { segs := altSegs, firsts := fun g => [g.id], lasts := fun g => [g.id],
    prec := fun t => if t = 1 then [0] else if t = 2 then [1] else [],
    next := fun t => if t = 0 then [1] else if t = 1 then [2] else [] }

example : Linked rowWorld.prec rowWorld.next (rowWorld.segs.flatMap fun g => [g.id]) := by
  intro a x b h
  have h : [0, 1, 2] = a ++ x :: b := h
  match a, h with
  | [], h => cases h; decide
  | [_], h => cases h; decide
  | [_, _], h => cases h; decide
  | _ :: _ :: _ :: a, h =>
    have := congrArg List.length h
    simp at this

example : (processSpeech [⟨"f", "1", 0, 10⟩, ⟨"f", "1", 20, 30⟩] .ref rowWorld).map
    (fun r => (r.1.segs.map Seg.id, r.1.next 0, r.1.prec 2)) = some ([0, 2], [2], [0]) := by decide

/-- What is missing: after a removal only the first of several preceding words is linked on.  Two alternatives, a word
that is removed, a word: the second alternative is then followed by nothing, so that the reading through it loses the
last word. -/
theorem removal_breaks_alternatives :
    let w : World :=
      { segs := altSegs
        firsts := fun g => if g.id = 0 then [1, 2] else if g.id = 1 then [3] else [4]
        lasts := fun g => if g.id = 0 then [1, 2] else if g.id = 1 then [3] else [4]
        prec := fun t => if t = 3 then [1, 2] else if t = 4 then [3] else []
        next := fun t => if t = 1 then [3] else if t = 2 then [3] else if t = 3 then [4] else [] }
    (removeSegment w ⟨1, "f", "1", 10, 20⟩).map (fun r => (r.segs.map Seg.id, r.next 1, r.next 2, r.prec 4)) =
      some ([0, 2], [4], [], [1]) := by decide

/-! ## C86: gaps with a UEM file -/

/-- With a UEM file whose regions for the file and channel are disjoint and contain the reference segments (which is
what the filter leaves), the gaps added are disjoint and cover exactly the moments that are in a region and at which
nobody speaks in the references. -/
theorem gaps_with_uem (refs : SpeechSet) (els : List Elem) (f c : String)
    (hg : ∀ sp ∈ refs, (∀ x ∈ sp, Proper x) ∧ InOrder sp)
    (hsome : ∃ x ∈ refs.flatten, x.source = f ∧ x.channel = c)
    (hr : ∀ r ∈ regions els f c, r.1 < r.2) (hd : (regions els f c).Pairwise Apart)
    (hin : ∀ x ∈ refs.flatten, x.source = f → x.channel = c →
      ∃ r ∈ regions els f c, r.1 ≤ x.start ∧ x.stop ≤ r.2) :
    ∃ gaps, gapsWithUem refs els f c = some gaps ∧ (∀ p ∈ gaps, p.1 < p.2) ∧
      gaps.Pairwise (fun p q => p.2 ≤ q.1) ∧
      ∀ t, Covers gaps t ↔ Covers (regions els f c) t ∧
        ¬ ∃ x ∈ refs.flatten, x.source = f ∧ x.channel = c ∧ x.start ≤ t ∧ t < x.stop := by
  obtain ⟨x0, hx0, hx1, hx2⟩ := hsome
  obtain ⟨gs, g1, g2⟩ := groups_spec refs hg (List.ne_nil_of_mem hx0)
  obtain ⟨s1, s2, s3, s4⟩ := g2 f c
  have happ : (spans gs f c).Pairwise Apart := s2.imp fun h => Or.inl h
  have hne : (spans gs f c).isEmpty = false := by
    have hp := Good.proper hg hx0
    obtain ⟨i, hi, _⟩ := (s3 x0.start).2 ⟨x0, hx0, hx1, hx2, Int.le_refl _, hp.2.1⟩
    cases hs : spans gs f c with
    | nil => rw [hs] at hi; cases hi
    | cons _ _ => rfl
  have hpar : ∀ t, upTo t (uemTimes gs els f c) % 2 = 1 ↔
      Covers (regions els f c) t ∧ ¬ Covers (spans gs f c) t := by
    intro t
    show upTo t (ends (spans gs f c) ++ ends (regions els f c)) % 2 = 1 ↔ _
    rw [upTo_append]
    have h1 := upTo_ends t (spans gs f c) (fun i hi => by have := s1 i hi; omega)
    have h2 := upTo_ends t (regions els f c) (fun i hi => by have := hr i hi; omega)
    have h3 := holding_le_one t _ happ
    have h4 := holding_le_one t _ hd
    have h5 := holding_one t _ happ
    have h6 := holding_one t _ hd
    have h7 : Covers (spans gs f c) t → Covers (regions els f c) t := by
      intro hc
      obtain ⟨x, hx, a, b, l, r⟩ := (s3 t).1 hc
      obtain ⟨q, hq, q1, q2⟩ := hin x hx a b
      exact ⟨q, hq, by omega, by omega⟩
    rw [← h5, ← h6] at h7
    rw [← h5, ← h6]
    omega
  have hlen : (uemTimes gs els f c).length % 2 = 0 := by
    show (ends (spans gs f c) ++ ends (regions els f c)).length % 2 = 0
    have := ends_length (spans gs f c)
    have := ends_length (regions els f c)
    rw [List.length_append]; omega
  obtain ⟨gaps, r1, r2, r3, r4⟩ := gaps_complement (spans gs f c) (uemTimes gs els f c) _ hlen
    (fun i hi => (s1 i hi).2) hpar
  refine ⟨gaps, ?_, r2, r3, ?_⟩
  · unfold gapsWithUem
    rw [g1]
    simp only [hne]
    exact r1
  · intro t; rw [r4, s3]

/-- Two speakers in a region and one segment in a second region. -/
example : gapsWithUem [[⟨0, "f", "1", 10, 20⟩, ⟨1, "f", "1", 60, 70⟩], [⟨2, "f", "1", 15, 30⟩]]
    [⟨"f", "1", 50, 90⟩, ⟨"f", "1", 0, 40⟩] "f" "1" = some [(0, 10), (30, 40), (50, 60), (70, 90)] := by decide

/-- A file and channel that the UEM file asks for but in which no reference segment is left get no gap: what a system
puts there is compared with nothing. -/
theorem no_gap_without_reference :
    gapsWithUem [[⟨0, "f", "1", 10, 20⟩]] [⟨"f", "1", 0, 40⟩, ⟨"g", "1", 0, 40⟩] "g" "1" = some [] := by decide

/-- If the filter leaves no reference segment at all, the search for groups has undefined behaviour. -/
theorem no_reference_undefined (els : List Elem) (f c : String) : gapsWithUem [[]] els f c = none := rfl

/-! ## C87: gaps without a UEM file -/

/-- Without a UEM file and with an odd number of hypothesis segments in the file and channel, the gaps added are disjoint
and cover exactly the moments between the earliest and the latest time of references and hypotheses at which nobody
speaks in the references. -/
theorem gaps_without_uem_partial (refs : SpeechSet) (hs : List HSeg) (f c : String)
    (hg : ∀ sp ∈ refs, (∀ x ∈ sp, Proper x) ∧ InOrder sp)
    (hsome : ∃ x ∈ refs.flatten, x.source = f ∧ x.channel = c)
    (hk : ∀ h ∈ hs, ∃ x ∈ refs.flatten, x.source = h.file ∧ x.channel = h.channel)
    (hodd : (ofKey hs f c).length % 2 = 1) :
    ∃ gaps lo hi, gapsWithoutUem refs hs f c = some gaps ∧ (∀ p ∈ gaps, p.1 < p.2) ∧
      gaps.Pairwise (fun p q => p.2 ≤ q.1) ∧
      (∀ x ∈ refs.flatten, x.source = f → x.channel = c → lo ≤ x.start ∧ x.stop ≤ hi) ∧
      (∀ h ∈ hs, h.file = f → h.channel = c → ∀ j ∈ h.toks, lo ≤ j.1 ∧ j.2 ≤ hi) ∧
      ((∃ x ∈ refs.flatten, x.source = f ∧ x.channel = c ∧ lo = x.start) ∨
        ∃ h ∈ hs, h.file = f ∧ h.channel = c ∧ ∃ j ∈ h.toks, lo = j.1) ∧
      ((∃ x ∈ refs.flatten, x.source = f ∧ x.channel = c ∧ hi = x.stop) ∨
        ∃ h ∈ hs, h.file = f ∧ h.channel = c ∧ ∃ j ∈ h.toks, hi = j.2) ∧
      ∀ t, Covers gaps t ↔ (lo ≤ t ∧ t < hi) ∧
        ¬ ∃ x ∈ refs.flatten, x.source = f ∧ x.channel = c ∧ x.start ≤ t ∧ t < x.stop := by
  obtain ⟨x0, hx0, hx1, hx2⟩ := hsome
  obtain ⟨gs, g1, g2⟩ := groups_spec refs hg (List.ne_nil_of_mem hx0)
  have hnonempty : ∀ f c, (∃ x ∈ refs.flatten, x.source = f ∧ x.channel = c) → spans gs f c ≠ [] := by
    rintro f c ⟨x, hx, h1, h2⟩
    have hp := Good.proper hg hx
    obtain ⟨i, hi, _⟩ := ((g2 f c).2.2.1 x.start).2 ⟨x, hx, h1, h2, Int.le_refl _, hp.2.1⟩
    exact List.ne_nil_of_mem hi
  have hne := hnonempty f c ⟨x0, hx0, hx1, hx2⟩
  obtain ⟨s1, s2, s3, s4⟩ := g2 f c
  have happ : (spans gs f c).Pairwise Apart := s2.imp fun h => Or.inl h
  obtain ⟨lo, hi, t1, t2, t3, t4, t5⟩ := hypTimes_spec gs hs f c hne
  have hlohi : lo < hi := by
    obtain ⟨i, hi'⟩ := List.exists_mem_of_ne_nil _ hne
    have := t2 i hi'; have := s1 i hi'; omega
  let N := (ofKey hs f c).length
  let times := List.replicate N lo ++ ends (spans gs f c) ++ List.replicate N hi
  have hpar : ∀ t, upTo t times % 2 = 1 ↔ (lo ≤ t ∧ t < hi) ∧ ¬ Covers (spans gs f c) t := by
    intro t
    show upTo t (List.replicate N lo ++ ends (spans gs f c) ++ List.replicate N hi) % 2 = 1 ↔ _
    rw [upTo_append, upTo_append, upTo_replicate, upTo_replicate]
    have h1 := upTo_ends t (spans gs f c) (fun i hi => by have := s1 i hi; omega)
    have h3 := holding_le_one t _ happ
    have h5 := holding_one t _ happ
    have h7 : Covers (spans gs f c) t → lo ≤ t ∧ t < hi := by
      rintro ⟨i, hi', a, b⟩
      have := t2 i hi'
      omega
    have hN : N % 2 = 1 := hodd
    rw [← h5] at h7 ⊢
    by_cases c1 : lo ≤ t
    · by_cases c2 : hi ≤ t
      · rw [if_pos c1, if_pos c2]; omega
      · rw [if_pos c1, if_neg c2]; omega
    · rw [if_neg c1, if_neg (show ¬ hi ≤ t by omega)]; omega
  have hlen : times.length % 2 = 0 := by
    have := ends_length (spans gs f c)
    simp only [times, List.length_append, List.length_replicate]; omega
  obtain ⟨gaps, r1, r2, r3, r4⟩ := gaps_complement (spans gs f c) times _ hlen (fun i hi => (s1 i hi).2) hpar
  refine ⟨gaps, lo, hi, ?_, r2, r3, ?_, ?_, ?_, ?_, ?_⟩
  · unfold gapsWithoutUem
    rw [g1]
    have h1 : (spans gs f c).isEmpty = false := by
      cases hs : spans gs f c with
      | nil => exact absurd hs hne
      | cons _ _ => rfl
    have h2 : (hs.all fun h => !(spans gs h.file h.channel).isEmpty) = true := by
      rw [List.all_eq_true]
      intro h hh
      have := hnonempty h.file h.channel (hk h hh)
      cases hs : spans gs h.file h.channel with
      | nil => exact absurd hs this
      | cons _ _ => rfl
    simp only [h1, h2, t1]
    exact r1
  · intro x hx a b
    obtain ⟨i, hi', h1, h2⟩ := s4 x hx a b
    have := t2 i hi'
    omega
  · intro h hh a b
    exact t3 h (List.mem_filter.2 ⟨hh, by simp [a, b]⟩)
  · rcases t4 with ⟨i, hi', e⟩ | ⟨h, hh, j, hj, e⟩
    · left
      obtain ⟨x, hx, a, b, l, r⟩ := (s3 i.1).1 ⟨i, hi', Int.le_refl _, (s1 i hi').2⟩
      obtain ⟨k, hk', h1, h2⟩ := s4 x hx a b
      have := t2 k hk'
      exact ⟨x, hx, a, b, by omega⟩
    · right
      have hh := List.mem_filter.1 hh
      have h2 := hh.2
      simp only [decide_eq_true_eq] at h2
      exact ⟨h, hh.1, h2.1, h2.2, j, hj, e⟩
  · rcases t5 with ⟨i, hi', e⟩ | ⟨h, hh, j, hj, e⟩
    · left
      have hi2 := s1 i hi'
      obtain ⟨x, hx, a, b, l, r⟩ := (s3 (i.2 - 1)).1 ⟨i, hi', by omega, by omega⟩
      obtain ⟨k, hk', h1, h2⟩ := s4 x hx a b
      have := t2 k hk'
      exact ⟨x, hx, a, b, by omega⟩
    · right
      have hh := List.mem_filter.1 hh
      have h2 := hh.2
      simp only [decide_eq_true_eq] at h2
      exact ⟨h, hh.1, h2.1, h2.2, j, hj, e⟩
  · intro t; rw [r4, s3]

/-- One hypothesis segment of two words: the gaps before, between and after the reference segments. -/
example : gapsWithoutUem [[⟨0, "f", "1", 10, 20⟩, ⟨1, "f", "1", 60, 70⟩]] [⟨"f", "1", [(5, 12), (70, 90)]⟩] "f" "1" =
    some [(5, 10), (20, 60), (70, 90)] := by decide

/-- What is missing: with an even number of hypothesis segments in the file and channel no gap at all is added,
whatever the times. -/
theorem gaps_without_uem_even (refs : SpeechSet) (hs : List HSeg) (f c : String)
    (hg : ∀ sp ∈ refs, (∀ x ∈ sp, Proper x) ∧ InOrder sp)
    (hsome : ∃ x ∈ refs.flatten, x.source = f ∧ x.channel = c)
    (hk : ∀ h ∈ hs, ∃ x ∈ refs.flatten, x.source = h.file ∧ x.channel = h.channel)
    (heven : (ofKey hs f c).length % 2 = 0) : gapsWithoutUem refs hs f c = some [] := by
  obtain ⟨x0, hx0, hx1, hx2⟩ := hsome
  obtain ⟨gs, g1, g2⟩ := groups_spec refs hg (List.ne_nil_of_mem hx0)
  have hnonempty : ∀ f c, (∃ x ∈ refs.flatten, x.source = f ∧ x.channel = c) → spans gs f c ≠ [] := by
    rintro f c ⟨x, hx, h1, h2⟩
    obtain ⟨i, hi, _⟩ := (g2 f c).2.2.2 x hx h1 h2
    exact List.ne_nil_of_mem hi
  have hne := hnonempty f c ⟨x0, hx0, hx1, hx2⟩
  obtain ⟨s1, s2, s3, s4⟩ := g2 f c
  have happ : (spans gs f c).Pairwise Apart := s2.imp fun h => Or.inl h
  obtain ⟨lo, hi, t1, t2, t3, t4, t5⟩ := hypTimes_spec gs hs f c hne
  let N := (ofKey hs f c).length
  let times := List.replicate N lo ++ ends (spans gs f c) ++ List.replicate N hi
  have hpar : ∀ t, upTo t times % 2 = 1 ↔ Covers (spans gs f c) t := by
    intro t
    show upTo t (List.replicate N lo ++ ends (spans gs f c) ++ List.replicate N hi) % 2 = 1 ↔ _
    rw [upTo_append, upTo_append, upTo_replicate, upTo_replicate]
    have h1 := upTo_ends t (spans gs f c) (fun i hi => by have := s1 i hi; omega)
    have h3 := holding_le_one t _ happ
    have h5 := holding_one t _ happ
    have hN : N % 2 = 0 := heven
    rw [← h5]
    by_cases c1 : lo ≤ t
    · by_cases c2 : hi ≤ t
      · rw [if_pos c1, if_pos c2]; omega
      · rw [if_pos c1, if_neg c2]; omega
    · by_cases c2 : hi ≤ t
      · rw [if_neg c1, if_pos c2]; omega
      · rw [if_neg c1, if_neg c2]; omega
  have hlen : times.length % 2 = 0 := by
    have := ends_length (spans gs f c)
    simp only [times, List.length_append, List.length_replicate]; omega
  obtain ⟨ps, r1, r2, r3, r4⟩ := gapsOf_spec ((spans gs f c).map Prod.fst) times hlen
  have hb : ∀ p ∈ ps, p.1 < p.2 → p.1 ∈ (spans gs f c).map Prod.fst := by
    intro p hp hlt
    obtain ⟨i, hi', h1, h2⟩ := (hpar p.1).1 ((r4 p.1).1 ⟨p, hp, Int.le_refl _, hlt⟩)
    have ht2 := t2 i hi'
    have hm := (r3 p hp).2.1
    simp only [times, List.mem_append, List.mem_replicate, mem_ends] at hm
    rcases hm with (⟨_, hm⟩ | ⟨j, hj, hm⟩) | ⟨_, hm⟩
    · exact List.mem_map.2 ⟨i, hi', by omega⟩
    · rcases hm with hm | hm
      · exact List.mem_map.2 ⟨j, hj, hm.symm⟩
      · have hj1 := s1 j hj
        rcases pairwise_mem _ s2 i j hi' hj with h | h | h
        · subst h; omega
        · omega
        · exact List.mem_map.2 ⟨i, hi', by omega⟩
    · omega
  have hnil : (ps.filter fun p => decide (p.1 ∉ (spans gs f c).map Prod.fst ∧ p.1 ≠ p.2)) = [] := by
    rw [List.filter_eq_nil_iff]
    intro p hp hd
    rw [decide_eq_true_eq] at hd
    have := (r3 p hp).1
    exact hd.1 (hb p hp (by omega))
  rw [hnil] at r1
  unfold gapsWithoutUem
  rw [g1]
  have h1 : (spans gs f c).isEmpty = false := by
    cases hs : spans gs f c with
    | nil => exact absurd hs hne
    | cons _ _ => rfl
  have h2 : (hs.all fun h => !(spans gs h.file h.channel).isEmpty) = true := by
    rw [List.all_eq_true]
    intro h hh
    have := hnonempty h.file h.channel (hk h hh)
    cases hs : spans gs h.file h.channel with
    | nil => exact absurd hs this
    | cons _ _ => rfl
  simp only [h1, h2, t1]
  exact r1

/-- The two words of the example above in two segments: no gaps, though each word is half outside the references. -/
example : gapsWithoutUem [[⟨0, "f", "1", 10, 20⟩, ⟨1, "f", "1", 60, 70⟩]]
    [⟨"f", "1", [(5, 12)]⟩, ⟨"f", "1", [(70, 90)]⟩] "f" "1" = some [] := by decide

/-- A word in a file that has no reference stops the program. -/
theorem hypothesis_without_reference_stops :
    gapsWithoutUem [[⟨0, "f", "1", 10, 20⟩]] [⟨"g", "1", [(5, 12)]⟩] "f" "1" = none := by decide

/-! ## C88: the check that no speaker overlaps themself -/

/-- The segments of a file and channel stand together. -/
def Together (sp : Speech) : Prop :=
  ∀ a x m y b, sp = a ++ x :: m ++ y :: b → SameKey x y → ∀ z ∈ m, SameKey x z

theorem autoOverlap_zero_of_inOrder : ∀ (sp : Speech), InOrder sp → autoOverlap none sp = 0 ∧
    ∀ p, (∀ g ∈ sp, SameKey p g → p.stop ≤ g.start) → autoOverlap (some p) sp = 0 := by
  intro sp
  induction sp with
  | nil => intro _; exact ⟨rfl, fun _ _ => rfl⟩
  | cons g gs ih =>
    intro h
    have h' := List.pairwise_cons.1 h
    obtain ⟨_, i2⟩ := ih h'.2
    have hz := i2 g h'.1
    refine ⟨hz, ?_⟩
    intro p hp
    unfold autoOverlap
    rw [hz, if_neg]
    rintro ⟨h1, h2, h3⟩
    have := hp g (by simp) ⟨h2, h3⟩
    omega

theorem inOrder_of_autoOverlap : ∀ (sp : Speech) (p : Seg), (∀ x ∈ p :: sp, x.start ≤ x.stop) → Together (p :: sp) →
    autoOverlap (some p) sp = 0 → InOrder (p :: sp) := by
  intro sp
  induction sp with
  | nil => intro p _ _ _; exact List.pairwise_singleton _ _
  | cons g gs ih =>
    intro p hp ht hz
    unfold autoOverlap at hz
    have hz1 : ¬ (g.start < p.stop ∧ p.source = g.source ∧ p.channel = g.channel) := by
      intro c; rw [if_pos c] at hz; omega
    have hz2 : autoOverlap (some g) gs = 0 := by omega
    have ht' : Together (g :: gs) := by
      intro a x m y b e
      exact ht (p :: a) x m y b (by rw [e]; rfl)
    have io := ih g (fun x hx => hp x (List.mem_cons_of_mem _ hx)) ht' hz2
    have io' := List.pairwise_cons.1 io
    refine List.pairwise_cons.2 ⟨?_, io⟩
    intro x hx hk
    rcases List.mem_cons.1 hx with e | hx
    · subst e
      rcases Int.lt_or_le x.start p.stop with h | h
      · exact absurd ⟨h, hk⟩ hz1
      · exact h
    · obtain ⟨s, t, e⟩ := List.append_of_mem hx
      have hpg := ht [] p (g :: s) x t (by rw [e]; rfl) hk g (by simp)
      have hgx : SameKey g x := ⟨hpg.1 ▸ hk.1, hpg.2 ▸ hk.2⟩
      have h1 := io'.1 x hx hgx
      have h2 := hp g (by simp)
      rcases Int.lt_or_le g.start p.stop with h | h
      · exact absurd ⟨h, hpg⟩ hz1
      · omega

/-- The check reports nothing if a speaker's segments in a file and channel come in time order without overlap; where
the segments of a file and channel stand together, it reports nothing only then. -/
theorem auto_overlap_partial (sp : Speech) :
    (InOrder sp → autoOverlap none sp = 0) ∧
    ((∀ x ∈ sp, x.start ≤ x.stop) → Together sp → autoOverlap none sp = 0 → InOrder sp) := by
  refine ⟨fun h => (autoOverlap_zero_of_inOrder sp h).1, ?_⟩
  intro hp ht hz
  cases sp with
  | nil => exact List.Pairwise.nil
  | cons p sp => exact inOrder_of_autoOverlap sp p hp ht hz

/-- Two overlapping segments side by side are reported. -/
example : autoOverlap none [⟨0, "f", "1", 0, 10⟩, ⟨1, "f", "1", 8, 20⟩, ⟨2, "g", "1", 0, 5⟩] = 1 := by decide

/-- What is missing: with a segment of another channel in between, the overlap is not seen. -/
theorem auto_overlap_missed :
    autoOverlap none [⟨0, "f", "1", 0, 10⟩, ⟨1, "f", "2", 0, 10⟩, ⟨2, "f", "1", 5, 15⟩] = 0 ∧
    ¬ InOrder [⟨0, "f", "1", 0, 10⟩, ⟨1, "f", "2", 0, 10⟩, ⟨2, "f", "1", 5, 15⟩] := by
  refine ⟨by decide, ?_⟩
  unfold InOrder SameKey
  decide

end Verif.Uem
