import Verif.Record.Lemmas
/-!
# Properties of a recording
-/
set_option autoImplicit false
namespace Verif.Record

/-- The first reset of the segmentor. -/
theorem reset_first (refs : SpeechSet) (h : Proper refs) : ∃ x xs, ids refs = x :: xs ∧ reset refs none = some ⟨xs, x⟩ := by
  cases hi : ids refs with
  | nil =>
    obtain ⟨x, hx⟩ := List.exists_mem_of_ne_nil _ h.1
    have := (mem_ids refs x.id).2 ⟨x, hx, rfl⟩
    rw [hi] at this
    cases this
  | cons x xs =>
    refine ⟨x, xs, rfl, ?_⟩
    unfold reset
    dsimp only
    rw [hi]

/-- With trn files the groups of the first system. -/
theorem first_system (refs hyps : SpeechSet) (h : Proper refs) (hc : Covers refs hyps) :
    ∃ st gs, reset refs none = some st ∧ groups refs hyps (st.list.length + 2) st = some (gs, ⟨[], ""⟩) ∧
      gs.map (fun g => g.1.map (·.id)) = (ids refs).map some ∧
      ∀ g ∈ gs, ∃ r h, g = (some r, some h) ∧ r ∈ utts refs ∧ h ∈ utts hyps ∧ r.id = h.id := by
  obtain ⟨x, xs, e, er⟩ := reset_first refs h
  obtain ⟨gs, e1, e2, e3⟩ := groups_all refs hyps (xs.length + 2) x xs (Nat.le_refl _) (by
    intro y hy
    rw [← e] at hy
    obtain ⟨r, hr, rfl⟩ := (mem_ids refs y).1 hy
    exact ⟨h.2 r hr, ⟨r, hr, rfl⟩, hc r hr⟩)
  exact ⟨⟨xs, x⟩, gs, er, e1, by rw [e2, e], e3⟩

/-- C189: with trn files and one hypothesis that has every utterance of the reference, the groups that are aligned have every
identifier of the reference once, in order, each with an utterance of the reference and one of the hypothesis that have it; if the
identifiers of the reference are distinct then every utterance of the reference is aligned exactly once.
Missing: further hypotheses (`second_system_undefined`), hypotheses that lack an utterance (`missing_utterance_undefined`), an empty
reference (`empty_reference_undefined`), and identifiers that are used more than once (`repeated_lost`). -/
theorem trn_groups_partial (refs hyps : SpeechSet) (h : Proper refs) (hc : Covers refs hyps) :
    ∃ gs, systems refs none [hyps] = some [gs] ∧
      (∃ names : List String, gs.map (fun g => g.1.map (·.id)) = names.map some ∧ names.Pairwise (· < ·) ∧
        ∀ x, x ∈ names ↔ ∃ r ∈ utts refs, r.id = x) ∧
      (∀ g ∈ gs, ∃ r h, g = (some r, some h) ∧ r ∈ utts refs ∧ h ∈ utts hyps ∧ r.id = h.id) ∧
      (Distinct refs → ∀ r ∈ utts refs, (gs.filter (fun g => decide (g.1 = some r))).length = 1) := by
  obtain ⟨st, gs, e0, e1, e2, e3⟩ := first_system refs hyps h hc
  refine ⟨gs, ?_, ⟨ids refs, e2, ids_incr refs, mem_ids refs⟩, e3, ?_⟩
  · unfold systems
    rw [e0]
    dsimp only
    rw [e1]
    rfl
  · intro hd r hr
    have hmem := (mem_ids refs r.id).2 ⟨r, hr, rfl⟩
    have key : ∀ g ∈ gs, (g.1 = some r ↔ g.1.map (·.id) = some r.id) := by
      intro g hg
      obtain ⟨r', h', rfl, mr, _, _⟩ := e3 g hg
      constructor
      · intro e
        injection e with e
        subst e
        rfl
      · intro e
        have e : some r'.id = some r.id := e
        injection e with e
        rw [hd r' mr r hr e]
    have hcount : (gs.filter (fun g => decide (g.1 = some r))).length =
        ((gs.map (fun g => g.1.map (·.id))).filter (fun y => decide (y = some r.id))).length := by
      rw [List.filter_map, List.length_map]
      congr 1
      apply List.filter_congr
      intro g hg
      exact decide_eq_decide.2 (key g hg)
    rw [hcount, e2, List.filter_map, List.length_map]
    have hn := Segmentor.Incr.nodup (ids_incr refs)
    have : (ids refs).filter ((fun y => decide (y = some r.id)) ∘ some) = (ids refs).filter (fun y => y == r.id) := by
      apply List.filter_congr
      intro y _
      show decide (some y = some r.id) = (y == r.id)
      rw [Bool.eq_iff_iff]
      simp
    rw [this, ← List.countP_eq_length_filter]
    show (ids refs).count r.id = 1
    rw [hn.count, if_pos hmem]

/-- A reference with two speakers and three utterances, and a hypothesis that has them in another order. -/
def refs1 : SpeechSet := [[⟨"(a-1)", 0⟩, ⟨"(a-2)", 1⟩], [⟨"(b-1)", 2⟩]]
def hyps1 : SpeechSet := [[⟨"(b-1)", 0⟩], [⟨"(a-2)", 1⟩, ⟨"(a-1)", 2⟩]]

theorem refs1_proper : Proper refs1 := by
  refine ⟨by decide, ?_⟩
  intro x hx
  have : x = ⟨"(a-1)", 0⟩ ∨ x = ⟨"(a-2)", 1⟩ ∨ x = ⟨"(b-1)", 2⟩ := by simpa [utts, refs1] using hx
  rcases this with rfl | rfl | rfl <;> decide

theorem refs1_covers : Covers refs1 hyps1 := by
  intro x hx
  have : x = ⟨"(a-1)", 0⟩ ∨ x = ⟨"(a-2)", 1⟩ ∨ x = ⟨"(b-1)", 2⟩ := by simpa [utts, refs1] using hx
  rcases this with rfl | rfl | rfl
  · exact ⟨⟨"(a-1)", 2⟩, by decide, rfl⟩
  · exact ⟨⟨"(a-2)", 1⟩, by decide, rfl⟩
  · exact ⟨⟨"(b-1)", 0⟩, by decide, rfl⟩

example : ∃ gs, systems refs1 none [hyps1] = some [gs] ∧ ∀ r ∈ utts refs1, (gs.filter (fun g => decide (g.1 = some r))).length = 1 := by
  obtain ⟨gs, h1, _, _, h2⟩ := trn_groups_partial refs1 hyps1 refs1_proper refs1_covers
  exact ⟨gs, h1, h2 (by unfold Distinct; decide)⟩

/-- C189 (violated): a second hypothesis is undefined behaviour, whatever the files are: the set of the identifiers is only filled for
the first one. -/
theorem second_system_undefined (refs h1 h2 : SpeechSet) (rest : List SpeechSet) (h : Proper refs) (hc : Covers refs h1) :
    systems refs none (h1 :: h2 :: rest) = none := by
  obtain ⟨st, gs, e0, e1, _, _⟩ := first_system refs h1 h hc
  unfold systems
  rw [e0]
  dsimp only
  rw [e1]
  rfl

example : systems refs1 none [hyps1, hyps1] = none := second_system_undefined _ _ _ _ refs1_proper refs1_covers

/-- C189 (violated): an utterance of the reference that the hypothesis lacks is undefined behaviour, unless the hypothesis is empty. -/
theorem missing_utterance_undefined (refs hyps : SpeechSet) (h : Proper refs) (hne : hyps ≠ []) (hc : ¬ Covers refs hyps)
    (rest : List SpeechSet) : systems refs none (hyps :: rest) = none := by
  obtain ⟨x, xs, e, er⟩ := reset_first refs h
  unfold systems
  rw [er]
  dsimp only
  rw [groups_missing refs hyps hne (xs.length + 2) x xs]
  · intro y hy
    rw [← e] at hy
    obtain ⟨r, hr, rfl⟩ := (mem_ids refs y).1 hy
    exact h.2 r hr
  · rcases Classical.em (∃ y ∈ x :: xs, ∀ h ∈ utts hyps, h.id ≠ y) with hx | hx
    · exact hx
    · refine absurd ?_ hc
      intro r hr
      rcases Classical.em (∃ y ∈ utts hyps, y.id = r.id) with hy | hy
      · exact hy
      · refine absurd ⟨r.id, ?_, fun z hz ez => hy ⟨z, hz, ez⟩⟩ hx
        rw [← e]
        exact (mem_ids refs r.id).2 ⟨r, hr, rfl⟩

example : systems refs1 none [[[⟨"(a-1)", 0⟩]]] = none := by
  refine missing_utterance_undefined refs1 _ refs1_proper (by decide) (fun hc => ?_) []
  obtain ⟨y, hy, e⟩ := hc ⟨"(b-1)", 2⟩ (by decide)
  have : y = ⟨"(a-1)", 0⟩ := by simpa [utts] using hy
  subst this
  exact absurd e (by decide)

/-- C189 (violated): a reference without utterances is undefined behaviour. -/
theorem empty_reference_undefined (refs hyps : SpeechSet) (rest : List SpeechSet) (h : utts refs = []) :
    systems refs none (hyps :: rest) = none := by
  unfold systems reset ids
  dsimp only
  rw [h]
  rfl

example : systems [] none [hyps1] = none := empty_reference_undefined _ _ _ rfl

/-- C189 (violated): of two utterances with the same identifier the second is not scored. -/
theorem repeated_lost : systems [[⟨"(a-1)", 0⟩, ⟨"(a-1)", 1⟩]] none [[[⟨"(a-1)", 0⟩, ⟨"(a-1)", 1⟩]]] =
    some [[(some ⟨"(a-1)", 0⟩, some ⟨"(a-1)", 0⟩)]] := by decide

/-! ## Loading the hypotheses -/

theorem load_systems {X : Type} (read : String → X) : ∀ (gs : List Given) (m : List (String × X)) (sys : List (String × String)),
    (load read gs m sys).2 = sys ++ gs.map (fun g => (g.file, g.name))
  | [], _, sys => (List.append_nil _).symm
  | g :: gs, m, sys => by
    unfold load
    rw [load_systems read gs, List.append_assoc]
    rfl

theorem load_lookup {X : Type} (read : String → X) : ∀ (gs : List Given) (m : List (String × X)) (sys : List (String × String)) (t : String),
    (load read gs m sys).1.lookup t = ((gs.filter (fun g => decide (g.name = t))).getLast?.map (fun g => read g.file)).or (m.lookup t)
  | [], m, sys, t => rfl
  | g :: gs, m, sys, t => by
    unfold load
    dsimp only
    rw [load_lookup read gs, put_lookup]
    have hn : (if g.title = "" then g.file else g.title) = g.name := rfl
    rw [hn]
    rcases Decidable.em (g.name = t) with e | e
    · rw [if_pos e.symm, List.filter_cons_of_pos (by simpa using e), List.getLast?_cons]
      cases (gs.filter (fun g => decide (g.name = t))).getLast? <;> rfl
    · rw [if_neg (fun h => e h.symm), List.filter_cons_of_neg (by simpa using e)]

/-- C190: the hypotheses are reported in the order they are given, each with its file and title, and under a title stands what was read
from the last file that has it; so if the titles are distinct, under every title stands its own file.
Missing: hypotheses with the same title (`same_title_lost`). -/
theorem load_partial {X : Type} (read : String → X) (gs : List Given) :
    (load read gs [] []).2 = gs.map (fun g => (g.file, g.name)) ∧
    (∀ t, (load read gs [] []).1.lookup t = (gs.filter (fun g => decide (g.name = t))).getLast?.map (fun g => read g.file)) ∧
    ((gs.map Given.name).Nodup → ∀ g ∈ gs, (load read gs [] []).1.lookup g.name = some (read g.file)) := by
  refine ⟨by rw [load_systems, List.nil_append], fun t => by rw [load_lookup]; exact Option.or_none, ?_⟩
  intro hn g hg
  rw [load_lookup]
  have : gs.filter (fun x => decide (x.name = g.name)) = [g] := by
    induction gs with
    | nil => cases hg
    | cons a gs ih =>
      rw [List.map_cons, List.nodup_cons] at hn
      rcases List.mem_cons.1 hg with rfl | hg'
      · rw [List.filter_cons_of_pos (by simp)]
        congr 1
        refine List.filter_eq_nil_iff.2 (fun x hx => ?_)
        simp only [decide_eq_true_iff]
        intro e
        exact hn.1 (e ▸ List.mem_map.2 ⟨x, hx, rfl⟩)
      · have hne : a.name ≠ g.name := fun e => hn.1 (e ▸ List.mem_map.2 ⟨g, hg', rfl⟩)
        rw [List.filter_cons_of_neg (by simpa using hne)]
        exact ih hn.2 hg'
  rw [this]
  rfl

example : (load (fun f => f.length) [⟨"a.ctm", ""⟩, ⟨"long.ctm", "x"⟩] [] []).1.lookup "a.ctm" = some 5 :=
  (load_partial (fun f => f.length) [⟨"a.ctm", ""⟩, ⟨"long.ctm", "x"⟩]).2.2 (by decide) ⟨"a.ctm", ""⟩ List.mem_cons_self

/-- C190 (violated): of hypotheses with the same title only the last is scored, yet the report has one for each; what the others say does
not matter. -/
theorem same_title_lost {X : Type} (read read' : String → X) (g h : Given) (e : g.name = h.name) (hr : read h.file = read' h.file) :
    (load read [g, h] [] []).1 = (load read' [g, h] [] []).1 ∧ (load read [g, h] [] []).1.length = 1 ∧
    (load read [g, h] [] []).2.length = 2 := by
  have hg : (if g.title = "" then g.file else g.title) = g.name := rfl
  have hh : (if h.title = "" then h.file else h.title) = h.name := rfl
  unfold load load load put
  dsimp only
  rw [hg, hh, e, hr]
  simp

example : (load (fun f => f.length) [⟨"a.ctm", "sys"⟩, ⟨"long.ctm", "sys"⟩] [] []).1.length = 1 :=
  (same_title_lost (fun f => f.length) (fun f => f.length) ⟨"a.ctm", "sys"⟩ ⟨"long.ctm", "sys"⟩ rfl rfl).2.1

/-! ## One group -/

/-- C191: no two groups of a run have the same number, so that `-only-SG` leaves at most one group. -/
theorem only_at_most_one (n c : Nat) (l : List ((Nat × Nat) × Nat)) : (only n (number c l)).length ≤ 1 := by
  unfold only
  rw [List.length_map]
  induction l generalizing c with
  | nil => exact Nat.zero_le _
  | cons e l ih =>
    obtain ⟨g, gap⟩ := e
    unfold number
    rcases Decidable.em (c + gap + 1 = n) with h | h
    · rw [List.filter_cons_of_pos (by simpa using h)]
      have : (number (c + gap + 1) l).filter (fun e => decide (¬ e.2 ≠ n)) = [] := by
        refine List.filter_eq_nil_iff.2 (fun x hx => ?_)
        have := number_lt l (c + gap + 1) x hx
        simp only [decide_eq_true_iff]
        omega
      rw [this]
      simp
    · rw [List.filter_cons_of_neg (by simpa using h)]
      exact ih _

theorem number_groups : ∀ (l : List ((Nat × Nat) × Nat)) (c : Nat), (number c l).map (·.1) = l.map (·.1)
  | [], _ => rfl
  | (g, gap) :: l, c => by
    unfold number
    rw [List.map_cons, number_groups l]
    rfl

/-- C191: every group of the run is left by exactly the numbers it has: the number that is shown for it selects it. -/
theorem only_selects (c : Nat) (l : List ((Nat × Nat) × Nat)) (g : Nat × Nat) (hg : g ∈ l.map (·.1)) :
    ∃ n, only n (number c l) = [g] := by
  rw [← number_groups l c] at hg
  obtain ⟨e, he, rfl⟩ := List.mem_map.1 hg
  refine ⟨e.2, ?_⟩
  have hm : e.1 ∈ only e.2 (number c l) := by
    unfold only
    exact List.mem_map.2 ⟨e, List.mem_filter.2 ⟨he, by simp⟩, rfl⟩
  have hl := only_at_most_one e.2 c l
  cases ho : only e.2 (number c l) with
  | nil => rw [ho] at hm; cases hm
  | cons a r =>
    rw [ho] at hm hl
    cases r with
    | nil =>
      obtain rfl := List.mem_singleton.1 hm
      rfl
    | cons b r => simp at hl

example : ∃ n, only n (number 10 [((0, 0), 3), ((0, 1), 0), ((1, 0), 7)]) = [(0, 1)] := only_selects _ _ _ (by decide)

/-- C191 (violated): the numbers go on from one system to the next, so that `-only-SG` leaves the group for one system and leaves every
other system without any. -/
theorem only_one_system (n c : Nat) (l : List ((Nat × Nat) × Nat)) (s t : Nat) (h : s ≠ t) (i : Nat) (hs : (s, i) ∈ only n (number c l)) :
    ∀ j, (t, j) ∉ only n (number c l) := by
  intro j ht
  have := only_at_most_one n c l
  cases ho : only n (number c l) with
  | nil => rw [ho] at hs; cases hs
  | cons a r =>
    rw [ho] at hs ht this
    cases r with
    | nil =>
      have h1 := List.mem_singleton.1 hs
      have h2 := List.mem_singleton.1 ht
      rw [← h1] at h2
      exact h (congrArg Prod.fst h2).symm
    | cons b r => simp at this

example : ∀ j, (1, j) ∉ only 14 (number 10 [((0, 0), 3), ((0, 1), 0), ((1, 0), 7)]) :=
  only_one_system 14 10 _ 0 1 (by decide) 0 (by decide)

/-! ## The reference -/

theorem defined_true : ∀ (l : List Use), defined true l = true
  | [] => rfl
  | .assign :: l => defined_true l
  | .read :: l => defined_true l
  | .delete :: l => defined_true l

/-- C192: with a reference the recording never uses a reference that was not set.
Missing: runs with the generic cost model (`generic_undefined`). -/
theorem reference_defined_partial (filterRef filterAll spkr : Bool) (nhyp : Nat) :
    defined false (life false filterRef filterAll spkr nhyp) = true :=
  defined_true _

example : life false true false true 2 = [.assign, .read, .read, .read, .read, .delete] := by decide

/-- C192 (violated): every run with the generic cost model deletes a reference that was never set. -/
theorem generic_undefined (filterRef filterAll spkr : Bool) (nhyp : Nat) :
    defined false (life true filterRef filterAll spkr nhyp) = false := by
  cases filterRef <;> cases filterAll <;> cases spkr <;> rfl

example : life true false false false 2 = [.delete] := by decide

end Verif.Record
