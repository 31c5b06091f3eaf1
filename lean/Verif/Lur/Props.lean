import Verif.Lur.Lemmas
import Verif.Detail.Props
/-!
# Properties of the labelled utterance report
-/
set_option autoImplicit false
namespace Verif.Lur
open Verif.Sgml (Entry)

variable {W : Type}

/-! ### C152: words and errors by label and speaker -/

/-- The reference words and the errors of the utterances with the label `id`. -/
def labelled (find : List Nat → Option Nat) (id : Nat) (us : List (Utt W)) : Nat × Nat :=
  (((us.filter (has find id)).map refs).sum, ((us.filter (has find id)).map errs).sum)

/-- C152: if every label is known and used in one category, then for every label and speaker exactly the reference words and the errors
of that speaker's utterances with that label are counted. -/
theorem label_scores (find : List Nat → Option Nat) (nlab : Nat) (hfind : ∀ f id, find f = some id → id < nlab)
    (grps : List (List (Utt W))) (hf : ∀ g ∈ grps, Fields g) (hk : Known find grps.flatten) (hc : OneCategory find grps.flatten) :
    ∃ lab, computeFrom find 0 (noScores nlab grps.length) (grps.map (·.map (·.stored))) = .ok lab ∧
      lab.lsc = (List.range nlab).map fun id => grps.map fun g => labelled find id g := by
  rw [compute_eq find grps hf]
  have hlen : ∀ e ∈ allEvs 0 grps, e.f.length < 30 ∧ e.spk < grps.length := by
    intro e he
    obtain ⟨s, g, u, hs, hu, heu⟩ := (mem_allEvs _ _ _).1 he
    obtain ⟨h1, _, _, i, h4, _⟩ := (mem_evs _ _ _).1 heu
    refine ⟨?_, by rw [h1, Nat.zero_add]; exact (List.getElem?_eq_some_iff.1 hs).1⟩
    cases hl : u.labels with
    | none => rw [hl] at h4; simp at h4
    | some fs =>
      rw [hl] at h4
      exact (hf g (List.mem_of_getElem? hs) u hu fs hl e.f (List.mem_of_getElem? h4)).1
  obtain ⟨lab, h1, h2⟩ := (steps_ok hfind (allEvs 0 grps) [] _ (inv_init find nlab grps.length) ⟨(nofun), (nofun)⟩ hlen).1
    (by rw [List.nil_append]; exact (good_iff find grps).2 ⟨hk, hc⟩)
  refine ⟨lab, h1, ?_⟩
  apply List.ext_getElem?
  intro id
  rw [List.getElem?_map]
  by_cases hid : id < nlab
  · have hl : id < lab.lsc.length := by rw [h2.lsc]; exact hid
    obtain ⟨r1, r2⟩ := h2.row id _ (List.getElem?_eq_getElem hl)
    rw [List.getElem?_eq_getElem hl, List.getElem?_range hid, Option.map_some]
    congr 1
    apply List.ext_getElem?
    intro s
    rw [List.getElem?_map]
    by_cases hs : s < grps.length
    · have hsl : s < lab.lsc[id].length := by rw [r1]; exact hs
      rw [List.getElem?_eq_getElem hsl, List.getElem?_eq_getElem hs, Option.map_some, r2 s _ (List.getElem?_eq_getElem hsl)]
      congr 1
      have e1 := all_sum find id (·.1) grps 0 s grps[s] hc (List.getElem?_eq_getElem hs)
      have e2 := all_sum find id (·.2) grps 0 s grps[s] hc (List.getElem?_eq_getElem hs)
      rw [Nat.zero_add] at e1 e2
      unfold total labelled
      rw [List.nil_append, e1, e2]
    · rw [List.getElem?_eq_none_iff.2 (by omega), List.getElem?_eq_none_iff.2 (by omega)]; rfl
  · rw [List.getElem?_eq_none_iff.2 (by rw [h2.lsc]; omega), List.getElem?_eq_none_iff.2 (by simp; omega)]; rfl

/-- C152: a label that has not been defined, or one that is used in two categories, ends the program with a message. -/
theorem label_errors (find : List Nat → Option Nat) (nlab : Nat) (hfind : ∀ f id, find f = some id → id < nlab)
    (grps : List (List (Utt W))) (hf : ∀ g ∈ grps, Fields g) (h : ¬ (Known find grps.flatten ∧ OneCategory find grps.flatten)) :
    computeFrom find 0 (noScores nlab grps.length) (grps.map (·.map (·.stored))) = .fail := by
  rw [compute_eq find grps hf]
  have hlen : ∀ e ∈ allEvs 0 grps, e.f.length < 30 ∧ e.spk < grps.length := by
    intro e he
    obtain ⟨s, g, u, hs, hu, heu⟩ := (mem_allEvs _ _ _).1 he
    obtain ⟨h1, _, _, i, h4, _⟩ := (mem_evs _ _ _).1 heu
    refine ⟨?_, by rw [h1, Nat.zero_add]; exact (List.getElem?_eq_some_iff.1 hs).1⟩
    cases hl : u.labels with
    | none => rw [hl] at h4; simp at h4
    | some fs =>
      rw [hl] at h4
      exact (hf g (List.mem_of_getElem? hs) u hu fs hl e.f (List.mem_of_getElem? h4)).1
  exact (steps_ok hfind (allEvs 0 grps) [] _ (inv_init find nlab grps.length) ⟨(nofun), (nofun)⟩ hlen).2
    (by rw [List.nil_append]; exact fun hg => h ((good_iff find grps).1 hg))

/-- The labels "O", "f" and "m" have the numbers 0, 1 and 2. -/
def sampleFind (f : List Nat) : Option Nat := if f = [79] then some 0 else if f = [102] then some 1 else if f = [109] then some 2 else none

/-- Two speakers; the first utterance is labelled <O,f>, the others <O,m> and <,m>. -/
def sampleGrps : List (List (Utt Nat)) :=
  [[⟨some [[79], [102]], [.pair .corr 1 1, .del 2]⟩, ⟨none, [.ins 1]⟩],
   [⟨some [[79], [109]], [.pair .sub 1 2, .pair .corr 1 1, .ins 4]⟩, ⟨some [[], [109]], [.ins 7]⟩]]

example : (∀ f id, sampleFind f = some id → id < 3) ∧ (∀ g ∈ sampleGrps, Fields g) ∧ Known sampleFind sampleGrps.flatten ∧
    OneCategory sampleFind sampleGrps.flatten := by
  refine ⟨?_, ?_, ?_, ?_⟩
  · intro f id h
    unfold sampleFind at h
    repeat (split at h; · cases h; decide)
    cases h
  · intro g hg u hu fs hl f hf
    simp only [sampleGrps, List.mem_cons, List.not_mem_nil, or_false] at hg
    rcases hg with rfl | rfl <;> simp only [List.mem_cons, List.not_mem_nil, or_false] at hu <;> rcases hu with rfl | rfl <;> cases hl <;>
      simp only [List.mem_cons, List.not_mem_nil, or_false] at hf <;> rcases hf with rfl | rfl <;> (unfold IsField; decide)
  · intro u hu fs hl f hf hne
    simp only [sampleGrps, List.flatten_cons, List.flatten_nil, List.mem_append, List.mem_cons, List.not_mem_nil, or_false] at hu
    rcases hu with (rfl | rfl) | rfl | rfl <;> cases hl <;> simp only [List.mem_cons, List.not_mem_nil, or_false] at hf <;>
      rcases hf with rfl | rfl <;> first | exact absurd rfl hne | decide
  · have key : ∀ u ∈ sampleGrps.flatten, ∀ id k : Nat, HasAt sampleFind u id k → k = (if id = 0 then 0 else 1) := by
      intro u hu id k hh
      obtain ⟨fs, f, hl, hk, hne, hid⟩ := hh
      simp only [sampleGrps, List.flatten_cons, List.flatten_nil, List.mem_append, List.mem_cons, List.not_mem_nil, or_false] at hu
      rcases hu with (rfl | rfl) | rfl | rfl <;> cases hl <;> (match k, hk with
        | 0, hk => cases hk; first | exact absurd rfl hne | (cases hid; rfl)
        | 1, hk => cases hk; first | exact absurd rfl hne | (cases hid; rfl)
        | n + 2, hk => cases hk)
    intro u hu v hv id k l h1 h2
    rw [key u hu id k h1, key v hv id l h2]

example : computeFrom sampleFind 0 (noScores 3 2) (sampleGrps.map (·.map (·.stored))) =
    .ok ⟨[some 0, some 1, some 1], [[(2, 1), (2, 2)], [(2, 1), (0, 0)], [(0, 0), (2, 3)]]⟩ := by decide

/-- C152: a label in two categories. -/
example : computeFrom sampleFind 0 (noScores 3 1) (([[⟨some [[79], [102]], []⟩, ⟨some [[102]], []⟩]] : List (List (Utt Nat))).map (·.map (·.stored))) = .fail := by decide

/-- C152, violated: a label of 30 bytes or more overflows a buffer, and so does nothing else to warn of it. -/
theorem long_label_overflows (find : List Nat → Option Nat) (spk : Nat) (lab : Lab) (f : List Nat) (fs : List (List Nat)) (es : List (Entry W))
    (hlen : 30 ≤ f.length) (hf : 60 ∉ f ∧ 44 ∉ f ∧ 62 ∉ f) :
    uttLabels find spk lab ((⟨some (f :: fs), es⟩ : Utt W).stored) = .undef := by
  obtain ⟨c, r, hc, hint⟩ : ∃ (c : Nat) (r : List Nat), (c = 44 ∨ c = 62) ∧ List.intercalate [44] (f :: fs) ++ [62] = f ++ c :: r := by
    cases fs with
    | nil => exact ⟨62, [], Or.inr rfl, by simp [List.intercalate]⟩
    | cons g fs => exact ⟨44, List.intercalate [44] (g :: fs) ++ [62], Or.inl rfl, by simp [List.intercalate]⟩
  show uttLabels find spk lab (some (60 :: (List.intercalate [44] (f :: fs) ++ [62])), es) = .undef
  rw [uttLabels]
  dsimp only
  rw [if_neg (by decide), hint]
  have htw : (f ++ c :: r).takeWhile (fun c => decide (c ≠ 60 ∧ c ≠ 44 ∧ c ≠ 62)) = f := by
    obtain ⟨h1, h2, h3⟩ := hf
    clear hint hlen
    induction f with
    | nil => rcases hc with rfl | rfl <;> simp
    | cons x f ih =>
      have a1 : x ≠ 60 := fun he => h1 (he ▸ List.mem_cons_self)
      have a2 : x ≠ 44 := fun he => h2 (he ▸ List.mem_cons_self)
      have a3 : x ≠ 62 := fun he => h3 (he ▸ List.mem_cons_self)
      have := ih (fun h => h1 (List.mem_cons_of_mem _ h)) (fun h => h2 (List.mem_cons_of_mem _ h)) (fun h => h3 (List.mem_cons_of_mem _ h))
      rw [List.cons_append, List.takeWhile_cons, if_pos (decide_eq_true ⟨a1, a2, a3⟩), this]
  cases f with
  | nil => simp at hlen
  | cons x f =>
    have a1 : x ≠ 60 := fun he => hf.1 (he ▸ List.mem_cons_self)
    have a2 : x ≠ 44 := fun he => hf.2.1 (he ▸ List.mem_cons_self)
    have a3 : x ≠ 62 := fun he => hf.2.2 (he ▸ List.mem_cons_self)
    rw [List.cons_append] at htw ⊢
    rw [labelLoop]
    dsimp only
    rw [if_neg a3, if_neg (fun h => h.elim a1 a2), htw, oneLabel, if_pos hlen]
    rfl

example : uttLabels (W := Nat) sampleFind 0 (noScores 3 1) ((⟨some [List.replicate 30 79], []⟩ : Utt Nat).stored) = .undef := by decide

/-- C152, violated: a list of labels that is not closed ("<O") is read beyond its end. -/
theorem unclosed_labels : uttLabels (W := Nat) sampleFind 0 (noScores 3 1) (some [60, 79], []) = .undef := by decide

/-- C152, violated: what follows the closing bracket is taken for further labels ("<O>f" or "<O><f>"), and a list without a bracket in
front ends the program. -/
theorem text_after_labels :
    uttLabels (W := Nat) sampleFind 0 (noScores 3 1) (some [60, 79, 62, 102, 62], [.ins 1]) =
      uttLabels (W := Nat) sampleFind 0 (noScores 3 1) (some [60, 79, 44, 102, 62], [.ins 1]) ∧
    uttLabels (W := Nat) sampleFind 0 (noScores 3 1) (some [79, 62], [.ins 1]) = .fail := by decide

/-! ### C153: the report -/

/-- What the cell of a speaker says. -/
def SaysCell (t : Nat × Nat) (c : Cell) : Prop :=
  (0 < t.1 → ∃ p : Nat, c = .rate t.1 p ∧ Detail.Nearest t.2 t.1 p) ∧ (t.1 = 0 → 0 < t.2 → c = .errors t.2) ∧ (t.1 = 0 → t.2 = 0 → c = .blank)

theorem sum_flatten (find : List Nat → Option Nat) (id : Nat) (w : Utt W → Nat) (grps : List (List (Utt W))) :
    (grps.map fun g => ((g.filter (has find id)).map w).sum).sum = ((grps.flatten.filter (has find id)).map w).sum := by
  induction grps with
  | nil => rfl
  | cons g gs ih => simp [List.filter_append, ih]

/-- C153: the report has a column for each label: in it the cell of every speaker is that speaker's percentage of errors, the sums are those
of all utterances with the label, and averaged are the speakers with reference words. -/
theorem label_report (find : List Nat → Option Nat) (nlab : Nat) (hn : nlab ≤ 16) (hfind : ∀ f id, find f = some id → id < nlab)
    (grps : List (List (Utt W))) (hf : ∀ g ∈ grps, Fields g) (hk : Known find grps.flatten) (hc : OneCategory find grps.flatten) :
    ∃ cols, printLur find nlab (grps.map (·.map (·.stored))) = .ok cols ∧ cols.length = nlab ∧
      ∀ (id : Nat) (col : Column), cols[id]? = some col →
        col.cells.length = grps.length ∧
        (∀ (s : Nat) (g : List (Utt W)) (c : Cell), grps[s]? = some g → col.cells[s]? = some c → SaysCell (labelled find id g) c) ∧
        col.words = (labelled find id grps.flatten).1 ∧
        (0 < col.words → Detail.Nearest (labelled find id grps.flatten).2 col.words col.pct) ∧ (col.words = 0 → col.pct = 0) ∧
        col.averaged = (grps.map (labelled find id)).filter (fun t => decide (0 < t.1)) := by
  obtain ⟨lab, h1, h2⟩ := label_scores find nlab hfind grps hf hk hc
  refine ⟨lab.lsc.map column, ?_, by simp [h2], ?_⟩
  · unfold printLur
    rw [List.length_map, h1]
    show (if 50 ≤ 1 + 3 * nlab then _ else _) = _
    rw [if_neg (by omega)]
  · intro id col hcol
    rw [h2, List.map_map, List.getElem?_map] at hcol
    by_cases hid : id < nlab
    · rw [List.getElem?_range hid] at hcol
      have hcol : column (grps.map fun g => labelled find id g) = col := Option.some.inj hcol
      subst hcol
      have w1 : ((grps.map fun g => labelled find id g).map (·.1)).sum = (labelled find id grps.flatten).1 := by
        rw [List.map_map]; exact sum_flatten find id refs grps
      have w2 : ((grps.map fun g => labelled find id g).map (·.2)).sum = (labelled find id grps.flatten).2 := by
        rw [List.map_map]; exact sum_flatten find id errs grps
      refine ⟨by simp [column], ?_, w1, ?_, ?_, rfl⟩
      · intro s g c hg hcc
        have hcc : cell (labelled find id g) = c := by
          have : (((grps.map fun g => labelled find id g).map cell)[s]?) = some c := hcc
          rw [List.getElem?_map, List.getElem?_map, hg] at this
          exact Option.some.inj this
        subst hcc
        refine ⟨?_, ?_, ?_⟩
        · intro h
          exact ⟨_, by unfold cell; rw [if_pos (by omega)], Detail.tenths_nearest _ _ h⟩
        · intro h h'
          unfold cell; rw [if_neg (by omega), if_pos (by omega)]
        · intro h h'
          unfold cell; rw [if_neg (by omega), if_neg (by omega)]
      · intro h
        rw [← w2]
        exact Detail.tenths_nearest _ _ h
      · intro h
        show Detail.tenths _ _ = 0
        have h : ((grps.map fun g => labelled find id g).map (·.1)).sum = 0 := h
        unfold Detail.tenths
        rw [if_pos h]
    · rw [List.getElem?_eq_none_iff.2 (by simp; omega)] at hcol; cases hcol

example : printLur sampleFind 3 (sampleGrps.map (·.map (·.stored))) = .ok
    [⟨[.rate 2 500, .rate 2 1000], 4, 750, [(2, 1), (2, 2)]⟩, ⟨[.rate 2 500, .blank], 2, 500, [(2, 1)]⟩, ⟨[.blank, .rate 2 1500], 2, 1500, [(2, 3)]⟩] := by
  decide

/-- C153, violated: with more than 16 labels the formats of the table overflow their buffers. -/
theorem many_labels_overflow (find : List Nat → Option Nat) (nlab : Nat) (hn : 16 < nlab) (hfind : ∀ f id, find f = some id → id < nlab)
    (grps : List (List (Utt W))) (hf : ∀ g ∈ grps, Fields g) (hk : Known find grps.flatten) (hc : OneCategory find grps.flatten) :
    printLur find nlab (grps.map (·.map (·.stored))) = .undef := by
  obtain ⟨lab, h1, _⟩ := label_scores find nlab hfind grps hf hk hc
  unfold printLur
  rw [List.length_map, h1]
  show (if 50 ≤ 1 + 3 * nlab then _ else _) = _
  rw [if_pos (by omega)]

/-- C153: the report on several systems has the same sums as the report on one; the averaged speakers are the same exactly if no speaker
has errors without reference words. -/
theorem reports_agree (row : List (Nat × Nat)) :
    (columnN row).1 = (column row).words ∧ (columnN row).2.1 = (column row).pct ∧
    ((columnN row).2.2 = (column row).averaged ↔ ∀ t ∈ row, t.1 = 0 → t.2 = 0) := by
  have hs : ∀ w : Nat × Nat → Nat, (w = (·.1) ∨ w = (·.2)) → ((row.filter fun t => decide (t.1 + t.2 ≠ 0)).map w).sum = (row.map w).sum := by
    intro w hw
    induction row with
    | nil => rfl
    | cons t row ih =>
      rw [List.filter_cons]
      by_cases h : t.1 + t.2 ≠ 0
      · rw [if_pos (decide_eq_true h), List.map_cons, List.sum_cons, ih, List.map_cons, List.sum_cons]
      · rw [if_neg (by simpa using h), ih]
        have : w t = 0 := by rcases hw with rfl | rfl <;> (dsimp only; omega)
        simp [this]
  refine ⟨hs _ (Or.inl rfl), ?_, ?_⟩
  · show Detail.tenths _ _ = Detail.tenths _ _
    rw [hs _ (Or.inl rfl), hs _ (Or.inr rfl)]
  · show (row.filter fun t => decide (t.1 + t.2 ≠ 0)) = (row.filter fun t => decide (0 < t.1)) ↔ _
    constructor
    · intro h t ht h0
      by_cases h2 : t.2 = 0
      · exact h2
      · have : t ∈ row.filter fun t => decide (t.1 + t.2 ≠ 0) := List.mem_filter.2 ⟨ht, decide_eq_true (by omega)⟩
        rw [h] at this
        have := of_decide_eq_true (List.mem_filter.1 this).2
        omega
    · intro h
      apply List.filter_congr
      intro t ht
      have := h t ht
      rw [decide_eq_decide]
      omega

/-- C153, violated: a speaker with two errors and no reference words in a label counts as 0% of errors in the report on several systems. -/
theorem reports_disagree : (column [(10, 1), (0, 2)]).averaged = [(10, 1)] ∧ (columnN [(10, 1), (0, 2)]).2.2 = [(10, 1), (0, 2)] := by decide

example : ∀ t ∈ [(10, 1), (0, 0), (3, 0)], (t : Nat × Nat).1 = 0 → t.2 = 0 := by decide

/-- C153, violated: if a later system has more speakers than the first, the report on several systems writes outside of its arrays. -/
theorem more_speakers_undefined :
    printNLur (W := Nat) 1 [(sampleFind, [[(some [60, 79, 62], [.ins 1])]]), (sampleFind, [[], [(some [60, 79, 62], [.ins 1])]])] = .undef ∧
    printNLur (W := Nat) 1 [(sampleFind, [[], [(some [60, 79, 62], [.ins 1])]]), (sampleFind, [[(some [60, 79, 62], [.ins 1])]])] =
      .ok [[(0, 0, [(0, 1)])], [(0, 0, [(0, 1)])]] := ⟨by rfl, by rfl⟩

/-! ### C154: definitions of labels and categories -/

theorem split34 {p : List Nat} (hp : 34 ∉ p) (r : List Nat) :
    (p ++ 34 :: r).dropWhile (· ≠ 34) = 34 :: r ∧ (p ++ 34 :: r).takeWhile (· ≠ 34) = p := by
  induction p with
  | nil => simp
  | cons x p ih =>
    have hx : x ≠ 34 := fun he => hp (he ▸ List.mem_cons_self)
    have := ih (fun h => hp (List.mem_cons_of_mem _ h))
    rw [List.cons_append, List.dropWhile_cons, List.takeWhile_cons, if_pos (by simpa using hx), if_pos (by simpa using hx), this.1, this.2]
    exact ⟨rfl, rfl⟩

theorem unsplit34 {l r : List Nat} {x : Nat} (h : l.dropWhile (· ≠ 34) = x :: r) :
    l = l.takeWhile (· ≠ 34) ++ 34 :: r ∧ 34 ∉ l.takeWhile (· ≠ 34) := by
  induction l with
  | nil => cases h
  | cons y l ih =>
    rw [List.dropWhile_cons] at h
    rw [List.takeWhile_cons]
    by_cases hy : y ≠ 34
    · rw [if_pos (by simpa using hy)] at h ⊢
      obtain ⟨h1, h2⟩ := ih h
      refine ⟨by rw [List.cons_append, ← h1], ?_⟩
      intro hm
      rcases List.mem_cons.1 hm with hm | hm
      · exact hy hm.symm
      · exact h2 hm
    · rw [if_neg (by simpa using hy)] at h ⊢
      have hx : y = 34 := Decidable.not_not.1 hy
      rw [hx, (List.cons.inj h).2]
      exact ⟨rfl, List.not_mem_nil⟩

theorem quoted_iff (l a rest : List Nat) :
    quoted l = some (a, rest) ↔ ∃ p, 34 ∉ p ∧ 34 ∉ a ∧ l = p ++ 34 :: (a ++ 34 :: rest) := by
  constructor
  · intro h
    unfold quoted at h
    cases h1 : l.dropWhile (· ≠ 34) with
    | nil => rw [h1] at h; cases h
    | cons x r =>
      rw [h1] at h
      dsimp only at h
      cases h2 : r.dropWhile (· ≠ 34) with
      | nil => rw [h2] at h; cases h
      | cons y r' =>
        rw [h2] at h
        cases h
        obtain ⟨a1, a2⟩ := unsplit34 h1
        obtain ⟨b1, b2⟩ := unsplit34 h2
        exact ⟨_, a2, b2, by rw [← b1, ← a1]⟩
  · rintro ⟨p, hp, ha, rfl⟩
    unfold quoted
    rw [(split34 hp _).1]
    dsimp only
    rw [(split34 ha _).1, (split34 ha _).2]

theorem parseItem_iff (l : List Nat) (it : Item) :
    parseItem l = some it ↔ ∃ p b c d : List Nat, 34 ∉ p ∧ 34 ∉ b ∧ 34 ∉ c ∧ 34 ∉ it.id ∧ 34 ∉ it.title ∧ 34 ∉ it.desc ∧
      l = p ++ 34 :: (it.id ++ 34 :: (b ++ 34 :: (it.title ++ 34 :: (c ++ 34 :: (it.desc ++ 34 :: d))))) := by
  unfold parseItem
  constructor
  · intro h
    cases h1 : quoted l with
    | none => rw [h1] at h; cases h
    | some x =>
      obtain ⟨a, r⟩ := x
      rw [h1] at h
      dsimp only at h
      cases h2 : quoted r with
      | none => rw [h2] at h; cases h
      | some x =>
        obtain ⟨b, r'⟩ := x
        rw [h2] at h
        dsimp only at h
        cases h3 : quoted r' with
        | none => rw [h3] at h; cases h
        | some x =>
          obtain ⟨c, d⟩ := x
          rw [h3] at h
          cases h
          obtain ⟨p1, a1, a2, a3⟩ := (quoted_iff _ _ _).1 h1
          obtain ⟨p2, b1, b2, b3⟩ := (quoted_iff _ _ _).1 h2
          obtain ⟨p3, c1, c2, c3⟩ := (quoted_iff _ _ _).1 h3
          exact ⟨p1, p2, p3, d, a1, b1, c1, a2, b2, c2, by rw [a3, b3, c3]⟩
  · rintro ⟨p, b, c, d, h1, h2, h3, h4, h5, h6, rfl⟩
    rw [(quoted_iff _ _ _).2 ⟨p, h1, h4, rfl⟩]
    dsimp only
    rw [(quoted_iff _ _ _).2 ⟨b, h2, h5, rfl⟩]
    dsimp only
    rw [(quoted_iff _ _ _).2 ⟨c, h3, h6, rfl⟩]

theorem defines_iff (key : List Nat) (hkey : 34 ∉ key) (l : List Nat) (it : Item) :
    Defines key l it ↔ key.isPrefixOf l = true ∧ parseItem l = some it := by
  rw [parseItem_iff, List.isPrefixOf_iff_prefix]
  constructor
  · rintro ⟨a, b, c, d, h1, h2, h3, h4, h5, h6, rfl⟩
    refine ⟨⟨a ++ [34] ++ it.id ++ [34] ++ b ++ [34] ++ it.title ++ [34] ++ c ++ [34] ++ it.desc ++ [34] ++ d, by simp⟩, key ++ a, b, c, d, ?_, h2, h3, h4, h5, h6, by simp⟩
    intro hm
    rcases List.mem_append.1 hm with hm | hm
    · exact hkey hm
    · exact h1 hm
  · rintro ⟨⟨t, ht⟩, p, b, c, d, h1, h2, h3, h4, h5, h6, hl⟩
    rw [hl] at ht
    rcases List.append_eq_append_iff.1 ht with ⟨q, hq, _⟩ | ⟨q, hq, hq'⟩
    · subst hq
      exact ⟨q, b, c, d, fun hm => h1 (List.mem_append_right _ hm), h2, h3, h4, h5, h6, by rw [hl]; simp⟩
    · cases q with
      | nil =>
        rw [List.append_nil] at hq
        subst hq
        exact ⟨[], b, c, d, List.not_mem_nil, h2, h3, h4, h5, h6, by rw [hl]; simp⟩
      | cons x q =>
        have hx : 34 = x := (List.cons.inj hq').1
        exact absurd (by rw [hq, ← hx]; simp) hkey

theorem store_ok (items : List Item) (max : Nat) (it : Option Item) (h0 : 0 < max) (h1 : items.length ≤ max) :
    ∃ items' max', store items max it = some (items', max') ∧ 0 < max' ∧ items'.length ≤ max' ∧
      items' = (match it with | none => items | some it => if it ∈ items then items else items ++ [it]) := by
  unfold store
  generalize hm : (if items.length = max then max * 2 else max) = max'
  have h3 : items.length < max' := by
    by_cases h : items.length = max
    · rw [if_pos h] at hm; omega
    · rw [if_neg h] at hm; omega
  cases it with
  | none => exact ⟨items, max', rfl, by omega, by omega, rfl⟩
  | some it =>
    refine ⟨_, max', by dsimp only; rw [if_pos h3], by omega, ?_, rfl⟩
    dsimp only
    by_cases h : it ∈ items
    · rw [if_pos h]; omega
    · rw [if_neg h, List.length_append, List.length_singleton]; omega

/-- The array is big enough. -/
structure Fits (s : Aset) : Prop where
  p0 : 0 < s.maxPlab
  p1 : s.plab.length ≤ s.maxPlab
  c0 : 0 < s.maxCat
  c1 : s.cat.length ≤ s.maxCat

def keep (items : List Item) (it : Option Item) : List Item := match it with | none => items | some it => if it ∈ items then items else items ++ [it]

theorem collect_step {key l : List Nat} {ls : List (List Nat)} {acc res : List Item} (hkey : 34 ∉ key)
    (h : Collect key ls (keep acc (if key.isPrefixOf l = true then parseItem l else none)) res) : Collect key (l :: ls) acc res := by
  by_cases hk : key.isPrefixOf l = true
  · rw [if_pos hk] at h
    cases hp : parseItem l with
    | none =>
      rw [hp] at h
      exact .other (fun ⟨it, hd⟩ => by have := ((defines_iff key hkey l it).1 hd).2; rw [hp] at this; cases this) h
    | some it =>
      rw [hp] at h
      have hd := (defines_iff key hkey l it).2 ⟨hk, hp⟩
      unfold keep at h
      dsimp only at h
      by_cases hm : it ∈ acc
      · rw [if_pos hm] at h; exact .again hd hm h
      · rw [if_neg hm] at h; exact .new hd hm h
  · rw [if_neg hk] at h
    exact .other (fun ⟨it, hd⟩ => hk ((defines_iff key hkey l it).1 hd).1) h

theorem comment_ok (s : Aset) (hs : Fits s) (l : List Nat) : ∃ b s', commentLine s l = some (b, s') ∧ Fits s' ∧
    s'.plab = keep s.plab (if labelKey.isPrefixOf l = true then parseItem l else none) ∧
    s'.cat = keep s.cat (if categoryKey.isPrefixOf l = true then parseItem l else none) := by
  unfold commentLine
  have hex : labelKey.isPrefixOf l = true → categoryKey.isPrefixOf l = true → False := by
    intro h1 h2
    rw [List.isPrefixOf_iff_prefix] at h1 h2
    obtain ⟨a, rfl⟩ := h1
    obtain ⟨b, hb⟩ := h2
    simp [labelKey, categoryKey] at hb
  have h59 : ∀ key : List Nat, key.take 2 = [59, 59] → key.isPrefixOf l = true → l.head? = some 59 ∧ l[1]? = some 59 := by
    intro key h1 h2
    rw [List.isPrefixOf_iff_prefix] at h2
    obtain ⟨a, rfl⟩ := h2
    match key, h1 with
    | x :: y :: k, h1 => simp at h1; simp [h1.1, h1.2]
  by_cases hc : ¬ (l.head? = some 59 ∧ l[1]? = some 59)
  · rw [if_pos hc, if_neg (fun h => hc (h59 labelKey rfl h)), if_neg (fun h => hc (h59 categoryKey rfl h))]
    exact ⟨_, _, rfl, hs, rfl, rfl⟩
  · rw [if_neg hc]
    by_cases hp : labelKey.isPrefixOf l = true
    · obtain ⟨i, m, h1, h2, h3, h4⟩ := store_ok s.plab s.maxPlab (parseItem l) hs.p0 hs.p1
      rw [if_pos hp, if_pos hp, if_neg (hex hp), h1]
      exact ⟨_, _, rfl, ⟨h2, h3, hs.c0, hs.c1⟩, h4, rfl⟩
    · rw [if_neg hp, if_neg hp]
      by_cases hcat : categoryKey.isPrefixOf l = true
      · obtain ⟨i, m, h1, h2, h3, h4⟩ := store_ok s.cat s.maxCat (parseItem l) hs.c0 hs.c1
        rw [if_pos hcat, if_pos hcat, h1]
        exact ⟨_, _, rfl, ⟨hs.p0, hs.p1, h2, h3⟩, rfl, h4⟩
      · rw [if_neg hcat, if_neg hcat]
        exact ⟨_, _, rfl, hs, rfl, rfl⟩

theorem load_collect : ∀ (lines : List (List Nat)) (s : Aset), Fits s →
    ∃ s', loadLabels s lines = some s' ∧ Collect labelKey lines s.plab s'.plab ∧ Collect categoryKey lines s.cat s'.cat := by
  intro lines
  induction lines with
  | nil => intro s _; exact ⟨s, rfl, .nil, .nil⟩
  | cons l ls ih =>
    intro s hs
    obtain ⟨b, s1, h1, h2, h3, h4⟩ := comment_ok s hs l
    obtain ⟨s', i1, i2, i3⟩ := ih s1 h2
    rw [h3] at i2
    rw [h4] at i3
    exact ⟨s', by rw [loadLabels, h1]; exact i1, collect_step (by decide) i2, collect_step (by decide) i3⟩

/-- C154: reading any lines never fails, and leaves exactly the labels and the categories that the lines define, in order, each once. -/
theorem definitions_loaded (lines : List (List Nat)) :
    ∃ s, loadLabels noItems lines = some s ∧ Collect labelKey lines [] s.plab ∧ Collect categoryKey lines [] s.cat :=
  load_collect lines noItems ⟨by decide, by decide, by decide, by decide⟩

/-- C154: the items are determined by the lines. -/
theorem collect_unique {key : List Nat} (hkey : 34 ∉ key) {lines : List (List Nat)} {acc r r' : List Item} (h : Collect key lines acc r)
    (h' : Collect key lines acc r') : r = r' := by
  have huniq : ∀ (l : List Nat) (a b : Item), Defines key l a → Defines key l b → a = b := by
    intro l a b ha hb
    have h1 := ((defines_iff key hkey l a).1 ha).2
    have h2 := ((defines_iff key hkey l b).1 hb).2
    rw [h1] at h2
    exact Option.some.inj h2
  induction h with
  | nil => cases h'; rfl
  | new hd hn _ ih =>
    cases h' with
    | new hd' hn' hc => rw [← huniq _ _ _ hd hd'] at hc; exact ih hc
    | again hd' hn' hc => rw [← huniq _ _ _ hd hd'] at hn'; exact absurd hn' hn
    | other hd' hc => exact absurd ⟨_, hd⟩ hd'
  | again hd hn _ ih =>
    cases h' with
    | new hd' hn' hc => rw [← huniq _ _ _ hd hd'] at hn'; exact absurd hn hn'
    | again hd' hn' hc => exact ih hc
    | other hd' hc => exact absurd ⟨_, hd⟩ hd'
  | other hd _ ih =>
    cases h' with
    | new hd' hn' hc => exact absurd ⟨_, hd'⟩ hd
    | again hd' hn' hc => exact absurd ⟨_, hd'⟩ hd
    | other hd' hc => exact ih hc

/-- C154: exactly the items that a line defines are there, each once. -/
theorem collect_items {key : List Nat} {lines : List (List Nat)} {acc r : List Item} (hkey : 34 ∉ key) (h : Collect key lines acc r) :
    (∀ it, it ∈ r ↔ it ∈ acc ∨ ∃ l ∈ lines, Defines key l it) ∧ (acc.Nodup → r.Nodup) := by
  have huniq : ∀ (l : List Nat) (a b : Item), Defines key l a → Defines key l b → a = b := by
    intro l a b ha hb
    have h1 := ((defines_iff key hkey l a).1 ha).2
    have h2 := ((defines_iff key hkey l b).1 hb).2
    rw [h1] at h2
    exact Option.some.inj h2
  induction h with
  | nil => exact ⟨fun it => by simp, id⟩
  | @new l ls acc res it hd hn _ ih =>
    refine ⟨fun x => ?_, fun hnd => ih.2 (by rw [List.nodup_append]; exact ⟨hnd, by simp, fun a ha b hb he => hn (by rw [← List.mem_singleton.1 hb, ← he]; exact ha)⟩)⟩
    rw [ih.1, List.mem_append, List.mem_singleton]
    constructor
    · rintro ((h | rfl) | ⟨l', hl, hx⟩)
      · exact Or.inl h
      · exact Or.inr ⟨l, List.mem_cons_self, hd⟩
      · exact Or.inr ⟨l', List.mem_cons_of_mem _ hl, hx⟩
    · rintro (h | ⟨l', hl, hx⟩)
      · exact Or.inl (Or.inl h)
      · rcases List.mem_cons.1 hl with rfl | hl
        · exact Or.inl (Or.inr (huniq _ _ _ hx hd))
        · exact Or.inr ⟨l', hl, hx⟩
  | @again l ls acc res it hd hn _ ih =>
    refine ⟨fun x => ?_, ih.2⟩
    rw [ih.1]
    constructor
    · rintro (h | ⟨l', hl, hx⟩)
      · exact Or.inl h
      · exact Or.inr ⟨l', List.mem_cons_of_mem _ hl, hx⟩
    · rintro (h | ⟨l', hl, hx⟩)
      · exact Or.inl h
      · rcases List.mem_cons.1 hl with rfl | hl
        · rw [huniq _ _ _ hx hd]; exact Or.inl hn
        · exact Or.inr ⟨l', hl, hx⟩
  | @other l ls acc res hd _ ih =>
    refine ⟨fun x => ?_, ih.2⟩
    rw [ih.1]
    constructor
    · rintro (h | ⟨l', hl, hx⟩)
      · exact Or.inl h
      · exact Or.inr ⟨l', List.mem_cons_of_mem _ hl, hx⟩
    · rintro (h | ⟨l', hl, hx⟩)
      · exact Or.inl h
      · rcases List.mem_cons.1 hl with rfl | hl
        · exact absurd ⟨x, hx⟩ hd
        · exact Or.inr ⟨l', hl, hx⟩

/-- C154: the line ;; LABEL "f" "Fem" "women" -/
example : Defines labelKey (labelKey ++ [34, 102, 34, 32, 34, 70, 101, 109, 34, 32, 34, 119, 34]) ⟨[102], [70, 101, 109], [119]⟩ :=
  (defines_iff labelKey (by decide) _ _).2 ⟨by decide, by decide⟩

example : loadLabels noItems [labelKey ++ [34, 102, 34, 34, 70, 34, 34, 34], [120], labelKey ++ [34, 102], categoryKey ++ [34, 48, 34, 34, 83, 34, 34, 34],
      labelKey ++ [34, 102, 34, 34, 70, 34, 34, 34], labelKey ++ [34, 102, 34, 34, 71, 34, 34, 34]] =
    some ⟨[⟨[102], [70], []⟩, ⟨[102], [71], []⟩], 10, [⟨[48], [83], []⟩], 10⟩ := by decide

end Verif.Lur
