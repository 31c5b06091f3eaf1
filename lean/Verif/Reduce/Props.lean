import Verif.Reduce.Lemmas
import Verif.WtokeNet.Props
/-!
# Leaving out what the other file does not cover (sclite `-m`): properties
-/
set_option autoImplicit false
namespace Verif.Reduce
open Verif.WtokeNet Verif.Text

/-! ### C167 -/

/-- C167: with `-m ref` the segments that lie before all words of the hypothesis or after all of them are left out, and no others;
the ones that stay keep their order.  The words are given in their order: none begins before the first one or ends after the last.
Missing: a hypothesis whose last line is `<ALT_END>` (see below). -/
theorem segments_kept_partial (ws : List Tok) (f l : Tok) (segs : List Seg) (hf : ws.head? = some f) (hl : ws.getLast? = some l)
    (hfirst : ∀ w ∈ ws, f.t1 ≤ w.t1) (hlast : ∀ w ∈ ws, w.t1 + w.dur ≤ l.t1 + l.dur) :
    (∀ s, s ∈ keptSegs true ws segs ↔ s ∈ segs ∧ ¬ s.Apart ws) ∧ (keptSegs true ws segs).Sublist segs := by
  have hfm : f ∈ ws := List.mem_of_head? hf
  have hlm : l ∈ ws := List.mem_of_getLast? hl
  refine ⟨fun s => ?_, List.filter_sublist⟩
  unfold keptSegs
  rw [if_pos rfl, List.mem_filter]
  apply and_congr Iff.rfl
  unfold keepSeg
  cases ws with
  | nil => cases hf
  | cons w ws =>
    cases hf
    rw [hl]
    dsimp only
    unfold Seg.Apart
    constructor
    · intro h
      rw [Bool.not_eq_true', Bool.or_eq_false_iff, decide_eq_false_iff_not, decide_eq_false_iff_not] at h
      rintro (h1 | h1)
      · exact h.1 (h1 _ hfm)
      · exact h.2 (h1 _ hlm)
    · intro h
      rw [Bool.not_eq_true', Bool.or_eq_false_iff, decide_eq_false_iff_not, decide_eq_false_iff_not]
      refine ⟨fun h1 => h (.inl fun u hu => ?_), fun h1 => h (.inr fun u hu => ?_)⟩
      · exact Rat.le_trans h1 (hfirst u hu)
      · exact Rat.le_trans (hlast u hu) h1

/-- Without `-m ref` all segments stay, and likewise if there is no hypothesis for the channel. -/
theorem segments_all_kept (lines : List Tok) (segs : List Seg) : keptSegs false lines segs = segs ∧ keptSegs true [] segs = segs := by
  refine ⟨rfl, ?_⟩
  unfold keptSegs
  rw [if_pos rfl, List.filter_eq_self]
  intro s _
  rfl

/-- A hypothesis that ends with an alternation, whose marks have the times "*" and hence 0, has all segments left out, whatever
its words are. -/
theorem alternation_at_end_loses_all (lines : List Tok) (e : Tok) (he : e.t1 = 0 ∧ e.dur = 0) (segs : List Seg)
    (hs : ∀ s ∈ segs, 0 ≤ s.t1) : keptSegs true (lines ++ [e]) segs = [] := by
  unfold keptSegs
  rw [if_pos rfl, List.filter_eq_nil_iff]
  intro s h
  unfold keepSeg
  rw [List.getLast?_append, List.getLast?_singleton, Option.some_or]
  have : e.t1 + e.dur ≤ s.t1 := by rw [he.1, he.2, Rat.add_zero]; exact hs s h
  cases lines with
  | nil => simp [this]
  | cons f _ => simp [this]

/-! ### C168 -/

/-- C168: with `-m hyp` the hypothesis is scored as if the words and alternations that no segment covers were not there: the network
made of any part of the lines can be read as exactly what the words and alternations with a covered word can be read as.
An alternation stays or goes as a whole.
Missing: parts with an alternation that is left out (see below). -/
theorem reduced_network_partial (enc : Enc) (hasConf : Bool) (segs : List Seg) (before part after : List Item)
    (hp : ∀ i ∈ before ++ part ++ after, Plainly i) (hok : ∀ i ∈ part, i.Ok enc) (ht : ∀ i ∈ part, Touched segs i) :
    ∃ A B C n, reduceHyp segs (linesOf (before ++ part ++ after)) = A ++ B ++ C ∧ A.length = (linesOf before).length ∧
      B.length = (linesOf part).length ∧ create enc hasConf true (B ++ C) B.length = .ok n ∧
      ∀ ws, n.Produces ws ↔ Reads enc hasConf (part.filter (fun i => ¬ AllFar segs i)) ws := by
  have e1 : part.flatMap (outcome segs) = linesOf (part.flatMap (reduced segs)) := by
    unfold linesOf
    rw [List.flatMap_assoc]
    have : ∀ l : List Item, (∀ i ∈ l, i ∈ part) → l.flatMap (outcome segs) = l.flatMap (fun x => (reduced segs x).flatMap Item.lines) := by
      intro l
      induction l with
      | nil => intro _; rfl
      | cons i l ih =>
        intro h
        have hi := h i (List.mem_cons_self ..)
        rw [List.flatMap_cons, List.flatMap_cons, ih (fun j hj => h j (List.mem_cons_of_mem _ hj)), outcome_reduced segs i
          (hp i (List.mem_append.2 (.inl (List.mem_append.2 (.inr hi))))) (ht i hi)]
        rfl
    exact this part (fun _ h => h)
  obtain ⟨n, h1, h2⟩ := network_readings_partial enc hasConf (part.flatMap (reduced segs)) (after.flatMap (outcome segs))
    (by
      intro j hj
      obtain ⟨i, hi, hj⟩ := List.mem_flatMap.1 hj
      exact reduced_ok enc segs i (hok i hi) j hj)
  refine ⟨before.flatMap (outcome segs), part.flatMap (outcome segs), after.flatMap (outcome segs), n, ?_, outcomes_length .., outcomes_length ..,
    ?_, fun ws => ?_⟩
  · rw [reduceHyp_items segs _ hp, List.flatMap_append, List.flatMap_append]
  · rw [e1]; exact h1
  · rw [h2, reads_reduced]

/-! ### C169 -/

/-- C169: with `-m hyp` the number of words reported as skipped is the number of words of the items no segment covers; no line is
lost or changed but for its being left out; a line outside of alternations is left out exactly if it begins after the end of all
segments or ends before the begin of all. -/
theorem skipped_words (segs : List Seg) (its : List Item) (hp : ∀ i ∈ its, Plainly i) :
    skipWords (reduceHyp segs (linesOf its)) = ((its.filter (fun i => AllFar segs i)).flatMap words).length ∧
    (reduceHyp segs (linesOf its)).map (fun t => { t with ignore := false }) = linesOf its ∧
    ∀ pre post t, its = pre ++ .single t :: post →
      (reduceHyp segs (linesOf its))[(linesOf pre).length]? = some { t with ignore := decide (Far segs t) } := by
  rw [reduceHyp_items segs its hp]
  refine ⟨?_, ?_, ?_⟩
  · revert hp
    induction its with
    | nil => intro _; rfl
    | cons i its ih =>
      intro h
      rw [List.flatMap_cons, skip_append, skip_outcome segs i (h i (List.mem_cons_self ..)),
        ih (fun j hj => h j (List.mem_cons_of_mem _ hj))]
      by_cases ha : AllFar segs i
      · rw [if_pos ha, List.filter_cons_of_pos (by simpa using ha), List.flatMap_cons, List.length_append]
      · rw [if_neg ha, List.filter_cons_of_neg (by simpa using ha), Nat.zero_add]
  · revert hp
    induction its with
    | nil => intro _; rfl
    | cons i its ih =>
      intro h
      rw [List.flatMap_cons, List.map_append, ih (fun j hj => h j (List.mem_cons_of_mem _ hj)),
        outcome_text segs i (h i (List.mem_cons_self ..))]
      rfl
  · intro pre post t e
    subst e
    rw [List.flatMap_append, ← outcomes_length segs pre, List.getElem?_append_right (Nat.le_refl _), Nat.sub_self, List.flatMap_cons]
    have hi := (hp (.single t) (List.mem_append.2 (.inr (List.mem_cons_self ..)))).1 t (List.mem_singleton.2 rfl)
    show some (if Far segs t then left t else t) = _
    by_cases hf : Far segs t
    · rw [if_pos hf]; simp [hf, left]
    · rw [if_neg hf, decide_eq_false hf]
      cases t
      simp only at hi
      rw [hi]

/-! ### Cases that meet the hypotheses -/

/-- The word c at 10, the alternation "b" or "c" at 11 and 12 with marks without times, the word d at 20. -/
def exIts : List Item :=
  [.single ⟨[99], 10, 1, 1, false, false⟩,
    .block ⟨exB.sp, 0, 0, 1, false, true⟩ [⟨[98], 11, 1, 1, false, true⟩]
      [(⟨exO.sp, 0, 0, 1, false, true⟩, [⟨[99], 12, 1, 1, false, true⟩])] ⟨exE.sp, 0, 0, 1, false, true⟩,
    .single ⟨[100], 20, 1, 1, false, false⟩]

theorem exIts_ok : ∀ i ∈ exIts, Plainly i ∧ i.Ok .ascii := by
  intro i hi
  simp only [exIts, List.mem_cons, List.not_mem_nil, or_false] at hi
  rcases hi with e | e | e
  · subst e
    exact ⟨⟨by decide, by unfold Plain; decide +kernel, trivial⟩, rfl, rfl, ⟨[99], none, none⟩, by decide⟩
  · subst e
    refine ⟨⟨by decide, by unfold Plain; decide +kernel, ?_⟩, rfl, rfl, ?_, ?_, by decide, ?_, ?_, ?_⟩
    · unfold Is; decide
    · unfold Is; decide
    · unfold Is; decide
    · intro t ht
      rw [List.mem_singleton.1 ht]
      exact ⟨by unfold Plain; decide, ⟨[98], none, none⟩, by decide⟩
    · intro x hx
      rw [List.mem_singleton.1 hx]
      refine ⟨by unfold Is; decide, fun t ht => ?_⟩
      rw [List.mem_singleton.1 ht]
      exact ⟨by unfold Plain; decide, ⟨[99], none, none⟩, by decide⟩
    · intro x hx
      cases hx
  · subst e
    exact ⟨⟨by decide, by unfold Plain; decide +kernel, trivial⟩, rfl, rfl, ⟨[100], none, none⟩, by decide⟩

/-- With a segment from 12.5 to 15, both c and d are left out and the alternation stays because of its second alternative. -/
example : (∀ i ∈ exIts, Touched [⟨25 / 2, 15⟩] i) ∧ skipWords (reduceHyp [⟨25 / 2, 15⟩] (linesOf exIts)) = 2 ∧
    (reduceHyp [⟨25 / 2, 15⟩] (linesOf exIts)).map (·.ignore) = [true, false, false, false, false, false, true] := by
  refine ⟨?_, by decide +kernel, by decide +kernel⟩
  intro i hi
  simp only [exIts, List.mem_cons, List.not_mem_nil, or_false] at hi
  rcases hi with e | e | e
  · subst e; trivial
  · subst e; unfold Touched; decide +kernel
  · subst e; trivial

/-- Words from 10 to 21, and segments before, touching, within, and after. -/
example : keptSegs true [⟨[99], 10, 1, 1, false, false⟩, ⟨[100], 20, 1, 1, false, false⟩] [⟨0, 5⟩, ⟨5, 10⟩, ⟨9, 11⟩, ⟨12, 13⟩, ⟨21, 22⟩] =
    [⟨9, 11⟩, ⟨12, 13⟩] := by decide +kernel

/-! ### Outside of the hypotheses -/

/-- When an alternation is left out its `<ALT_END>` stays, and what follows is lost: with a segment from 19 to 22 the alternation and
the word c at 10 are left out, and the word d at 20, which is covered, cannot be read. -/
theorem left_out_alternation_loses_word : (∀ i ∈ exIts, Plainly i ∧ i.Ok .ascii) ∧
    ¬ Far [⟨19, 22⟩] ⟨[100], 20, 1, 1, false, false⟩ ∧
    Lacks [100] (create .ascii true true (reduceHyp [⟨19, 22⟩] (linesOf exIts)) 7) :=
  ⟨exIts_ok, by decide +kernel, lacks_of_check (by decide +kernel)⟩

/-- And if the alternation left out is the end of the hypothesis, lines after the last one are read. -/
theorem left_out_alternation_at_end_undefined :
    (match create .ascii true true (reduceHyp [⟨9, 10⟩] (linesOf (exIts.take 2))) 6 with | .undef => true | _ => false) = true := by
  decide +kernel

end Verif.Reduce
