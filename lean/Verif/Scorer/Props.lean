import Verif.Scorer.Spec
/-!
# Scoring: theorems C14, C15, C16, C57, C58
-/
set_option autoImplicit false
namespace Verif.Scorer

/-! ### C16 -/

theorem index_inj (s c y s' c' y' : Str) (h1 : '|' ∉ s) (h2 : '|' ∉ c) (h1' : '|' ∉ s') (h2' : '|' ∉ c')
    (h : index s c y = index s' c' y') : s = s' ∧ c = c' ∧ y = y' := by
  have key : ∀ (a b a' b' : Str), '|' ∉ a → '|' ∉ a' → a ++ '|' :: b = a' ++ '|' :: b' → a = a' ∧ b = b' := by
    intro a
    induction a with
    | nil =>
      intro b a' b' _ h2 h
      cases a' with
      | nil => simp at h; exact ⟨rfl, h⟩
      | cons x a' => simp at h; exact absurd (by rw [h.1]; simp) h2
    | cons x a ih =>
      intro b a' b' h1 h2 h
      cases a' with
      | nil => simp at h; exact absurd (by rw [h.1]; simp) h1
      | cons x' a' =>
        simp only [List.cons_append, List.cons.injEq] at h
        obtain ⟨e1, e2⟩ := ih b a' b' (fun c => h1 (by simp [c])) (fun c => h2 (by simp [c])) h.2
        exact ⟨by rw [h.1, e1], e2⟩
  unfold index at h
  obtain ⟨e1, e2⟩ := key _ _ _ _ h1 h1' h
  obtain ⟨e3, e4⟩ := key _ _ _ _ h2 h2' e2
  exact ⟨e1, e3, e4⟩

theorem splitComma_field (f : Str) (hf : ',' ∉ f) : splitComma f = [f] := by
  induction f with
  | nil => rfl
  | cons c f ih =>
    unfold splitComma
    rw [if_neg (fun e => hf (by simp [e])), ih (fun h => hf (by simp [h]))]

theorem splitComma_cons (f rest : Str) (hf : ',' ∉ f) :
    splitComma (f ++ ',' :: rest) = f :: splitComma rest := by
  induction f with
  | nil => simp [splitComma]
  | cons c f ih =>
    rw [List.cons_append]
    conv => lhs; unfold splitComma
    rw [if_neg (fun e => hf (by simp [e])), ih (fun h => hf (by simp [h]))]

/-- A well-formed data row: no commas in the fields, not a comment, not the header. -/
def Row.Ok (r : Row) : Prop :=
  ',' ∉ r.source ∧ ',' ∉ r.channel ∧ ',' ∉ r.ref ∧ ',' ∉ r.sys ∧ ',' ∉ r.mapped ∧ ',' ∉ r.overlap ∧
    r.csv.head? ≠ some '#' ∧ r.csv ≠ "File,Channel,RefSpeaker,SysSpeaker,isMapped,timeOverlap".toList

theorem loadLine_csv (m : SpkMap) (r : Row) (h : r.Ok) :
    loadLine m r.csv = some (if r.mapped = "mapped".toList then setSysRef m r.source r.channel r.sys r.ref
      else m) := by
  obtain ⟨h1, h2, h3, h4, h5, h6, h7, h8⟩ := h
  have hs : splitComma r.csv = [r.source, r.channel, r.ref, r.sys, r.mapped, r.overlap] := by
    unfold Row.csv
    rw [splitComma_cons _ _ h1, splitComma_cons _ _ h2, splitComma_cons _ _ h3, splitComma_cons _ _ h4,
      splitComma_cons _ _ h5, splitComma_field _ h6]
  unfold loadLine
  rw [if_neg h7, if_neg (show ¬ r.csv = header from h8), hs]
  simp only [List.length_cons, List.length_nil]
  rw [if_neg (by omega)]
  show (if some r.mapped = some "mapped".toList then _ else _) = _
  by_cases e : r.mapped = "mapped".toList
  · rw [if_pos (by rw [e]), if_pos e]; rfl
  · rw [if_neg (fun h => e (Option.some.inj h)), if_neg e]

theorem find_setSysRef (m : SpkMap) (s c y r k : Str) :
    (setSysRef m s c y r).find k =
      match m.find k with
      | some x => some x
      | none => if index s c y = k then some r else none := by
  unfold setSysRef
  cases hm : m.find (index s c y) with
  | none =>
    simp only
    show (List.find? _ (_ :: m)).map Prod.snd = _
    rw [List.find?_cons]
    by_cases e : index s c y = k
    · subst e
      rw [hm]; simp
    · have : (index s c y == k) = false := by simp [e]
      simp only [this, if_neg e]
      show m.find k = _
      cases m.find k <;> rfl
  | some x =>
    simp only
    cases hk : m.find k with
    | some z => rfl
    | none =>
      simp only
      rw [if_neg]
      intro e; rw [e, hk] at hm; cases hm

/-- C16 for names of sources and channels without `|`: after loading a file, looking up a system speaker gives the
reference speaker of the first row mapping it, and the empty string when no row maps it. -/
theorem speaker_lookup_partial (rows : List Row) (hok : ∀ r ∈ rows, r.Ok)
    (hbar : ∀ r ∈ rows, '|' ∉ r.source ∧ '|' ∉ r.channel) (source channel sys : Str)
    (hq : '|' ∉ source ∧ '|' ∉ channel) :
    ∃ m, loadFile [] (rows.map Row.csv) = some m ∧
      getRef m source channel sys = intended rows source channel sys := by
  have gen : ∀ (rows : List Row) (m0 : SpkMap), (∀ r ∈ rows, r.Ok) →
      (∀ r ∈ rows, '|' ∉ r.source ∧ '|' ∉ r.channel) →
      ∃ m, loadFile m0 (rows.map Row.csv) = some m ∧ m.find (index source channel sys) =
        match m0.find (index source channel sys) with
        | some x => some x
        | none => (rows.find? fun r => r.mapped = "mapped".toList ∧ r.source = source ∧ r.channel = channel ∧
            r.sys = sys).map Row.ref := by
    intro rows
    induction rows with
    | nil =>
      intro m0 _ _
      refine ⟨m0, rfl, ?_⟩
      cases m0.find (index source channel sys) <;> rfl
    | cons r rows ih =>
      intro m0 h1 h2
      rw [List.map_cons]
      unfold loadFile
      rw [loadLine_csv m0 r (h1 r (by simp))]
      simp only
      obtain ⟨m, e1, e2⟩ := ih (if r.mapped = "mapped".toList then
        setSysRef m0 r.source r.channel r.sys r.ref else m0)
        (fun x hx => h1 x (by simp [hx])) (fun x hx => h2 x (by simp [hx]))
      refine ⟨m, e1, ?_⟩
      rw [e2, List.find?_cons]
      by_cases hm : r.mapped = "mapped".toList
      · rw [if_pos hm, find_setSysRef]
        cases m0.find (index source channel sys) with
        | some x => rfl
        | none =>
          simp only
          by_cases hi : r.source = source ∧ r.channel = channel ∧ r.sys = sys
          · rw [if_pos (by rw [hi.1, hi.2.1, hi.2.2])]
            simp [hm, hi]
          · rw [if_neg (fun e => hi (index_inj _ _ _ _ _ _ (h2 r (by simp)).1 (h2 r (by simp)).2 hq.1 hq.2 e))]
            have : (decide (r.mapped = "mapped".toList ∧ r.source = source ∧ r.channel = channel ∧
              r.sys = sys)) = false := by
              rw [decide_eq_false_iff_not]; exact fun h => hi h.2
            simp only [this]
      · rw [if_neg hm]
        have : (decide (r.mapped = "mapped".toList ∧ r.source = source ∧ r.channel = channel ∧
          r.sys = sys)) = false := by
          rw [decide_eq_false_iff_not]; exact fun h => hm h.1
        simp only [this]
  obtain ⟨m, e1, e2⟩ := gen rows [] hok hbar
  refine ⟨m, e1, ?_⟩
  unfold getRef intended
  rw [e2]
  show (match (match (none : Option Str) with | some x => some x | none => _) with | some r => r | none => []) = _
  simp only
  cases rows.find? fun r => r.mapped = "mapped".toList ∧ r.source = source ∧ r.channel = channel ∧
    r.sys = sys <;> rfl

/-- The hypotheses on a file with two rows. -/
example : ∀ r ∈ ([⟨"f".toList, "1".toList, "alice".toList, "s1".toList, "mapped".toList, "3.2".toList⟩,
    ⟨"f".toList, "1".toList, "bob".toList, "s2".toList, "unmapped".toList, "0".toList⟩] : List Row),
    r.Ok ∧ '|' ∉ r.source ∧ '|' ∉ r.channel := by
  intro r hr
  simp only [List.mem_cons, List.not_mem_nil, or_false] at hr
  rcases hr with h | h <;> subst h <;> unfold Row.Ok <;> decide

/-- C16 fails for names containing `|`: two different speakers share one entry. -/
theorem speaker_lookup_collision :
    ∃ (rows : List Row) (source channel sys : Str) (m : SpkMap), (∀ r ∈ rows, r.Ok) ∧
      loadFile [] (rows.map Row.csv) = some m ∧
      getRef m source channel sys ≠ intended rows source channel sys := by
  refine ⟨[⟨"a|b".toList, "c".toList, "alice".toList, "s".toList, "mapped".toList, "1".toList⟩], "a".toList,
    "b|c".toList, "s".toList, [("a|b|c|s".toList, "alice".toList)], ?_, by decide, by decide⟩
  intro r hr
  simp only [List.mem_cons, List.not_mem_nil, or_false] at hr
  subst hr; unfold Row.Ok; decide

/-- A line with more than six fields is stored past the end of the field array. -/
theorem speaker_line_overflow (m : SpkMap) (r : Row) (h : r.Ok) (extra : Str) :
    loadLine m (r.csv ++ ',' :: extra) = none := by
  obtain ⟨h1, h2, h3, h4, h5, h6, h7, h8⟩ := h
  have hs : splitComma (r.csv ++ ',' :: extra) =
      r.source :: r.channel :: r.ref :: r.sys :: r.mapped :: r.overlap :: splitComma extra := by
    unfold Row.csv
    simp only [List.append_assoc, List.cons_append]
    rw [splitComma_cons _ _ h1, splitComma_cons _ _ h2, splitComma_cons _ _ h3, splitComma_cons _ _ h4,
      splitComma_cons _ _ h5, splitComma_cons _ _ h6]
  have hpos : 0 < (splitComma extra).length := by
    cases extra with
    | nil => simp [splitComma]
    | cons c cs =>
      unfold splitComma
      split
      · simp
      · split <;> simp
  have hne : r.csv ≠ [] := by unfold Row.csv; simp
  unfold loadLine
  rw [if_neg, if_neg, hs]
  · simp only [List.length_cons]
    rw [if_pos (by omega)]
  · intro e
    have : (splitComma (r.csv ++ ',' :: extra)).length = 6 := by rw [e]; decide
    rw [hs] at this
    simp only [List.length_cons] at this
    omega
  · intro e
    cases hc : r.csv with
    | nil => exact hne hc
    | cons a l => rw [hc] at e h7; exact h7 e

/-! ### C14 -/

/-- C14: a pair gets exactly the verdict it deserves.  Missing: hypothesis words without a reference under the
setting `both` (see `verdict_wrong_for_both`). -/
theorem verdict_right_partial (eqv : Str → Str → Bool) (opt : Str) (spk : Bool) (m : SpkMap)
    (ref hyp : Option Tok) (hsome : ref ≠ none ∨ hyp ≠ none) (hopt : opt ≠ "both".toList ∨ ref ≠ none)
    (v : Verdict) : verdict eqv opt spk m ref hyp = some v ↔ Deserves eqv opt spk m ref hyp v := by
  have hR : (optFlags opt).1 = true ↔ ForgivesRef opt := by
    unfold optFlags ForgivesRef
    by_cases h : "both".toList = opt ∨ "ref".toList = opt
    · rw [if_pos h]; simp only [true_iff]
      exact h.imp Eq.symm Eq.symm
    · rw [if_neg h]
      constructor
      · intro h2; split at h2 <;> cases h2
      · intro h2; exact absurd (h2.imp Eq.symm Eq.symm) h
  have hH : opt ≠ "both".toList → ((optFlags opt).2 = true ↔ ForgivesHyp opt) := by
    intro hb
    unfold optFlags ForgivesHyp
    by_cases h : "both".toList = opt ∨ "ref".toList = opt
    · rw [if_pos h]
      rcases h with h | h
      · exact absurd h.symm hb
      · subst h; decide
    · rw [if_neg h]
      by_cases h2 : "both".toList = opt ∨ "hyp".toList = opt
      · rw [if_pos h2]; simp only [true_iff]; exact h2.imp Eq.symm Eq.symm
      · rw [if_neg h2]
        constructor
        · intro h3; cases h3
        · intro h3; exact absurd (h3.imp Eq.symm Eq.symm) h2
  unfold verdict
  cases ref with
  | none =>
    cases hyp with
    | none => rcases hsome with h | h <;> exact absurd rfl h
    | some h =>
      simp only [Option.some.injEq]
      have hb : opt ≠ "both".toList := by
        rcases hopt with h | h
        · exact h
        · exact absurd rfl h
      by_cases hc : h.optional = true ∧ ForgivesHyp opt
      · have : (h.optional && (optFlags opt).2) = true := by
          rw [Bool.and_eq_true]; exact ⟨hc.1, (hH hb).2 hc.2⟩
        rw [if_pos this]
        constructor
        · rintro rfl; exact .insForgiven h hc.1 hc.2
        · intro hd; cases hd with
          | ins _ h' => exact absurd hc h'
          | insForgiven => rfl
      · have : ¬ (h.optional && (optFlags opt).2) = true := by
          rw [Bool.and_eq_true]; exact fun e => hc ⟨e.1, (hH hb).1 e.2⟩
        rw [if_neg this]
        constructor
        · rintro rfl; exact .ins h hc
        · intro hd; cases hd with
          | ins => rfl
          | insForgiven _ h1 h2 => exact absurd ⟨h1, h2⟩ hc
  | some r =>
    cases hyp with
    | none =>
      simp only [Option.some.injEq]
      by_cases hc : r.optional = true ∧ ForgivesRef opt
      · have : (r.optional && (optFlags opt).1) = true := by
          rw [Bool.and_eq_true]; exact ⟨hc.1, hR.2 hc.2⟩
        rw [if_pos this]
        constructor
        · rintro rfl; exact .delForgiven r hc.1 hc.2
        · intro hd; cases hd with
          | del _ h' => exact absurd hc h'
          | delForgiven => rfl
      · have : ¬ (r.optional && (optFlags opt).1) = true := by
          rw [Bool.and_eq_true]; exact fun e => hc ⟨e.1, hR.1 e.2⟩
        rw [if_neg this]
        constructor
        · rintro rfl; exact .del r hc
        · intro hd; cases hd with
          | del => rfl
          | delForgiven _ h1 h2 => exact absurd ⟨h1, h2⟩ hc
    | some h =>
      simp only [Option.some.injEq]
      rcases Bool.eq_false_or_eq_true (eqv r.text h.text) with he | he
      · rw [if_pos he]
        rcases Bool.eq_false_or_eq_true spk with hs | hs
        · rw [if_pos hs]
          by_cases hg : getRef m h.source h.channel h.speaker = r.speaker
          · rw [if_pos hg]
            constructor
            · rintro rfl; exact .cor r h he (fun _ => hg)
            · intro hd; cases hd with
              | sub _ _ h' => rw [he] at h'; cases h'
              | spk _ _ _ _ h' => exact absurd hg h'
              | cor => rfl
          · rw [if_neg hg]
            constructor
            · rintro rfl; exact .spk r h he hs hg
            · intro hd; cases hd with
              | sub _ _ h' => rw [he] at h'; cases h'
              | spk => rfl
              | cor _ _ _ h' => exact absurd (h' hs) hg
        · rw [if_neg (by rw [hs]; decide)]
          constructor
          · rintro rfl; exact .cor r h he (fun e => by rw [hs] at e; cases e)
          · intro hd; cases hd with
            | sub _ _ h' => rw [he] at h'; cases h'
            | spk _ _ _ h' => rw [hs] at h'; cases h'
            | cor => rfl
      · rw [if_neg (by rw [he]; decide)]
        constructor
        · rintro rfl; exact .sub r h he
        · intro hd; cases hd with
          | sub => rfl
          | spk _ _ h' => rw [he] at h'; cases h'
          | cor _ _ h' => rw [he] at h'; cases h'

/-- Every pair with at least one word gets a verdict. -/
theorem verdict_total (eqv : Str → Str → Bool) (opt : Str) (spk : Bool) (m : SpkMap) (ref hyp : Option Tok) :
    (∃ v, verdict eqv opt spk m ref hyp = some v) ↔ ref ≠ none ∨ hyp ≠ none := by
  unfold verdict
  cases ref <;> cases hyp <;> simp

example : verdict (· == ·) "ref".toList true [("f|1|s".toList, "bob".toList)]
    (some ⟨"a".toList, false, "f".toList, "1".toList, "ann".toList⟩)
    (some ⟨"a".toList, false, "f".toList, "1".toList, "s".toList⟩) = some .speakerSub := by decide

/-- C14 fails for the setting `both`: a superfluous optional hypothesis word is counted as an insertion. -/
theorem verdict_wrong_for_both :
    ∃ (h : Tok) (v : Verdict), verdict (· == ·) "both".toList false [] none (some h) = some v ∧
      ¬ Deserves (· == ·) "both".toList false [] none (some h) v := by
  refine ⟨⟨"(uh)".toList, true, [], [], []⟩, .insertion, by decide, ?_⟩
  intro h
  cases h with
  | ins _ h => exact h ⟨rfl, Or.inl rfl⟩

/-! ### C15, C57 -/

/-- Component-wise sum of two sets of counters. -/
def Datas.plus (a b : Datas) : Datas :=
  ⟨a.segments + b.segments, a.refWords + b.refWords, a.correct + b.correct, a.subs + b.subs,
    a.spkErrs + b.spkErrs, a.dels + b.dels, a.ins + b.ins, a.segErrs + b.segErrs⟩

/-- Counters of a list of results. -/
def tally (rs : List (Option Verdict)) : Datas :=
  { segments := 0
    refWords := rs.count (some .correct) + rs.count (some .substitution) + rs.count (some .speakerSub) +
      rs.count (some .deletion)
    correct := rs.count (some .correct), subs := rs.count (some .substitution)
    spkErrs := rs.count (some .speakerSub), dels := rs.count (some .deletion)
    ins := rs.count (some .insertion), segErrs := 0 }

theorem tokenLoop_spec (spk : Str) : ∀ (rs : List (Option Verdict)) (m : Counters) (err : Bool) (d : Datas),
    m spk = some d → (∀ r ∈ rs, r ≠ none) →
    ∃ m', tokenLoop spk m err rs = (m', some (err || rs.any fun r => r ≠ some .correct)) ∧
      m' spk = some (d.plus (tally rs)) ∧ ∀ s, s ≠ spk → m' s = m s := by
  intro rs
  induction rs with
  | nil => intro m err d h _; exact ⟨m, by simp [tokenLoop], by rw [h]; rfl, fun _ _ => rfl⟩
  | cons r rs ih =>
    intro m err d hd hr
    cases r with
    | none => exact absurd rfl (hr none (by simp))
    | some v =>
      unfold tokenLoop
      have h1 : (m.update spk (·.add v)) spk = some (d.add v) := by
        unfold Counters.update; rw [if_pos rfl, hd]; rfl
      obtain ⟨m', e1, e2, e3⟩ := ih _ (err || decide (v ≠ .correct)) (d.add v) h1 (fun x hx => hr x (by simp [hx]))
      refine ⟨m', ?_, ?_, ?_⟩
      · rw [e1]
        have : decide (some v ≠ some Verdict.correct) = decide (v ≠ .correct) := by
          cases v <;> decide
        rw [List.any_cons, this, Bool.or_assoc]
      · rw [e2]
        congr 1
        cases v <;> simp [Datas.add, Datas.plus, tally] <;> omega
      · intro s hs
        rw [e3 s hs]
        unfold Counters.update; rw [if_neg hs]

theorem shouldShow_cons (s : Scored) (ss : List Scored) (spk : Str) (d : Datas) :
    (if s.speaker = spk then ((d.plus (tally s.results)).addSegment s.bad).plus (shouldShow ss spk)
      else d.plus (shouldShow ss spk)) = d.plus (shouldShow (s :: ss) spk) := by
  by_cases h : s.speaker = spk
  · rw [if_pos h]
    have hf : (s :: ss).filter (fun x => x.speaker = spk) = s :: ss.filter (fun x => x.speaker = spk) := by
      rw [List.filter_cons_of_pos (by simp [h])]
    rcases Bool.eq_false_or_eq_true s.bad with hb | hb <;>
      simp [shouldShow, howMany, resultsOf, hf, Datas.plus, Datas.addSegment, tally, hb] <;> omega
  · rw [if_neg h]
    have hf : (s :: ss).filter (fun x => x.speaker = spk) = ss.filter (fun x => x.speaker = spk) := by
      rw [List.filter_cons_of_neg (by simp [h])]
    simp [shouldShow, howMany, resultsOf, hf]

theorem countSystem_spec : ∀ (segs : List Scored) (m : Counters),
    (∀ s ∈ segs, ∀ r ∈ s.results, r ≠ none) →
    ∃ m', countSystem m segs = (m', true) ∧
      ∀ spk, m' spk = if (m spk).isSome = true ∨ ∃ s ∈ segs, s.speaker = spk then
        some (((m spk).getD Datas.new).plus (shouldShow segs spk)) else none := by
  intro segs
  induction segs with
  | nil =>
    intro m _
    refine ⟨m, rfl, ?_⟩
    intro spk
    cases h : m spk with
    | none => simp
    | some d => simp [Datas.plus, shouldShow, howMany, resultsOf]
  | cons s ss ih =>
    intro m hav
    unfold countSystem
    have ht : (m.touch s.speaker) s.speaker = some ((m s.speaker).getD Datas.new) := by
      unfold Counters.touch; rw [if_pos rfl]
    obtain ⟨m1, e1, e2, e3⟩ := tokenLoop_spec s.speaker s.results (m.touch s.speaker) false _ ht
      (fun r hr => hav s (by simp) r hr)
    rw [e1]
    simp only [Bool.false_or]
    obtain ⟨m', f1, f2⟩ := ih (m1.update s.speaker (·.addSegment (s.results.any fun r => r ≠ some .correct)))
      (fun x hx => hav x (by simp [hx]))
    refine ⟨m', f1, ?_⟩
    intro spk
    rw [f2 spk]
    by_cases h : s.speaker = spk
    · subst h
      have hu : (m1.update s.speaker (·.addSegment (s.results.any fun r => r ≠ some .correct))) s.speaker =
          some ((((m s.speaker).getD Datas.new).plus (tally s.results)).addSegment s.bad) := by
        unfold Counters.update; rw [if_pos rfl, e2]; rfl
      rw [hu]
      rw [if_pos (Or.inl (Option.isSome_some)), if_pos (Or.inr ⟨s, by simp, rfl⟩)]
      have := shouldShow_cons s ss s.speaker ((m s.speaker).getD Datas.new)
      rw [if_pos rfl] at this
      rw [← this]; rfl
    · have hu : (m1.update s.speaker (·.addSegment (s.results.any fun r => r ≠ some .correct))) spk = m spk := by
        unfold Counters.update; rw [if_neg (Ne.symm h), e3 _ (Ne.symm h)]
        unfold Counters.touch; rw [if_neg (Ne.symm h)]
      rw [hu]
      have := shouldShow_cons s ss spk ((m spk).getD Datas.new)
      rw [if_neg h] at this
      rw [this]
      have hiff : ((m spk).isSome = true ∨ ∃ x ∈ ss, x.speaker = spk) ↔
          ((m spk).isSome = true ∨ ∃ x ∈ s :: ss, x.speaker = spk) := by
        constructor
        · rintro (h' | ⟨x, h1, h2⟩)
          · exact Or.inl h'
          · exact Or.inr ⟨x, by simp [h1], h2⟩
        · rintro (h' | ⟨x, h1, h2⟩)
          · exact Or.inl h'
          · rcases List.mem_cons.1 h1 with e | h1
            · subst e; exact absurd h2 h
            · exact Or.inr ⟨x, h1, h2⟩
      simp only [hiff]

/-- C15 and C57 for the first system: its report shows, for each speaker with a segment, exactly the numbers of that
speaker's verdicts. -/
theorem first_report_right_partial (segs : List Scored) (rest : List (List Scored))
    (hav : ∀ s ∈ segs, ∀ r ∈ s.results, r ≠ none) :
    ∃ m ms, generate (fun _ => none) (segs :: rest) = m :: ms ∧
      ∀ spk, m spk = if ∃ s ∈ segs, s.speaker = spk then some (shouldShow segs spk) else none := by
  obtain ⟨m', e1, e2⟩ := countSystem_spec segs (fun _ => none) hav
  refine ⟨m', _, by unfold generate; rw [e1], ?_⟩
  intro spk
  rw [e2 spk]
  have : Datas.new.plus (shouldShow segs spk) = shouldShow segs spk := by simp [Datas.plus, Datas.new]
  simp [this]

/-- C15: in every report, whatever was counted before, reference words = correct + substitutions + speaker errors +
deletions, and the reported errors are substitutions + speaker errors + deletions + insertions. -/
theorem report_balances (systems : List (List Scored)) (m : Counters)
    (hm : m ∈ generate (fun _ => none) systems) (spk : Str) (d : Datas) (hd : m spk = some d) :
    d.refWords = d.correct + d.subs + d.spkErrs + d.dels ∧
      d.errors = d.subs + d.spkErrs + d.dels + d.ins ∧ d.segErrs ≤ d.segments := by
  let Bal : Counters → Prop := fun m => ∀ spk d, m spk = some d →
    d.refWords = d.correct + d.subs + d.spkErrs + d.dels ∧ d.segErrs ≤ d.segments
  have upd : ∀ (m : Counters) (s : Str) (f : Datas → Datas), Bal m →
      (∀ d : Datas, (d.refWords = d.correct + d.subs + d.spkErrs + d.dels ∧ d.segErrs ≤ d.segments) →
        ((f d).refWords = (f d).correct + (f d).subs + (f d).spkErrs + (f d).dels ∧
          (f d).segErrs ≤ (f d).segments)) → Bal (m.update s f) := by
    intro m s f hb hf spk d hd
    unfold Counters.update at hd
    split at hd
    · cases hms : m s with
      | none => rw [hms] at hd; cases hd
      | some d0 =>
        rw [hms] at hd
        injection hd with hd
        subst hd
        exact hf d0 (hb s d0 hms)
    · exact hb spk d hd
  have tch : ∀ (m : Counters) (s : Str), Bal m → Bal (m.touch s) := by
    intro m s hb spk d hd
    unfold Counters.touch at hd
    split at hd
    · injection hd with hd
      subst hd
      cases hms : m s with
      | none => exact ⟨rfl, Nat.le_refl _⟩
      | some d0 => exact hb s d0 hms
    · exact hb spk d hd
  have tok : ∀ (spk : Str) (rs : List (Option Verdict)) (m : Counters) (err : Bool), Bal m →
      Bal (tokenLoop spk m err rs).1 := by
    intro spk rs
    induction rs with
    | nil => intro m err h; exact h
    | cons r rs ih =>
      intro m err h
      cases r with
      | none => exact h
      | some v =>
        unfold tokenLoop
        apply ih
        apply upd m spk _ h
        intro d hd
        cases v <;> simp [Datas.add] <;> omega
  have cnt : ∀ (segs : List Scored) (m : Counters), Bal m → Bal (countSystem m segs).1 := by
    intro segs
    induction segs with
    | nil => intro m h; exact h
    | cons s ss ih =>
      intro m h
      unfold countSystem
      have ht := tok s.speaker s.results (m.touch s.speaker) false (tch m _ h)
      cases hl : tokenLoop s.speaker (m.touch s.speaker) false s.results with
      | mk m' o =>
        rw [hl] at ht
        cases o with
        | none => exact ht
        | some err =>
          simp only
          apply ih
          apply upd m' _ _ ht
          intro d hd
          simp only [Datas.addSegment]
          split <;> omega
  have gen : ∀ (systems : List (List Scored)) (m0 : Counters), Bal m0 →
      ∀ m ∈ generate m0 systems, Bal m := by
    intro systems
    induction systems with
    | nil => intro m0 _ m hm; cases hm
    | cons s ss ih =>
      intro m0 h0 m hm
      unfold generate at hm
      rcases List.mem_cons.1 hm with e | hm
      · rw [e]; exact cnt s m0 h0
      · exact ih _ (cnt s m0 h0) m hm
  have := gen systems _ (fun _ _ h => by cases h) m hm spk d hd
  refine ⟨this.1, ?_, this.2⟩
  unfold Datas.errors
  omega

/-- What every report really shows: the sums over that system and all systems reported before it. -/
theorem report_accumulates (systems : List (List Scored))
    (hav : ∀ segs ∈ systems, ∀ s ∈ segs, ∀ r ∈ s.results, r ≠ none) (i : Nat) (hi : i < systems.length) :
    ∃ m, (generate (fun _ => none) systems)[i]? = some m ∧
      ∀ spk, m spk = if ∃ s ∈ (systems.take (i + 1)).flatten, s.speaker = spk then
        some (shouldShow (systems.take (i + 1)).flatten spk) else none := by
  have ss_append : ∀ (a b : List Scored) (spk : Str),
      shouldShow (a ++ b) spk = (shouldShow a spk).plus (shouldShow b spk) := by
    intro a b spk
    simp [shouldShow, howMany, resultsOf, Datas.plus, List.filter_append]
    omega
  have gen : ∀ (systems : List (List Scored)) (m0 : Counters) (before : List Scored),
      (∀ segs ∈ systems, ∀ s ∈ segs, ∀ r ∈ s.results, r ≠ none) →
      (∀ spk, m0 spk = if ∃ s ∈ before, s.speaker = spk then some (shouldShow before spk) else none) →
      ∀ i < systems.length, ∃ m, (generate m0 systems)[i]? = some m ∧
        ∀ spk, m spk = if ∃ s ∈ before ++ (systems.take (i + 1)).flatten, s.speaker = spk then
          some (shouldShow (before ++ (systems.take (i + 1)).flatten) spk) else none := by
    intro systems
    induction systems with
    | nil => intro m0 before _ _ i hi; simp at hi
    | cons segs rest ih =>
      intro m0 before hav hm0 i hi
      obtain ⟨m1, e1, e2⟩ := countSystem_spec segs m0 (hav segs (by simp))
      have hm1 : ∀ spk, m1 spk = if ∃ s ∈ before ++ segs, s.speaker = spk then
          some (shouldShow (before ++ segs) spk) else none := by
        intro spk
        rw [e2 spk, hm0 spk, ss_append]
        by_cases hb : ∃ s ∈ before, s.speaker = spk
        · rw [if_pos hb, if_pos (Or.inl (Option.isSome_some)), if_pos]
          · rfl
          · obtain ⟨s, h1, h2⟩ := hb; exact ⟨s, by simp [h1], h2⟩
        · rw [if_neg hb]
          have hz : shouldShow before spk = Datas.new := by
            have : before.filter (fun s => s.speaker = spk) = [] := by
              rw [List.filter_eq_nil_iff]
              intro s hs; simp; exact fun e => hb ⟨s, hs, e⟩
            simp [shouldShow, howMany, resultsOf, this, Datas.new]
          rw [hz]
          have hiff : ((none : Option Datas).isSome = true ∨ ∃ s ∈ segs, s.speaker = spk) ↔
              ∃ s ∈ before ++ segs, s.speaker = spk := by
            constructor
            · rintro (h | ⟨s, h1, h2⟩)
              · cases h
              · exact ⟨s, by simp [h1], h2⟩
            · rintro ⟨s, h1, h2⟩
              rcases List.mem_append.1 h1 with h1 | h1
              · exact absurd ⟨s, h1, h2⟩ hb
              · exact Or.inr ⟨s, h1, h2⟩
          simp only [hiff, Option.getD_none]
      unfold generate
      rw [e1]
      cases i with
      | zero =>
        refine ⟨m1, rfl, ?_⟩
        intro spk
        have e : before ++ (List.take (0 + 1) (segs :: rest)).flatten = before ++ segs := by simp
        rw [e]; exact hm1 spk
      | succ i =>
        obtain ⟨m, g1, g2⟩ := ih m1 (before ++ segs) (fun x hx => hav x (by simp [hx])) hm1 i
          (by simpa using hi)
        refine ⟨m, by simpa using g1, ?_⟩
        intro spk
        have e : before ++ (List.take (i + 1 + 1) (segs :: rest)).flatten =
            before ++ segs ++ (List.take (i + 1) rest).flatten := by simp
        rw [e]; exact g2 spk
  have := gen systems (fun _ => none) [] hav (by intro spk; simp) i hi
  simpa using this

/-- C57 fails: with two systems the second report is not about the second system. -/
theorem second_report_wrong :
    ∃ (s1 s2 : List Scored) (m1 m2 : Counters) (spk : Str),
      generate (fun _ => none) [s1, s2] = [m1, m2] ∧ m2 spk ≠ some (shouldShow s2 spk) ∧
      ∃ s ∈ s2, s.speaker = spk := by
  refine ⟨[⟨['a'], [some .deletion]⟩], [⟨['a'], [some .correct]⟩], _, _, ['a'], rfl, ?_, ?_⟩
  · decide
  · exact ⟨⟨['a'], [some .correct]⟩, by simp, rfl⟩

example : (generate (fun _ => none) [[⟨['a'], [some .correct, some .insertion]⟩, ⟨['a'], [some .correct]⟩]]).map
    (fun m => m ['a']) = [some ⟨2, 2, 2, 0, 0, 0, 1, 1⟩] := by decide

/-! ### C58 -/

/-- C58: unless superfluous hypothesis words are forgiven, the reference words counted are the aligned pairs that
have a reference word.  Missing: the setting `hyp` (see `ref_words_wrong`). -/
theorem ref_words_partial (eqv : Str → Str → Bool) (opt : Str) (spkOpt : Bool) (m : SpkMap)
    (hopt : ¬ opt = "hyp".toList) (pairs : List (Option Tok × Option Tok))
    (hp : ∀ p ∈ pairs, p.1 ≠ none ∨ p.2 ≠ none) (spk : Str) :
    (shouldShow [⟨spk, pairs.map fun p => verdict eqv opt spkOpt m p.1 p.2⟩] spk).refWords =
      pairs.countP fun p => p.1.isSome := by
  have h2 : (optFlags opt).2 = false := by
    unfold optFlags
    by_cases h : "both".toList = opt ∨ "ref".toList = opt
    · rw [if_pos h]
    · rw [if_neg h, if_neg]
      rintro (e | e)
      · exact h (Or.inl e)
      · exact hopt e.symm
  simp only [shouldShow, howMany, resultsOf, List.filter_cons, List.filter_nil, decide_true, if_true,
    List.map_cons, List.map_nil, List.flatten_cons, List.flatten_nil, List.append_nil]
  induction pairs with
  | nil => rfl
  | cons p ps ih =>
    have ih' := ih (fun q hq => hp q (by simp [hq]))
    have hv : (verdict eqv opt spkOpt m p.1 p.2 = some .insertion ↔ p.1 = none) ∧
        verdict eqv opt spkOpt m p.1 p.2 ≠ none := by
      have := hp p (by simp)
      obtain ⟨r, h⟩ := p
      cases r with
      | none =>
        cases h with
        | none => simp at this
        | some h => simp [verdict, h2]
      | some r =>
        cases h with
        | none => simp only [verdict]; split <;> simp
        | some h =>
          simp only [verdict]
          split
          · split
            · split <;> simp
            · simp
          · simp
    simp only [List.map_cons, List.count_cons, List.countP_cons]
    cases hc : verdict eqv opt spkOpt m p.1 p.2 with
    | none => exact absurd hc hv.2
    | some v =>
      have hs : p.1.isSome = true ↔ v ≠ .insertion := by
        rw [hc] at hv
        have h3 := hv.1
        cases hp1 : p.1 with
        | none => rw [hp1] at h3; simpa using h3.2 rfl
        | some r =>
          rw [hp1] at h3
          simp only [Option.isSome_some, true_iff]
          intro e
          have := h3.1 (by rw [e])
          cases this
      cases v <;> simp [hs] <;> omega

example : (shouldShow [⟨['s'], [(some ⟨['a'], false, [], [], []⟩, none), (none, some ⟨['b'], true, [], [], []⟩)].map
    fun p => verdict (· == ·) "ref".toList false [] p.1 p.2⟩] ['s']).refWords = 1 := by decide

/-- C58 fails when superfluous optional hypothesis words are forgiven: each of them is counted as a reference
word. -/
theorem ref_words_wrong :
    ∃ pairs : List (Option Tok × Option Tok), (∀ p ∈ pairs, p.1 ≠ none ∨ p.2 ≠ none) ∧
      (shouldShow [⟨['s'], pairs.map fun p => verdict (· == ·) "hyp".toList false [] p.1 p.2⟩] ['s']).refWords ≠
        pairs.countP fun p => p.1.isSome :=
  ⟨[(none, some ⟨['b'], true, [], [], []⟩)], by simp, by decide⟩

end Verif.Scorer
