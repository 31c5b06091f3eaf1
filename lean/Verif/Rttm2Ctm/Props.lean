import Verif.Rttm2Ctm.Lemmas
/-!
# Properties of the conversion of RTTM files
-/
set_option autoImplicit false
namespace Verif.Rttm2Ctm
open Verif.TextVal

/-! ## C297: what is written -/

theorem lexeme_iff (k : String) (sub : List Char) :
    (k == "LEXEME" && sub == "lex".toList) = true ↔ k.toList = "LEXEME".toList ∧ sub = "lex".toList := by
  rw [Bool.and_eq_true, beq_iff_eq, beq_iff_eq, String.toList_inj]

theorem convert_record {l : List Char} {fs : List (List Char)} (hl : Layout fs l) (hr : Rttm fs) (hs : ¬ Contains ";;" l) (ls : List (List Char)) :
    convert (l :: ls) = (((ctm fs).map line).toList ++ (convert ls).1, (convert ls).2) := by
  obtain ⟨kind, file, chan, beg, dur, token, sub, spkr, conf, more, rfl, hk, hc, hb, hd, hsu, hf⟩ := hr
  obtain ⟨k, rfl, e⟩ := matchAt_record (file := file) (token := token) (spkr := spkr) (more := more) hk hc hb hd hsu hf
  have hs' : skipped l = false := by
    rw [← Bool.not_eq_true, skipped_iff]
    exact hs
  have e1 : convert (l :: ls) = (emit ⟨k, file, chan, beg, dur, token, sub, conf⟩ ++ (convert ls).1, (convert ls).2) := by
    rw [convert, hs', layout_words' hl, find_match e]
    rfl
  rw [e1]
  unfold emit ctm
  dsimp only
  by_cases h : k.toList = "LEXEME".toList ∧ sub = "lex".toList
  · rw [if_pos ((lexeme_iff _ _).2 h), if_pos h]
    simp [written, line]
  · rw [if_neg (fun h' => h ((lexeme_iff _ _).1 h')), if_neg h]
    rfl

/-- Of a file of comments and records the words are written, one line for each in the order of the file, with file, channel, begin, duration, token and
confidence as they are, and nothing else; no line may have two semicolons but a comment. -/
theorem converted_partial (file : List (List Char × Option (List (List Char)))) (h : ∀ p ∈ file, Entry p.1 p.2) :
    convert (file.map Prod.fst) = (file.filterMap (fun p => (p.2.bind ctm).map line), true) := by
  induction file with
  | nil => rfl
  | cons p file ih =>
    have ih' := ih (fun q hq => h q (List.mem_cons_of_mem _ hq))
    have hp := h p List.mem_cons_self
    obtain ⟨l, o⟩ := p
    rw [List.map_cons]
    cases o with
    | none =>
      obtain ⟨s, rfl⟩ : Comment l := hp
      have hs : skipped (';' :: ';' :: s) = true := (skipped_iff _).2 ⟨[], s, rfl⟩
      dsimp only
      rw [convert, hs, List.filterMap_cons_none rfl, ← ih']
      rfl
    | some fs =>
      obtain ⟨h1, h2, h3⟩ := hp
      dsimp only
      rw [convert_record h1 h2 h3, ih']
      cases hc : ctm fs with
      | none =>
        rw [List.filterMap_cons_none (by simp [hc])]
        rfl
      | some gs =>
        rw [List.filterMap_cons_some (b := line gs) (by simp [hc])]
        rfl

/-- A line written has the six fields when it is read. -/
theorem written_read (l : List Char) (fs gs : List (List Char)) (hl : Layout fs l) (hg : ctm fs = some gs) : Layout gs (line gs) ∧ gs.length = 6 := by
  have hf := layout_field hl
  unfold ctm at hg
  split at hg
  · split at hg
    · injection hg with hg
      subst hg
      refine ⟨line_layout _ (by simp) ?_, rfl⟩
      intro f hm
      apply hf
      simp only [List.mem_cons, List.not_mem_nil, or_false] at hm ⊢
      rcases hm with rfl | rfl | rfl | rfl | rfl | rfl <;> simp
    · cases hg
  · cases hg

/-- A word with two semicolons is lost. -/
theorem converted_counterexample : convert ["LEXEME f 1 0 1 a;;b lex s 0.5".toList] = ([], true) := by decide +kernel

example : convert (["LEXEME f 1 0 .5 a lex s <NA> <NA>", ";; x", "SPEAKER f 1 0 1 <NA> <NA> s 0.5", "LEXEME f 1 1 1 b fp s 1", "LEXEME f 1 2 1 c lex s 1"].map String.toList) =
    (["f 1 0 .5 a <NA>", "f 1 2 1 c 1"].map String.toList, true) := by decide +kernel

example : Entry "LEXEME f 1 0 .5 a lex s <NA>".toList (some (["LEXEME", "f", "1", "0", ".5", "a", "lex", "s", "<NA>"].map String.toList)) := by
  refine ⟨(layout_iff _ _).2 ⟨by decide +kernel, 'L', "EXEME f 1 0 .5 a lex s <NA>".toList, by decide +kernel, by decide⟩, ?_, ?_⟩
  · refine ⟨_, _, _, _, _, _, _, _, _, [], rfl, ⟨"LEXEME", by decide, rfl⟩, ?_, .inl ?_, .inr (.inl ⟨[], "5".toList, by decide +kernel, by simp, ?_⟩), .inl ?_, .inr (.inr rfl)⟩ <;>
      exact ⟨by decide +kernel, by decide +kernel⟩
  · rw [← skipped_iff]
    decide +kernel

/-! ## C298: lines that are not records -/

/-- The program ends at the first line that is neither skipped nor a record; what was written before stays, nothing is written after. -/
theorem stopped (file : List (List Char × Option (List (List Char)))) (h : ∀ p ∈ file, Entry p.1 p.2) (l : List Char) (ls : List (List Char))
    (hl : convert [l] = ([], false)) :
    convert (file.map Prod.fst ++ l :: ls) = (file.filterMap (fun p => (p.2.bind ctm).map line), false) := by
  induction file with
  | nil =>
    rw [List.map_nil, List.nil_append, List.filterMap_nil]
    rw [convert] at hl ⊢
    split
    · rename_i hs
      rw [if_pos hs] at hl
      cases hl
    · rename_i hs
      rw [if_neg hs] at hl
      split
      · rename_i r hr
        rw [hr] at hl
        have := congrArg Prod.snd hl
        cases this
      · rfl
  | cons p file ih =>
    have ih' := ih (fun q hq => h q (List.mem_cons_of_mem _ hq))
    have hp := h p List.mem_cons_self
    obtain ⟨l', o⟩ := p
    rw [List.map_cons, List.cons_append]
    cases o with
    | none =>
      obtain ⟨s, rfl⟩ : Comment l' := hp
      have hs : skipped (';' :: ';' :: s) = true := (skipped_iff _).2 ⟨[], s, rfl⟩
      dsimp only
      rw [convert, hs, List.filterMap_cons_none rfl, ← ih']
      rfl
    | some fs =>
      obtain ⟨h1, h2, h3⟩ := hp
      dsimp only
      rw [convert_record h1 h2 h3, ih']
      cases hc : ctm fs with
      | none =>
        rw [List.filterMap_cons_none (by simp [hc])]
        rfl
      | some gs =>
        rw [List.filterMap_cons_some (b := line gs) (by simp [hc])]
        rfl

theorem convert_one {l : List Char} (hs : ¬ Contains ";;" l) : (convert [l]).2 = true ↔ ∃ r, find (words [] l) = some r := by
  have hs' : skipped l = false := by
    rw [← Bool.not_eq_true, skipped_iff]
    exact hs
  rw [convert, hs']
  cases find (words [] l) with
  | none => simp
  | some r => simp [convert]

theorem matchAt_few {fs : List (List Char)} (h : fs.length < 9) : matchAt fs = none := by
  unfold matchAt
  split
  · simp at h
    omega
  · rfl

theorem find_few {fs : List (List Char)} (h : fs.length < 9) : find fs = none := by
  induction fs with
  | nil => rfl
  | cons f fs ih =>
    unfold find
    rw [matchAt_few h, ih (by rw [List.length_cons] at h; omega)]

theorem convert_stop {l : List Char} (h : ¬ (convert [l]).2 = true) : convert [l] = ([], false) := by
  rw [convert] at h ⊢
  split at h
  · exact absurd rfl h
  · rename_i hs
    rw [if_neg hs]
    cases hf : find (words [] l) with
    | none => rfl
    | some r =>
      rw [hf] at h
      exact absurd rfl h

/-- A line with fewer than nine fields ends the program. -/
theorem few_fields (l : List Char) (fs : List (List Char)) (hl : Layout fs l) (hs : ¬ Contains ";;" l) (h : fs.length < 9) :
    convert [l] = ([], false) := by
  apply convert_stop
  rw [convert_one hs, layout_words' hl, find_few h]
  rintro ⟨r, hr⟩
  cases hr

/-- A line of nine fields is taken exactly if the channel, the times and the subtype are as expected, the first field ends with a type and the last
begins with a number or `<NA>`; otherwise the program ends. -/
theorem nine_fields_partial (l f file chan beg dur token sub spkr conf : List Char)
    (hl : Layout [f, file, chan, beg, dur, token, sub, spkr, conf] l) (hs : ¬ Contains ";;" l) :
    convert [l] ≠ ([], false) ↔
      (∃ u k, Kind k ∧ f = u ++ k) ∧ Some Char.isDigit chan ∧ Time beg ∧ Time dur ∧ Subtype sub ∧ ∃ w u, conf = w ++ u ∧ Time w := by
  have e : convert [l] ≠ ([], false) ↔ (convert [l]).2 = true := by
    constructor
    · intro h
      exact Classical.byContradiction (fun h' => h (convert_stop h'))
    · intro h e
      rw [e] at h
      cases h
  rw [e, convert_one hs, layout_words' hl, ← matchAt_iff f file chan beg dur token sub spkr conf []]
  unfold find
  cases matchAt [f, file, chan, beg, dur, token, sub, spkr, conf] with
  | some r => simp
  | none =>
    dsimp only
    rw [find_few (by simp)]

/-- What is before the type and after the confidence is not looked at: records of unknown types are taken, confidences are cut. -/
theorem record_counterexample :
    convert (["XLEXEME f 1 0 1 a lex s 1e-5", "x y LEXEME f 1 0 1 a lex s 0.9.9%"].map String.toList) =
      (["f 1 0 1 a 1", "f 1 0 1 a 0.9"].map String.toList, true) := by decide +kernel

example : convert (["LEXEME f 1 0 1 a lex s 1", "LEXEME f A 0 1 a lex s 1", "LEXEME f 1 0 1 a lex s 1"].map String.toList) =
    (["f 1 0 1 a 1"].map String.toList, false) := by decide +kernel

/-! ## C299: the CTM file written and its validator -/

theorem digit_star {s : List Char} (h : Time s) : s ≠ ['*'] := by
  rintro rfl
  rcases h with h | ⟨a, b, e, _, _⟩ | h
  · exact absurd (h.2 '*' (by simp)) (by decide)
  · have : '.' ∈ ['*'] := by
      rw [e]
      simp
    exact absurd this (by decide)
  · exact absurd h (by decide)

/-- The CTM record of a word is as the validator of CTM files expects exactly if the name of the file has letters, digits, hyphens and underscores only,
the times and the confidence are numbers with a digit before the point, and the token is a word. -/
theorem record_valid (language : String) (fs : List (List Char)) (hr : Rttm fs) (file chan beg dur token conf : List Char)
    (hc : ctm fs = some [file, chan, beg, dur, token, conf]) :
    Record language [file, chan, beg, dur, token, conf] ↔
      Ident file ∧ Number beg ∧ Number dur ∧ Number conf ∧ ¬ AltTag token ∧ (language = "english" → EnglishToken token) := by
  obtain ⟨kind, file', chan', beg', dur', token', sub, spkr, conf', more, rfl, hk, hch, hb, hd, hsu, hf⟩ := hr
  unfold ctm at hc
  dsimp only at hc
  split at hc
  · simp only [Option.some.injEq, List.cons.injEq, and_true] at hc
    obtain ⟨rfl, rfl, rfl, rfl, rfl, rfl⟩ := hc
    constructor
    · rintro ⟨source, channel, b, d, t, m, e, _, h1, _, h3, h4, h5, _⟩
      simp only [List.cons.injEq] at e
      obtain ⟨rfl, rfl, rfl, rfl, rfl, rfl⟩ := e
      have ht : ¬ AltTag token' := fun ha => digit_star hb (h3 ha).1
      obtain ⟨h6, h7, h8⟩ := h4 ht
      exact ⟨h1, h6, h7, h5 conf' rfl, ht, fun hl => h8 hl (by simp)⟩
    · rintro ⟨h1, h2, h3, h4, h5, h6⟩
      refine ⟨_, _, _, _, _, _, rfl, by simp, h1, .inl hch, fun ha => absurd ha h5, fun _ => ⟨h2, h3, fun hl _ => h6 hl⟩, ?_, by simp, by simp⟩
      intro x hx
      simp at hx
      exact hx ▸ h4
  · cases hc

/-- The CTM file written is validated exactly if the CTM record of every word is as expected. -/
theorem output_validated (language : String) (file : List (List Char × Option (List (List Char)))) (h : ∀ p ∈ file, Entry p.1 p.2) :
    (ctmValid language (convert (file.map Prod.fst)).1).2 = true ↔ ∀ p ∈ file, ∀ gs, p.2.bind ctm = some gs → Record language gs := by
  rw [ctm_validated, converted_partial file h]
  constructor
  · intro hv p hp gs hg
    rcases hv (line gs) (List.mem_filterMap.2 ⟨p, hp, by rw [hg]; rfl⟩) with hcm | ⟨fs', h1, h2⟩
    · exfalso
      obtain ⟨l, o⟩ := p
      cases o with
      | none => cases hg
      | some fs =>
        obtain ⟨hl, _, hs⟩ := h _ hp
        apply hs
        have hg' : ctm fs = some gs := hg
        unfold ctm at hg'
        split at hg'
        · rename_i f chan beg dur token sub x conf y z
          split at hg'
          · injection hg' with hg'
            subst hg'
            obtain ⟨s, e⟩ := hcm
            obtain ⟨a, b, e2⟩ := layout_within hl f (by simp)
            have hf := layout_field hl f (by simp)
            have e' : f ++ ' ' :: line [chan, beg, dur, token, conf] = ';' :: ';' :: s := e
            match f, hf, e', e2 with
            | [], hf, _, _ => exact absurd rfl hf.1
            | [c], _, e', _ =>
              simp at e'
            | c :: d :: f', _, e', e2 =>
              simp only [List.cons_append, List.cons.injEq] at e'
              obtain ⟨rfl, rfl, _⟩ := e'
              exact ⟨a, f' ++ b, by rw [e2]; simp⟩
          · cases hg'
        · cases hg'
    · obtain ⟨l, o⟩ := p
      cases o with
      | none => cases hg
      | some fs =>
        obtain ⟨hl, _, _⟩ := h _ hp
        have := (written_read l fs gs hl hg).1
        rw [layout_unique this h1]
        exact h2
  · intro hv l hl
    obtain ⟨p, hp, e⟩ := List.mem_filterMap.1 hl
    obtain ⟨gs, hg, rfl⟩ := Option.map_eq_some_iff.1 e
    obtain ⟨l, o⟩ := p
    cases o with
    | none => cases hg
    | some fs =>
      obtain ⟨hl, _, _⟩ := h _ hp
      exact .inr ⟨gs, (written_read l fs gs hl hg).1, hv _ hp gs hg⟩

/-- Records without confidence, or with a time that begins with the point, make CTM files the validator rejects. -/
theorem output_counterexample :
    (ctmValid "english" (convert ["LEXEME f 1 0.5 1 a lex s <NA>".toList]).1).2 = false ∧
      (ctmValid "english" (convert ["LEXEME f 1 .5 1 a lex s 1".toList]).1).2 = false ∧
      (ctmValid "english" (convert ["LEXEME f 1 0.5 1 a lex s 1".toList]).1).2 = true := by decide +kernel

end Verif.Rttm2Ctm
