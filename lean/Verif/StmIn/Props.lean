import Verif.StmIn.Ids
import Verif.StmIn.Cats
import Verif.CtmIn.Props
/-!
# Properties of reading STM and TRN files
-/
set_option autoImplicit false
namespace Verif.StmIn
open Verif.CtmIn (Blank Fields scan Out bytes secs fields_words wordsFrom wordsFrom_fields)
open Verif.Rfilter (strstr)

/-! ## Helpers for the examples -/

/-- Fields with one blank in front of each. -/
def spread (fs : List (List Nat)) (rest : List Nat) : List Nat := fs.foldr (fun f acc => 32 :: (f ++ acc)) rest

/-- A field without blanks. -/
def Solid (t : List Nat) : Prop := t ≠ [] ∧ ∀ b ∈ t, ¬ (b = 32 ∨ (9 ≤ b ∧ b ≤ 13))

instance (t : List Nat) : Decidable (Solid t) := inferInstanceAs (Decidable (_ ∧ _))

theorem spread_head (fs : List (List Nat)) {rest : List Nat} (hr : ∀ b, rest.head? = some b → Blank b) :
    ∀ b, (spread fs rest).head? = some b → Blank b := by
  cases fs with
  | nil => exact hr
  | cons f fs =>
    intro b hb
    cases hb
    exact .inl rfl

theorem lead_spread' {fs : List (List Nat)} {rest : List Nat} (h : ∀ t ∈ fs, Solid t) (hr : ∀ b, rest.head? = some b → Blank b) :
    Lead fs (spread fs rest) rest := by
  induction fs with
  | nil => exact .nil rest
  | cons g fs ih =>
    exact Lead.cons [32] g (spread fs rest) fs rest (by simp [Blank]) (h g (by simp)).1 (h g (by simp)).2 (spread_head fs hr)
      (ih (fun t ht => h t (by simp [ht])))

theorem lead_spread {f : List Nat} {fs : List (List Nat)} {rest : List Nat} (h : ∀ t ∈ f :: fs, Solid t) (hr : ∀ b, rest.head? = some b → Blank b) :
    Lead (f :: fs) (f ++ spread fs rest) rest :=
  Lead.cons [] f (spread fs rest) fs rest (by simp) (h f (by simp)).1 (h f (by simp)).2 (spread_head fs hr)
    (lead_spread' (fun t ht => h t (by simp [ht])) hr)

theorem not_has {w l : List Nat} (hw : w ≠ []) (h : strstr w l = none) : ¬ Has w l := (strstr_none_iff hw).1 h

theorem textOf_some {t : List Nat} (h : strstr ignoreMark (lower t) = none) : TextOf t (some t) :=
  .inr ⟨fun hm => (by rw [← marked_iff, h] at hm; cases hm), rfl⟩

theorem textOf_none {t : List Nat} (h : (strstr ignoreMark (lower t)).isSome = true) : TextOf t none := .inl ⟨(marked_iff t).1 h, rfl⟩

example : gapName = bytes "inter_segment_gap" ∧ ignoreMark = bytes "ignore_time_segment_in_scoring" ∧ kwCategory = bytes "CATEGORY" ∧
    kwLabel = bytes "LABEL" := by decide

/-- `f 1 Anna 3 10 so it is` -/
theorem ex_plain : Says secs (bytes "f 1 Anna 3 10 so it is")
    ⟨bytes "f", bytes "1", bytes "Anna", 3000, 10000, [], some (bytes " so it is")⟩ := by
  refine Says.plain _ (bytes "f") (bytes "1") (bytes "Anna") (bytes "3") (bytes "10") (bytes " so it is") [bytes "so", bytes "it", bytes "is"] _
    (lead_spread (f := bytes "f") (fs := [bytes "1", bytes "Anna", bytes "3", bytes "10"]) (rest := bytes " so it is") (by decide)
      (by intro b hb; cases hb; exact .inl rfl)) ?_ (by decide) (by decide) (by decide) (by decide) ?_ (textOf_some (by decide))
  · exact fields_words (bytes " so it is") [] (by simp)
  · exact .inl ⟨not_has (by decide) (by decide), not_has (by decide) (by decide), not_has (by decide) (by decide), not_has (by decide) (by decide)⟩

/-- `f 1 Bert 4 5 <o,f0> yes <unk>` -/
theorem ex_labelled : Says secs (bytes "f 1 Bert 4 5 <o,f0> yes <unk>")
    ⟨bytes "f", bytes "1", bytes "Bert", 4000, 5000, bytes "<o,f0>", some (bytes " yes <unk>")⟩ := by
  refine Says.labelled _ (bytes "f") (bytes "1") (bytes "Bert") (bytes "4") (bytes "5") [32] (bytes "o,f0") (bytes " yes <unk>")
    [bytes "<o,f0>", bytes "yes", bytes "<unk>"] _
    (lead_spread (f := bytes "f") (fs := [bytes "1", bytes "Bert", bytes "4", bytes "5"]) (rest := bytes " <o,f0> yes <unk>") (by decide)
      (by intro b hb; cases hb; exact .inl rfl)) (by simp [Blank]) (by decide) (by decide) ?_ (by decide) (by decide) (by decide) (textOf_some (by decide))
  exact fields_words (bytes "<o,f0> yes <unk>") [] (by simp)

/-- `f 1 Anna 10 12 IGNORE_TIME_SEGMENT_IN_SCORING` -/
theorem ex_excluded : Says secs (bytes "f 1 Anna 10 12 IGNORE_TIME_SEGMENT_IN_SCORING")
    ⟨bytes "f", bytes "1", bytes "Anna", 10000, 12000, [], none⟩ := by
  refine Says.plain _ (bytes "f") (bytes "1") (bytes "Anna") (bytes "10") (bytes "12") (bytes " IGNORE_TIME_SEGMENT_IN_SCORING")
    [bytes "IGNORE_TIME_SEGMENT_IN_SCORING"] _
    (lead_spread (f := bytes "f") (fs := [bytes "1", bytes "Anna", bytes "10", bytes "12"]) (rest := bytes " IGNORE_TIME_SEGMENT_IN_SCORING") (by decide)
      (by intro b hb; cases hb; exact .inl rfl)) ?_ (by decide) (by decide) (by decide) (by decide) ?_ (textOf_none (by decide +kernel))
  · exact fields_words (bytes " IGNORE_TIME_SEGMENT_IN_SCORING") [] (by simp)
  · exact .inl ⟨not_has (by decide) (by decide), not_has (by decide) (by decide), not_has (by decide) (by decide), not_has (by decide) (by decide)⟩

theorem settled_of {junk k : List Nat} (h : (lower k).isPrefixOf gapName = false) : Settled junk k :=
  settled_iff.2 (.inr (fun hp => by rw [List.isPrefixOf_iff_prefix.2 hp] at h; cases h))

theorem named_of {r : Raw} (h : (lower r.spkr).isPrefixOf gapName = false) : Named r r :=
  .inr ⟨fun hc => (by
    rw [(inCase_iff gapName_low).1 hc] at h
    exact absurd h (by decide)), rfl⟩

/-- A file. -/
def exFile : List (List Nat) :=
  [bytes ";; LABEL \"o\" \"Overall\" \"All-of-it\"", bytes "f 1 Bert 4 5 <o,f0> yes <unk>", bytes ";; a remark", bytes "f 1 Anna 3 10 so it is",
    bytes "f 1 Anna 10 12 IGNORE_TIME_SEGMENT_IN_SCORING", bytes "f 1 Anna 3 10 so it is"]

def exAnna : Raw := ⟨bytes "f", bytes "1", bytes "Anna", 3000, 10000, [], some (bytes " so it is")⟩
def exBert : Raw := ⟨bytes "f", bytes "1", bytes "Bert", 4000, 5000, bytes "<o,f0>", some (bytes " yes <unk>")⟩
def exSkip : Raw := ⟨bytes "f", bytes "1", bytes "Anna", 10000, 12000, [], none⟩

/-- What the file says, whatever the memory holds. -/
theorem ex_file (junk : Nat → List Nat) : FileSays secs junk 0 exFile [(1, exBert), (3, exAnna), (4, exSkip), (5, exAnna)] :=
  .comment _ _ _ _ (by decide) (.line 1 _ exBert exBert _ _ ex_labelled (settled_of (by decide)) (named_of (by decide)) (.comment _ _ _ _ (by decide)
    (.line 3 _ exAnna exAnna _ _ ex_plain (settled_of (by decide)) (named_of (by decide)) (.line 4 _ exSkip exSkip _ _ ex_excluded (settled_of (by decide)) (named_of (by decide))
      (.line 5 _ exAnna exAnna _ _ ex_plain (settled_of (by decide)) (named_of (by decide)) (.nil 6))))))

/-! ## C102: a line of an STM file -/

/-- **C102** (partial).  A line `file channel speaker start end [<label>] transcript` is read as the segment with exactly these parts;
the speaker's name in lower case when it is the name of gaps between segments.  *Missing:* lines whose times do not stand apart from the
other fields, lines without label whose transcript has a `<`, and speakers whose name is a beginning of the name of the gaps unless the
memory behind a copy of the name happens to hold a NUL; for these the code does something else, see below. -/
theorem stm_line_partial (ms : List Nat → Int) (junk line : List Nat) (r r' : Raw) (h : Says ms line r) (hj : Settled junk r.spkr)
    (hn : Named r r') : raw ms junk line = .ok r' := raw_says h hj hn

example : raw secs [] (bytes "f 1 Bert 4 5 <o,f0> yes <unk>") = .ok exBert :=
  stm_line_partial secs [] _ _ _ ex_labelled (settled_of (by decide)) (named_of (by decide))

example : Says secs (bytes "f 1 Anna 3 10 so it is") exAnna ∧ Settled [1, 2, 3] exAnna.spkr := ⟨ex_plain, settled_of (by decide)⟩

/-- The text of the end time within the start time: a part of the start time is scored as a word. -/
theorem end_in_start : (match raw (fun _ => 0) [] (bytes "f c anna 1.25 25 w") with
    | .ok r => r.text
    | _ => none) = some (bytes " 25 w") := by decide

/-- The digits of the times in the names before: parts of the names and the times are scored as words. -/
theorem time_in_names : (match raw (fun _ => 0) [] (bytes "f3 c anna33 3 3 w") with
    | .ok r => r.text
    | _ => none) = some (bytes "3 3 3 w") := by decide

/-- Without a label, a first word in angle brackets is taken for one and lost. -/
theorem word_as_label : (match raw (fun _ => 0) [] (bytes "f c anna 3 4 <unk> w") with
    | .ok r => (r.label, r.text)
    | _ => ([], none)) = (bytes "<unk>", some (bytes " w")) := by decide

/-- A word in angle brackets anywhere becomes the label of the segment. -/
theorem word_sets_label : (match raw (fun _ => 0) [] (bytes "f c anna 3 4 w <unk>") with
    | .ok r => (r.label, r.text)
    | _ => ([], none)) = (bytes "<unk>", some (bytes " w <unk>")) := by decide

/-- A label that is not closed: all the fields are scored as words. -/
theorem open_label : (match raw (fun _ => 0) [] (bytes "f c anna 3 4 <o w") with
    | .ok r => (r.label, r.text)
    | _ => ([], none)) = (bytes "<o w", some (bytes "f c anna 3 4 <o w")) := by decide

/-- Whether the name of the gaps is recognised depends on what the memory holds. -/
theorem gap_name_memory : (match raw (fun _ => 0) [0] (bytes "f c Inter_Segment_Gap 3 4 w") with
    | .ok r => r.spkr
    | _ => []) = gapName ∧ (match raw (fun _ => 0) [1, 0] (bytes "f c Inter_Segment_Gap 3 4 w") with
    | .ok r => r.spkr
    | _ => []) = bytes "Inter_Segment_Gap" ∧ (match raw (fun _ => 0) (bytes "_segment_gap" ++ [0]) (bytes "f c Inter 3 4 w") with
    | .ok r => r.spkr
    | _ => []) = bytes "inter" := by decide +kernel

/-- Fewer than five fields, for instance in a blank line: variables are used that have not been set. -/
theorem short_line (ms : List Nat → Int) (junk line : List Nat) (fs : List (List Nat)) (h : Fields line fs) (hl : fs.length < 5) (h0 : 0 ∉ line) :
    raw ms junk line = .undef := by
  have hs : scan line = fs.take 6 := by rw [scan, Verif.Lines.cstr_eq (fun c hc e => h0 (e ▸ hc)), wordsFrom_fields h]
  rw [List.take_of_length_le (by omega)] at hs
  rw [raw]
  split
  · rfl
  · rw [hs]
    match fs, hl with
    | [], _ => rfl
    | [_], _ => rfl
    | [_, _], _ => rfl
    | [_, _, _], _ => rfl
    | [_, _, _, _], _ => rfl
    | _ :: _ :: _ :: _ :: _ :: _, hl => simp only [List.length_cons] at hl; omega

example : Fields (bytes "  ") [] ∧ Fields (bytes "f 1 anna 3") [bytes "f", bytes "1", bytes "anna", bytes "3"] :=
  ⟨fields_words (bytes "  ") [] (by simp), fields_words (bytes "f 1 anna 3") [] (by simp)⟩

/-! ## C103: the segments of a file -/

theorem load_of {w : Nat} {ms : List Nat → Int} {junk : Nat → List Nat} {lines : List (List Nat)} {rs : List (Nat × Raw)}
    (h : FileSays ms junk 0 lines rs) : ∃ st n, run w ms junk st0 lines = .ok st ∧ Inv w n rs st ∧
      load w ms junk lines = if rs = [] then .fatal else .ok (st.res, st.cats) := by
  obtain ⟨st, h1, n, h2⟩ := run_says (w := w) h (inv_start w)
  rw [List.nil_append] at h2
  refine ⟨st, n, h1, h2, ?_⟩
  rw [load, h1]
  show (if st.res = [] then _ else _) = _
  by_cases hr : rs = []
  · subst hr
    rw [if_pos rfl, if_pos]
    cases hres : st.res with
    | nil => rfl
    | cons p m =>
      obtain ⟨x, hx, _⟩ := (h2.keys p.1).1 (by rw [hres]; simp)
      cases hx
  · rw [if_neg hr, if_neg]
    intro hres
    obtain ⟨x, hx⟩ := List.exists_mem_of_ne_nil rs hr
    have := (h2.keys x.2.spkr).2 ⟨x, hx, rfl⟩
    rw [hres] at this
    cases this

theorem filed_of {w n : Nat} {rs : List (Nat × Raw)} {st : St} (h : Inv w n rs st) : Filed rs st.res :=
  ⟨h.sorted, h.keys, fun k xs hm => by rw [← h.segs k, under_mem h.sorted hm]⟩

/-- **C103** (partial).  An STM file is read into one speech for every speaker, in the order of their names; each has the segments of its
speaker in the order of the file, with the numbers of their lines and, as element number, the number of scored segments of the whole
file up to it, counted from zero.  *Missing:* the lines left out in `stm_line_partial`. -/
theorem stm_file_partial (w : Nat) (ms : List Nat → Int) (junk : Nat → List Nat) (lines : List (List Nat)) (rs : List (Nat × Raw))
    (h : FileSays ms junk 0 lines rs) (hne : rs ≠ []) : ∃ speeches cats, load w ms junk lines = .ok (speeches, cats) ∧ Filed rs speeches ∧
      ∀ k segs, (k, segs) ∈ speeches → ∀ s ∈ segs, s.elem = (rs.countP (fun x => x.1 ≤ s.line ∧ x.2.text.isSome) : Int) - 1 := by
  obtain ⟨st, n, _, hi, hl⟩ := load_of (w := w) h
  rw [if_neg hne] at hl
  exact ⟨_, _, hl, filed_of hi, fun k segs hm s hs => hi.elem k s (by rw [under_mem hi.sorted hm]; exact hs)⟩

example (w : Nat) (junk : Nat → List Nat) : ∃ speeches cats, load w secs junk exFile = .ok (speeches, cats) ∧
    Filed [(1, exBert), (3, exAnna), (4, exSkip), (5, exAnna)] speeches :=
  let ⟨a, b, h1, h2, _⟩ := stm_file_partial w secs junk exFile _ (ex_file junk) (by decide)
  ⟨a, b, h1, h2⟩

/-- A file of comments only is refused. -/
theorem stm_no_data (w : Nat) (ms : List Nat → Int) (junk : Nat → List Nat) (lines : List (List Nat)) (h : FileSays ms junk 0 lines []) :
    load w ms junk lines = .fatal := by
  obtain ⟨st, n, _, hi, hl⟩ := load_of (w := w) h
  rw [hl, if_pos rfl]

example : FileSays secs (fun _ => []) 0 [bytes ";; nothing"] [] := .comment _ _ _ _ (by decide) (.nil 1)

/-! ## C104: identifiers -/

theorem under_len {w n : Nat} {rs : List (Nat × Raw)} {st : St} (h : Inv w n rs st) (k : List Nat) : (under k st.res).length ≤ rs.length := by
  have := congrArg List.length (h.segs k)
  rw [List.length_map] at this
  rw [this]
  exact List.length_filter_le _ _

/-- **C104**.  Scored segments have identifiers `(speaker-number)`, where the number counts the scored segments of the speaker from
zero; no two scored segments of a file have the same identifier, whatever the names are. -/
theorem stm_ids (w : Nat) (ms : List Nat → Int) (junk : Nat → List Nat) (lines : List (List Nat)) (rs : List (Nat × Raw))
    (h : FileSays ms junk 0 lines rs) (hw : rs.length < 2 ^ w) (speeches : List (List Nat × List Seg)) (cats : List Cat)
    (hl : load w ms junk lines = .ok (speeches, cats)) :
    (((speeches.flatMap Prod.snd).filter (fun s => s.raw.text.isSome)).map idText).Nodup ∧
      ∀ k segs, (k, segs) ∈ speeches → ∀ a s b, segs = a ++ (s :: b) → s.raw.text.isSome → s.num = scored a := by
  obtain ⟨st, n, _, hi, hl'⟩ := load_of (w := w) h
  rw [hl] at hl'
  by_cases hne : rs = []
  · rw [if_pos hne] at hl'
    cases hl'
  rw [if_neg hne] at hl'
  cases hl'
  have hlen : ∀ k segs, (k, segs) ∈ st.res → segs.length < 2 ^ w := fun k segs hm => by
    have := under_len hi k
    rw [under_mem hi.sorted hm] at this
    omega
  have hnum : ∀ k segs, (k, segs) ∈ st.res → ∀ a s b, segs = a ++ (s :: b) → s.num = numOf w a s.raw := fun k segs hm a s b he =>
    hi.num k a s b (by rw [under_mem hi.sorted hm]; exact he)
  refine ⟨ids_nodup hi.sorted ?_ (fun k xs hm => (nums_ascend (hlen k xs hm) (hnum k xs hm)).1), ?_⟩
  · intro k xs hm s hs
    have : (s.line, s.raw) ∈ rs.filter (fun x => x.2.spkr = k) := by
      rw [← hi.segs k, under_mem hi.sorted hm]
      exact List.mem_map.2 ⟨s, hs, rfl⟩
    simpa using (List.mem_filter.1 this).2
  · intro k segs hm a s b he hs
    rw [hnum k segs hm a s b he, numOf, if_neg (by intro hx; rw [hx] at hs; cases hs), Nat.sub_zero, Nat.add_mod_right]
    refine Nat.mod_eq_of_lt ?_
    have := hlen k segs hm
    have h2 := scored_le a
    rw [he, List.length_append] at this
    omega

/-- A segment that is not scored has the identifier of the last scored segment of its speaker before it; without such a segment the number
is the largest that `size_t` holds. -/
theorem stm_excluded_ids (w : Nat) (ms : List Nat → Int) (junk : Nat → List Nat) (lines : List (List Nat)) (rs : List (Nat × Raw))
    (h : FileSays ms junk 0 lines rs) (hw : rs.length < 2 ^ w) (speeches : List (List Nat × List Seg)) (cats : List Cat)
    (hl : load w ms junk lines = .ok (speeches, cats)) (k : List Nat) (segs : List Seg) (hm : (k, segs) ∈ speeches) (a b : List Seg) (s : Seg)
    (he : segs = a ++ (s :: b)) (hs : s.raw.text = none) :
    (∀ t, (a.filter (fun t => t.raw.text.isSome)).getLast? = some t → idText s = idText t) ∧ (scored a = 0 → s.num = 2 ^ w - 1) := by
  obtain ⟨st, n, _, hi, hl'⟩ := load_of (w := w) h
  rw [hl] at hl'
  by_cases hne : rs = []
  · rw [if_pos hne] at hl'
    cases hl'
  rw [if_neg hne] at hl'
  cases hl'
  have hlen : segs.length < 2 ^ w := by
    have := under_len hi k
    rw [under_mem hi.sorted hm] at this
    omega
  have hnum : s.num = numOf w a s.raw := hi.num k a s b (by rw [under_mem hi.sorted hm]; exact he)
  rw [numOf, if_pos hs] at hnum
  have hk : ∀ s ∈ segs, s.raw.spkr = k := by
    intro s hs
    have : (s.line, s.raw) ∈ rs.filter (fun x => x.2.spkr = k) := by
      rw [← hi.segs k, under_mem hi.sorted hm]
      exact List.mem_map.2 ⟨s, hs, rfl⟩
    simpa using (List.mem_filter.1 this).2
  have hal : scored a < 2 ^ w := by
    have h2 := scored_le a
    rw [he, List.length_append] at hlen
    omega
  refine ⟨fun t ht => ?_, fun h0 => ?_⟩
  · -- the last scored segment before
    obtain ⟨pre, hpre⟩ : ∃ pre, a.filter (fun t => t.raw.text.isSome) = pre ++ [t] := by
      refine ⟨(a.filter (fun t => t.raw.text.isSome)).dropLast, ?_⟩
      have hn : a.filter (fun t => t.raw.text.isSome) ≠ [] := by intro e; rw [e] at ht; cases ht
      rw [List.getLast?_eq_some_getLast hn] at ht
      cases ht
      exact (List.dropLast_concat_getLast hn).symm
    obtain ⟨a1, a2, ha, h1, h2⟩ := List.filter_eq_append_iff.1 hpre
    obtain ⟨c1, c2, hc, h3, h4, h5⟩ := List.filter_eq_cons_iff.1 h2
    have hta : scored a = pre.length + 1 := by
      rw [scored, List.countP_eq_length_filter, hpre, List.length_append]
      rfl
    have htn : t.num = pre.length := by
      have := hi.num k (a1 ++ c1) t (c2 ++ (s :: b)) (by rw [under_mem hi.sorted hm, he, ha, hc]; simp)
      rw [numOf, if_neg (by intro hx; rw [hx] at h4; cases h4), Nat.sub_zero, Nat.add_mod_right] at this
      have hsc : scored (a1 ++ c1) = pre.length := by
        rw [scored, List.countP_eq_length_filter, List.filter_append, h1, List.filter_eq_nil_iff.2 (fun x hx => h3 x hx)]
        simp
      rw [this, hsc]
      exact Nat.mod_eq_of_lt (by omega)
    have hsn : s.num = pre.length := by
      rw [hnum, hta, show pre.length + 1 + 2 ^ w - 1 = pre.length + 2 ^ w by omega, Nat.add_mod_right]
      exact Nat.mod_eq_of_lt (by omega)
    have e1 : s.raw.spkr = k := hk s (by rw [he]; simp)
    have e2 : t.raw.spkr = k := hk t (by rw [he, ha, hc]; simp)
    rw [idText, idText, e1, e2, hsn, htn]
  · rw [hnum, h0, Nat.zero_add]
    exact Nat.mod_eq_of_lt (by have := Nat.one_le_two_pow (n := w); omega)

/-- In the example file the identifiers are `(Bert-000)`, `(Anna-000)`, again `(Anna-000)` for the segment that is not scored, and
`(Anna-001)`. -/
example : (match load 64 secs (fun _ => []) exFile with
    | .ok (sp, _) => sp.map (fun p => p.2.map idText)
    | _ => []) = [[bytes "(Anna-000)", bytes "(Anna-000)", bytes "(Anna-001)"], [bytes "(Bert-000)"]] := by decide +kernel

/-! ## C105: the chain of segments -/

theorem mem_zip_tail {α : Type} (p q : α) (l : List α) : (p, q) ∈ l.zip l.tail ↔ ∃ u v, l = u ++ (p :: q :: v) := by
  induction l with
  | nil => simp
  | cons a l ih =>
    cases l with
    | nil =>
      constructor
      · intro h; cases h
      · rintro ⟨u, v, h⟩
        have := congrArg List.length h
        simp only [List.length_append, List.length_cons, List.length_nil] at this
        omega
    | cons b l =>
      rw [List.tail_cons, List.zip_cons_cons, List.mem_cons, show (b :: l).zip l = (b :: l).zip (b :: l).tail from rfl, ih]
      constructor
      · rintro (h | ⟨u, v, h⟩)
        · cases h
          exact ⟨[], l, rfl⟩
        · exact ⟨a :: u, v, by rw [h]; rfl⟩
      · rintro ⟨u, v, h⟩
        cases u with
        | nil =>
          simp only [List.nil_append, List.cons.injEq] at h
          exact .inl (by rw [h.1, h.2.1])
        | cons c u =>
          simp only [List.cons_append, List.cons.injEq] at h
          exact .inr ⟨u, v, h.2⟩

/-- **C105**.  In the speech of a speaker, segments are attached to each other in a chain: exactly those between which there are only
segments without tokens, in the order of the speech. -/
theorem stm_attach {α : Type} (full : α → Bool) (segs : List α) :
    attach full none segs = (segs.filter full).zip (segs.filter full).tail ∧ ∀ p q, (p, q) ∈ attach full none segs ↔
      ∃ x y z, segs = x ++ (p :: (y ++ (q :: z))) ∧ full p = true ∧ full q = true ∧ ∀ t ∈ y, full t = false := by
  refine ⟨attach_none full segs, fun p q => ?_⟩
  rw [attach_none, mem_zip_tail]
  constructor
  · rintro ⟨u, v, h⟩
    obtain ⟨a1, a2, ha, _, h2⟩ := List.filter_eq_append_iff.1 h
    obtain ⟨c1, c2, hc, _, h4, h5⟩ := List.filter_eq_cons_iff.1 h2
    obtain ⟨d1, d2, hd, h6, h7, _⟩ := List.filter_eq_cons_iff.1 h5
    exact ⟨a1 ++ c1, d1, d2, by rw [ha, hc, hd]; simp, h4, h7, fun t ht => by simpa using h6 t ht⟩
  · rintro ⟨x, y, z, rfl, hp, hq, hy⟩
    refine ⟨x.filter full, z.filter full, ?_⟩
    rw [List.filter_append, List.filter_cons, if_pos hp, List.filter_append, List.filter_cons, if_pos hq,
      (List.filter_eq_nil_iff (l := y)).2 (fun t ht => by simp [hy t ht])]
    rfl

example : attach (fun n : Nat => n != 0) none [0, 4, 0, 0, 5, 6, 0] = [(4, 5), (5, 6)] := by decide

/-! ## C106: categories and labels -/

/-- **C106** (partial).  The entries of an STM file are those of its lines `;; CATEGORY "id" "title" "description"` and `;; LABEL ...`, in
the order of the file.  *Missing:* ids, titles and descriptions of several words, see below, and other comments with quotes. -/
theorem stm_categories_partial (w : Nat) (ms : List Nat → Int) (junk : Nat → List Nat) (lines : List (List Nat)) (cs : List Cat) (h : CatLines lines cs)
    (speeches : List (List Nat × List Seg)) (cats : List Cat) (hl : load w ms junk lines = .ok (speeches, cats)) : cats = cs := by
  rw [load] at hl
  split at hl
  · rename_i st hr
    split at hl
    · cases hl
    · cases hl
      exact run_cats hr h
  · cases hl
  · cases hl

theorem parts_words (line : List Nat) : ∀ cur : List Nat, (∀ b ∈ cur, ¬ Sep b) → Parts (cur ++ line) (tokFrom cur line) := by
  induction line with
  | nil =>
    intro cur hcur
    by_cases h : cur = []
    · subst h
      exact .nil [] (by simp)
    · rw [tokFrom, if_neg h]
      exact .cons [] cur [] [] (by simp) h hcur (by simp) (.nil [] (by simp))
  | cons c s ih =>
    intro cur hcur
    by_cases hc : c = 32 ∨ c = 9 ∨ c = 13 ∨ c = 10
    · rw [tokFrom, if_pos hc]
      have h1 : Parts (c :: s) (tokFrom [] s) := by
        have := ih [] (by simp)
        rw [List.nil_append] at this
        generalize tokFrom [] s = ws at this
        cases this with
        | nil _ hs => exact .nil _ (fun b hb => (List.mem_cons.1 hb).elim (fun e => e ▸ hc) (hs b))
        | cons s f rest fs hs hf hn hr hrest =>
          exact Parts.cons (c :: s) f rest fs (fun b hb => (List.mem_cons.1 hb).elim (fun e => e ▸ hc) (hs b)) hf hn hr hrest
      by_cases h : cur = []
      · subst h
        exact h1
      · rw [if_neg h]
        exact .cons [] cur (c :: s) _ (by simp) h hcur (by intro b hb; cases hb; exact hc) h1
    · rw [tokFrom, if_neg hc]
      have := ih (cur ++ [c]) (by
        intro b hb
        rcases List.mem_append.1 hb with hb | hb
        · exact hcur b hb
        · rw [List.mem_singleton.1 hb]; exact hc)
      rwa [List.append_assoc] at this

example : CatLines exFile [⟨kwLabel, bytes "o", bytes "Overall", bytes "All-of-it"⟩] := by
  refine .entry _ _ _ _ ⟨bytes ";;", parts_words (bytes ";; LABEL \"o\" \"Overall\" \"All-of-it\"") [] (by simp), by decide, by decide, by decide, by decide,
    by decide⟩ (.segment _ _ _ (by decide) (.remark _ _ _ (by decide) (.segment _ _ _ (by decide) (.segment _ _ _ (by decide) (.segment _ _ _ (by decide) .nil)))))

/-- A description of several words is lost. -/
theorem description_lost (line h kw q1 q2 d : List Nat) (more : List (List Nat)) (hp : Parts line (h :: kw :: q1 :: q2 :: d :: more)) (h0 : 0 ∉ line)
    (hd : d.getLast? ≠ some 34) : (comment line).desc = [] := by
  rw [comment_parts hp h0, catWords, catWords, catWords, catWords, catWords, catWords_late _ _ _ _ (by omega)]
  have step : ∀ (i : Nat) (t : List Nat) (c : Cat) (w : List Nat), i ≠ 4 → c.desc = [] → (catWord i t c w).2.desc = [] := by
    intro i t c w hi hc
    rw [catWord]
    split
    · exact hc
    · split
      · show (if w = kwCategory then _ else _ : Cat).desc = _
        split
        · exact hc
        · split <;> exact hc
      · generalize (if 2 ≤ w.count 34 then w else (if t = [] then t else t ++ [32]) ++ w) = t'
        show (if w.getLast? = some 34 then _ else _ : List Nat × Cat).2.desc = []
        split
        · show (if i = 2 then _ else _ : Cat).desc = []
          split
          · exact hc
          · split
            · exact hc
            · exact hc
        · exact hc
  have h4 : ∀ (t : List Nat) (c : Cat), (catWord 4 t c d).2 = c := by
    intro t c
    rw [catWord, if_neg (by omega), if_neg (by omega)]
    show (if d.getLast? = some 34 then _ else _ : List Nat × Cat).2 = c
    rw [if_neg hd]
  rw [h4]
  exact step 3 _ _ _ (by omega) (step 2 _ _ _ (by omega) (step 1 _ _ _ (by omega) (step 0 _ _ _ (by omega) rfl)))

example : Parts (bytes ";; LABEL \"o\" \"Overall\" \"All of it\"") [bytes ";;", bytes "LABEL", bytes "\"o\"", bytes "\"Overall\"", bytes "\"All", bytes "of", bytes "it\""] ∧
    comment (bytes ";; LABEL \"o\" \"Overall\" \"All of it\"") = ⟨kwLabel, bytes "o", bytes "Overall", []⟩ :=
  ⟨parts_words (bytes ";; LABEL \"o\" \"Overall\" \"All of it\"") [] (by simp), by decide +kernel⟩

/-- An entry with an id of several words is lost. -/
theorem id_lost (line h kw q : List Nat) (more : List (List Nat)) (hp : Parts line (h :: kw :: q :: more)) (h0 : 0 ∉ line)
    (hd : q.getLast? ≠ some 34) : (comment line).id = [] := by
  rw [comment_parts hp h0, catWords, catWords, catWords]
  have late : ∀ (ws : List (List Nat)) (i : Nat) (t : List Nat) (c : Cat), 3 ≤ i → (catWords i t c ws).id = c.id := by
    intro ws
    induction ws with
    | nil => intro i t c h; rfl
    | cons w ws ih =>
      intro i t c h
      rw [catWords, ih _ _ _ (by omega), catWord, if_neg (by omega), if_neg (by omega)]
      generalize (if 2 ≤ w.count 34 then w else (if t = [] then t else t ++ [32]) ++ w) = t'
      show (if w.getLast? = some 34 then _ else _ : List Nat × Cat).2.id = c.id
      split
      · show (if i = 2 then _ else _ : Cat).id = c.id
        rw [if_neg (by omega)]
        split
        · rfl
        · split <;> rfl
      · rfl
  have h2 : ∀ (t : List Nat) (c : Cat), (catWord 2 t c q).2 = c := by
    intro t c
    rw [catWord, if_neg (by omega), if_neg (by omega)]
    show (if q.getLast? = some 34 then _ else _ : List Nat × Cat).2 = c
    rw [if_neg hd]
  rw [late _ _ _ _ (by omega), h2, catWord_one]
  show (if kw = kwCategory then _ else _ : Cat).id = []
  split
  · rfl
  · split <;> rfl

example : comment (bytes ";; LABEL \"o p\" \"Overall\"") = ⟨kwLabel, [], bytes "o p", bytes "Overall"⟩ := by decide +kernel

/-- A title of two words becomes the description. -/
theorem title_as_description (line h kw i a b : List Nat) (more : List (List Nat))
    (hp : Parts line (h :: kw :: quoted i :: (34 :: a) :: (b ++ [34]) :: more)) (h0 : 0 ∉ line) (hi : 34 ∉ i) (ha : 34 ∉ a) (hb : 34 ∉ b) (hne : a ≠ []) :
    (comment line).title = [] ∧ (comment line).desc = a ++ (32 :: b) := by
  rw [comment_parts hp h0, catWords, catWords, catWords, catWords, catWords, catWords_late _ _ _ _ (by omega), catWord_one,
    catWord_quoted (by omega) _ _ hi]
  have hca : (34 :: a).count 34 = 1 := by rw [List.count_cons, List.count_eq_zero.2 ha]; rfl
  have hcb : (b ++ [34]).count 34 = 1 := by rw [List.count_append, List.count_eq_zero.2 hb]; rfl
  have hla : (34 :: a).getLast? ≠ some 34 := by
    intro h
    obtain ⟨x, l, hx⟩ := List.exists_cons_of_ne_nil hne
    rw [hx, List.getLast?_cons_cons, ← hx] at h
    exact ha (List.mem_of_getLast? h)
  have hlb : (b ++ [34]).getLast? = some 34 := List.getLast?_concat
  have h3 : ∀ (c : Cat), catWord 3 [] c (34 :: a) = (34 :: a, c) := by
    intro c
    rw [catWord, if_neg (by omega), if_neg (by omega), if_neg hla, if_neg (by omega)]
    rfl
  have h4 : ∀ (c : Cat), (catWord 4 (34 :: a) c (b ++ [34])).2 = { c with desc := a ++ (32 :: b) } := by
    intro c
    rw [catWord, if_neg (by omega), if_neg (by omega), if_pos hlb, if_neg (by omega), if_neg (by simp)]
    show ({ c with desc := _ } : Cat) = _
    have : (34 :: a ++ [32] ++ (b ++ [34])).filter (· ≠ 34) = a ++ (32 :: b) := by
      have hfa : a.filter (· ≠ 34) = a := List.filter_eq_self.2 (fun x hx => decide_eq_true (fun e => ha (e ▸ hx)))
      have hfb : b.filter (· ≠ 34) = b := List.filter_eq_self.2 (fun x hx => decide_eq_true (fun e => hb (e ▸ hx)))
      rw [List.filter_append, List.filter_append, List.filter_append, List.filter_cons, hfa, hfb]
      simp
    rw [this]
  dsimp only
  rw [h3, h4]
  refine ⟨?_, rfl⟩
  show (if kw = kwCategory then _ else _ : Cat).title = []
  split
  · rfl
  · split <;> rfl

example : comment (bytes ";; LABEL \"o\" \"Over all\" \"All-of-it\"") = ⟨kwLabel, bytes "o", [], bytes "Over all"⟩ := by decide +kernel

/-- Any comment with a word in quotes in the third place makes an entry, of no type. -/
theorem stray_entry : comment (bytes ";; see \"Notes\" there") = ⟨[], bytes "Notes", [], []⟩ := by decide

/-! ## C107: TRN files -/

/-- **C107**.  A TRN file of lines `transcript (identifier)` is read into one speech for every speaker, in the order of their names; each has
the utterances of its speaker in the order of the file, with identifier, transcript and the numbers of line and utterance.  The
speaker is the part of the identifier before its last `_` or `-`. -/
theorem trn_file (lines : List (List Nat)) (us : List Utt) (h : TrnSays 0 0 lines us) (hne : us ≠ []) :
    ∃ speeches, trnLoad lines = .ok speeches ∧ Grouped Utt.spkr id us speeches := by
  obtain ⟨h1, h2, h3⟩ := trn_run h (done := []) (m := []) List.Pairwise.nil (by simp) (by simp [under])
  rw [List.nil_append] at h2
  have hl : trnLoad lines = .ok (trnRun 0 0 [] lines) := by
    rw [trnLoad]
    cases hr : trnRun 0 0 [] lines with
    | nil =>
      obtain ⟨u, hu⟩ := List.exists_mem_of_ne_nil us hne
      have := (h2 u.spkr).2 ⟨u, hu, rfl⟩
      rw [hr] at this
      cases this
    | cons p m => rfl
  refine ⟨_, hl, h1, h2, fun k xs hm => ?_⟩
  have := h3 k
  rw [under_mem h1 hm, List.nil_append] at this
  rw [List.map_id, this]

example : TrnSays 0 0 [bytes "so (it) is (anna-b_01)", bytes ";; remark", bytes "no (solo)"]
    [⟨bytes "(anna-b_01)", bytes "anna-b", bytes "so (it) is ", 0, 0⟩, ⟨bytes "(solo)", bytes "solo", bytes "no ", 2, 1⟩] := by
  refine .line 0 0 _ (bytes "anna-b_01") (bytes "anna-b") (bytes "so (it) is ") _ _ ?_ (.comment _ _ _ _ _ (by decide)
    (.line 2 1 _ (bytes "solo") (bytes "solo") (bytes "no ") _ _ ?_ (.nil 3 2)))
  · exact ⟨[], by decide, by decide, by decide, by decide, .inl ⟨95, bytes "01", .inl rfl, by decide, by decide, by decide⟩, by decide⟩
  · exact ⟨[], by decide, by decide, by decide, by decide, .inr ⟨by decide, by decide, rfl⟩, by decide⟩

/-- A line without parentheses: the whole line is transcript, identifier and speaker; so is a blank line. -/
theorem trn_no_id (line : List Nat) (h1 : 40 ∉ line) (h2 : 41 ∉ line) : (uttOf line).1 = line ∧ (uttOf line).2.2 = line := by
  unfold uttOf
  rw [findLast_none h1, findLast_none h2]
  exact ⟨rfl, rfl⟩

/-- An identifier that is not closed. -/
theorem trn_open_id : uttOf (bytes "a (b) c (x_1") = (bytes "x_1", bytes "x", bytes "a (b) c ") := by decide

end Verif.StmIn
