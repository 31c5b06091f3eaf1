import Verif.Hub.Fields
/-!
# Properties of the driver of evaluations
-/
set_option autoImplicit false
namespace Verif.Hub
open Verif.TextVal
open Verif.Rttm2Ctm (layout_words' layout_field layout_unique)

/-! ## C300: sorting CTM files -/

/-- The records of a CTM file are all kept, once each and as they are but for white space before them; comments and empty lines are not. -/
theorem ctm_kept (num : List Char → Int) (lines : List (List Char)) : (sortCtm num lines).Perm (records lines) := by
  unfold sortCtm
  rw [records_eq]
  exact grouped_perm num 2 _

theorem sorted_layout {num : List Char → Int} {n : Nat} {l : List (List Char)} (hl : ∀ x ∈ l, ∃ fs, Layout fs x)
    (hp : l.Pairwise (fun a b => le num n a b = true)) : l.Pairwise (fun a b => ∃ fs gs, Layout fs a ∧ Layout gs b ∧ InOrder num n fs gs) := by
  refine List.Pairwise.imp_of_mem ?_ hp
  intro a b ha hb h
  obtain ⟨fs, hf⟩ := hl a ha
  obtain ⟨gs, hg⟩ := hl b hb
  refine ⟨fs, gs, hf, hg, ?_⟩
  rw [le_iff, field_layout hf, field_layout hf, field_layout hf, field_layout hg, field_layout hg, field_layout hg] at h
  exact h

/-- With the same white space after the name of the file in all records, they are in order of file, channel and begin. -/
theorem ctm_sorted_partial (num : List Char → Int) (lines : List (List Char)) (g : List Char) (hg : Some white g) (h : OneSep g lines) :
    (sortCtm num lines).Pairwise (fun a b => ∃ fs gs, Layout fs a ∧ Layout gs b ∧ InOrder num 2 fs gs) := by
  refine sorted_layout (fun x hx => record_layout ((ctm_kept num lines).mem_iff.1 hx)) ?_
  unfold sortCtm
  rw [records_eq]
  exact grouped_sorted num 2 _ g (sep_one hg h)

theorem stable_layout {num : List Char → Int} {n : Nat} {l m : List (List Char)} (hl : ∀ x ∈ l, ∃ fs, Layout fs x) (hm : ∀ x ∈ m, ∃ fs, Layout fs x)
    (f c : List Char) (t : Int) (P : List Char → Bool)
    (hP : ∀ x fs, Layout fs x → (P x = true ↔ nth fs 0 = f ∧ nth fs 1 = c ∧ num (nth fs n) = t))
    (h : l.filter (fun x => field 0 x == f && field 1 x == c && num (field n x) == t) =
      m.filter (fun x => field 0 x == f && field 1 x == c && num (field n x) == t)) : l.filter P = m.filter P := by
  have e : ∀ k : List (List Char), (∀ x ∈ k, ∃ fs, Layout fs x) →
      k.filter P = k.filter (fun x => field 0 x == f && field 1 x == c && num (field n x) == t) := by
    intro k hk
    apply List.filter_congr
    intro x hx
    obtain ⟨fs, hf⟩ := hk x hx
    rw [Bool.eq_iff_iff, hP x fs hf, field_layout hf, field_layout hf, field_layout hf]
    simp only [Bool.and_eq_true, beq_iff_eq, and_assoc]
  rw [e l hl, e m hm, h]

/-- Then records of the same file, channel and begin stay in the order they have in the file. -/
theorem ctm_stable_partial (num : List Char → Int) (lines : List (List Char)) (g : List Char) (hg : Some white g) (h : OneSep g lines)
    (f c : List Char) (t : Int) (P : List Char → Bool)
    (hP : ∀ x fs, Layout fs x → (P x = true ↔ nth fs 0 = f ∧ nth fs 1 = c ∧ num (nth fs 2) = t)) :
    (sortCtm num lines).filter P = (records lines).filter P := by
  refine stable_layout (fun x hx => record_layout ((ctm_kept num lines).mem_iff.1 hx)) (fun x hx => record_layout hx) f c t P hP ?_
  unfold sortCtm
  rw [records_eq]
  exact grouped_stable num 2 _ g (sep_one hg h) f c t

/-- Whatever the white space, the files are in order. -/
theorem ctm_files (num : List Char → Int) (lines : List (List Char)) :
    (sortCtm num lines).Pairwise (fun a b => ∃ fs gs, Layout fs a ∧ Layout gs b ∧ (nth fs 0 < nth gs 0 ∨ nth fs 0 = nth gs 0)) := by
  have hl : ∀ x ∈ sortCtm num lines, ∃ fs, Layout fs x := fun x hx => record_layout ((ctm_kept num lines).mem_iff.1 hx)
  have hp : (sortCtm num lines).Pairwise (fun a b => field 0 a < field 0 b ∨ field 0 a = field 0 b) := by
    unfold sortCtm
    exact grouped_files num 2 _
  refine List.Pairwise.imp_of_mem ?_ hp
  intro a b ha hb h
  obtain ⟨fs, hf⟩ := hl a ha
  obtain ⟨gs, hg⟩ := hl b hb
  refine ⟨fs, gs, hf, hg, ?_⟩
  rw [field_layout hf, field_layout hg] at h
  exact h

/-- Numbers for the examples: the digits of a text. -/
def digits (s : List Char) : Int := s.foldl (fun n c => if c.isDigit then n * 10 + (c.toNat - 48 : Nat) else n) 0

/-- What is taken for the channel in the hash is the white space before it: records with a tabulator come before records with a space, whatever their
times. -/
theorem ctm_separator_counterexample :
    sortCtm digits (["f 1 1 1 a", "f\t1 2 1 b", "f 1 3 1 c"].map String.toList) = ["f\t1 2 1 b", "f 1 1 1 a", "f 1 3 1 c"].map String.toList := by
  decide +kernel

/-- The markers of alternatives have `*` for their begin, which counts as zero: they come before all words that begin later, and what was between them is
not between them any more. -/
theorem ctm_alternatives_counterexample :
    sortCtm digits (["f 1 1 1 a", "f 1 * * <ALT_BEGIN>", "f 1 2 1 b", "f 1 * * <ALT>", "f 1 2 1 c", "f 1 * * <ALT_END>"].map String.toList) =
      ["f 1 * * <ALT_BEGIN>", "f 1 * * <ALT>", "f 1 * * <ALT_END>", "f 1 1 1 a", "f 1 2 1 b", "f 1 2 1 c"].map String.toList := by
  decide +kernel

/-- So in every file with one kind of white space no marker is left after a word of the same file and channel that begins after zero. -/
theorem ctm_tags_first (num : List Char → Int) (hs : num ['*'] = 0) (lines : List (List Char)) (g : List Char) (hg : Some white g) (h : OneSep g lines) :
    (sortCtm num lines).Pairwise (fun a b => ∃ fs gs, Layout fs a ∧ Layout gs b ∧
      (nth fs 0 = nth gs 0 → nth fs 1 = nth gs 1 → nth gs 2 = ['*'] → num (nth fs 2) ≤ 0)) := by
  refine (ctm_sorted_partial num lines g hg h).imp ?_
  rintro a b ⟨fs, gs, hf, hb, ho⟩
  refine ⟨fs, gs, hf, hb, ?_⟩
  intro e0 e1 e2
  rcases ho with ho | ⟨_, ho | ⟨_, ho⟩⟩
  · rw [e0] at ho
    exact absurd ho (List.lt_irrefl _)
  · rw [e1] at ho
    exact absurd ho (List.lt_irrefl _)
  · rw [e2, hs] at ho
    exact ho

example : sortCtm digits (["g A 2 1 x", "  f B 10 1 y", ";; c", "f B 9 1 z", "", "f A 11 1 w"].map String.toList) =
    ["f A 11 1 w", "f B 9 1 z", "f B 10 1 y", "g A 2 1 x"].map String.toList := by decide +kernel

example : OneSep [' '] (["g A 2 1 x", ";; c"].map String.toList) := by
  intro l hl
  have : l = "g A 2 1 x".toList := by
    have e : records (["g A 2 1 x", ";; c"].map String.toList) = ["g A 2 1 x".toList] := by decide +kernel
    rw [e, List.mem_singleton] at hl
    exact hl
  refine ⟨"g".toList, "A 2 1 x".toList, by rw [this]; decide +kernel, by decide +kernel, ?_⟩
  intro c r e
  have e' : 'A' :: " 2 1 x".toList = c :: r := by rw [← e]; decide +kernel
  injection e' with e1 _
  rw [← e1]
  decide

/-! ## C301: sorting STM files -/

/-- The comments of an STM file come first, in their order, and then the records, all of them once and as they are. -/
theorem stm_kept (num : List Char → Int) (lines : List (List Char)) : ∃ rs, sortStm num lines = comments lines ++ rs ∧ rs.Perm (records lines) := by
  refine ⟨_, ?_, grouped_perm num 3 (records lines)⟩
  unfold sortStm
  rw [records_eq, comments_eq]

/-- With the same white space after the name of the file in all records, they are in order of file, channel and begin, and those that are equal in these
stay in their order. -/
theorem stm_sorted_partial (num : List Char → Int) (lines : List (List Char)) (g : List Char) (hg : Some white g) (h : OneSep g lines) :
    ∃ rs, sortStm num lines = comments lines ++ rs ∧
      rs.Pairwise (fun a b => ∃ fs gs, Layout fs a ∧ Layout gs b ∧ InOrder num 3 fs gs) ∧
      ∀ (f c : List Char) (t : Int) (P : List Char → Bool),
        (∀ x fs, Layout fs x → (P x = true ↔ nth fs 0 = f ∧ nth fs 1 = c ∧ num (nth fs 3) = t)) → rs.filter P = (records lines).filter P := by
  have hp := grouped_perm num 3 (records lines)
  have hl : ∀ x ∈ grouped num 3 (records lines), ∃ fs, Layout fs x := fun x hx => record_layout (hp.mem_iff.1 hx)
  refine ⟨grouped num 3 (records lines), ?_, sorted_layout hl (grouped_sorted num 3 _ g (sep_one hg h)), ?_⟩
  · unfold sortStm
    rw [records_eq, comments_eq]
  · intro f c t P hP
    exact stable_layout hl (fun x hx => record_layout hx) f c t P hP (grouped_stable num 3 _ g (sep_one hg h) f c t)

theorem stm_separator_counterexample :
    sortStm digits (["f 1 s 1 2 a", "f\t1 s 2 3 b", ";; x"].map String.toList) = [";; x", "f\t1 s 2 3 b", "f 1 s 1 2 a"].map String.toList := by
  decide +kernel

example : sortStm digits (["f 1 s 10 12 a", ";; x", "f 1 t 2 3 b", ";; y"].map String.toList) = [";; x", ";; y", "f 1 t 2 3 b", "f 1 s 10 12 a"].map String.toList := by
  decide +kernel

/-! ## C302: the filter of extended CTM records -/

/-- A comment is kept. -/
theorem rt_comment (l : List Char) (h : Comment l) : rtFilt l = [l] := by
  obtain ⟨s, rfl⟩ := h
  unfold rtFilt
  rw [show comment (';' :: ';' :: s) = true from rfl]
  rfl

theorem not_comment {l : List Char} (h : ¬ Comment l) : comment l = false := by
  rw [← Bool.not_eq_true]
  intro hc
  obtain ⟨s, e⟩ := List.isPrefixOf_iff_prefix.1 hc
  exact h ⟨s, e.symm⟩

/-- A record without type is kept as it is. Of one with a type nothing is written unless it is a word; then the first six fields are written, the
confidence only if it is not NA, and they are read back as they are. -/
theorem rt_record (l : List Char) (fs : List (List Char)) (hl : Layout fs l) (hc : ¬ Comment l) :
    (fs.length < 7 → rtFilt l = [l]) ∧
      (∀ type, fs[6]? = some type → type ≠ "lex".toList → rtFilt l = []) ∧
      (∀ conf, fs[5]? = some conf → fs[6]? = some "lex".toList →
        ∃ gs, rtFilt l = [spaced gs] ∧ Layout gs (spaced gs) ∧ gs = fs.take (if conf.map Char.toLower = "na".toList then 5 else 6)) := by
  have hw := layout_words' hl
  have lay : ∀ n, 0 < n → fs ≠ [] → Layout (fs.take n) (spaced (fs.take n)) := by
    intro n hn hne
    have e : ∀ k : List (List Char), spaced k = Verif.Rttm2Ctm.line k := by
      intro k
      induction k with
      | nil => rfl
      | cons a k ih =>
        cases k with
        | nil => rfl
        | cons b k =>
          rw [spaced, Verif.Rttm2Ctm.line, ih]
          · simp
          · simp
    rw [e]
    refine Verif.Rttm2Ctm.line_layout _ ?_ (fun f hf => layout_field hl f (List.mem_of_mem_take hf))
    intro h0
    rcases List.take_eq_nil_iff.1 h0 with h0 | h0
    · omega
    · exact hne h0
  have long : ∀ type, fs[6]? = some type → ¬ fs.length < 7 := by
    intro type ht
    have := (List.getElem?_eq_some_iff.1 ht).1
    omega
  refine ⟨?_, ?_, ?_⟩
  · intro h
    unfold rtFilt
    rw [hw]
    dsimp only
    rw [if_pos (by simp [h])]
  · intro type ht hn
    unfold rtFilt
    rw [hw]
    dsimp only
    rw [if_neg (by simp [not_comment hc, long type ht]), ht, if_neg (by simpa using hn)]
  · intro conf h5 h6
    have hne : fs ≠ [] := by
      rintro rfl
      cases h5
    refine ⟨_, ?_, lay _ (by split <;> omega) hne, rfl⟩
    unfold rtFilt
    rw [hw]
    dsimp only
    rw [if_neg (by simp [not_comment hc, long _ h6]), h6, if_pos (by simp), join_eq, h5]
    by_cases hna : conf.map Char.toLower = "na".toList
    · rw [if_pos hna, if_pos (by simpa using hna)]
    · rw [if_neg hna, if_neg (by simpa using hna)]

/-- A confidence NA is left if there is no type. -/
theorem rt_counterexample : rtFilt "f 1 0 1 a NA".toList = ["f 1 0 1 a NA".toList] ∧ rtFilt "f 1 0 1 a NA lex".toList = ["f 1 0 1 a".toList] := by
  decide +kernel

example : rtFilt "f 1 0 1 a 0.5 lex s".toList = ["f 1 0 1 a 0.5".toList] ∧ rtFilt "f 1 0 1 uh 0.5 fp s".toList = [] := by decide +kernel

/-! ## C303: the names of hypotheses -/

/-- A hypothesis without marks has its file for title and output name; the parts of one with marks are file, title and output name, and an empty part
counts as the file. -/
theorem hyp_names (f i o : List Char) (hf : ¬ Contains "\\#" f) (hi : ¬ Contains "\\#" i) (ho : ¬ Contains "\\#" o) :
    names f = (f, f, f ++ ".filt".toList) ∧
      names (f ++ "\\#".toList ++ i) = (f, if i = [] then f else i, f ++ ".filt".toList) ∧
      names (f ++ "\\#".toList ++ i ++ "\\#".toList ++ o) = (f, if i = [] then f else i, (if o = [] then f else o) ++ ".filt".toList) := by
  have e0 : parts [] f = [f] := parts_plain f [] hf
  have e1 : parts [] (f ++ "\\#".toList ++ i) = [f, i] := by
    rw [List.append_assoc]
    exact (parts_mark f [] i hf).trans (by rw [parts_plain i [] hi]; rfl)
  have e2 : parts [] (f ++ "\\#".toList ++ i ++ "\\#".toList ++ o) = [f, i, o] := by
    rw [List.append_assoc, List.append_assoc, List.append_assoc]
    have h1 : parts [] (i ++ ("\\#".toList ++ o)) = i :: parts [] o := parts_mark i [] o hi
    have h2 : parts [] (f ++ ("\\#".toList ++ (i ++ ("\\#".toList ++ o)))) = f :: parts [] (i ++ ("\\#".toList ++ o)) := parts_mark f [] _ hf
    rw [h2, h1, parts_plain o [] ho]
    rfl
  refine ⟨?_, ?_, ?_⟩
  · unfold names
    rw [e0]
    rfl
  · unfold names
    rw [e1]
    cases i <;> rfl
  · unfold names
    rw [e2]
    cases i <;> cases o <;> rfl

example : names "a/b.ctm\\#sys\\#out".toList = ("a/b.ctm".toList, "sys".toList, "out.filt".toList) := by decide +kernel

/-! ## C304: the command line -/

/-- What is needed and is tested (src/hubscr/hubscr.pl 63-117, the usage). -/
def Common (there : String → Bool) (x : Args) : Prop :=
  x.m ≠ .malformed ∧ (∃ g, x.g = some g ∧ there g = true) ∧
    (∃ l, x.l = some l ∧ l.toLower ∈ ["english", "german", "italian", "spanish", "mandarin", "arabic"]) ∧
    (x.H = true ∨ x.T = true → ∃ l, x.l = some l ∧ l.toLower = "arabic") ∧
    (x.a = true → ∃ l, x.l = some l ∧ l.toLower = "english") ∧
    ((∃ n, x.o = some n ∧ 0 ≤ n) ∨ x.m = .given false → x.a = true) ∧
    (∃ h, x.h = some h ∧ h.toLower ∈ ["hub4", "hub5", "rt-stt", "sastt"]) ∧
    (∃ r, x.r = some r ∧ there r = true) ∧
    x.hyps ≠ [] ∧ (∀ n ∈ x.hyps, there (String.ofList (names n.toList).1) = true) ∧
    (∀ w, x.w = some w → there w = true) ∧ x.p ≠ some false ∧
    (∀ h, x.h = some h → h.toLower = "sastt" → x.f = some "rttm" ∧ x.a = true)

/-- What the usage asks for (src/hubscr/hubscr.pl 82, 83, 86-89, 117): a lexicon for German, and
the language model of `-K` there and not together with `-w`; `-M` has options for md-eval. -/
def Usable (there : String → Bool) (x : Args) : Prop :=
  Common there x ∧ (∀ l, x.l = some l → l.toLower = "german" → ∃ n, x.L = some n ∧ there n = true) ∧
    (∀ k, x.K = some k → there k = true ∧ x.w = none)

/-- What is accepted: for German `-d` is needed and no lexicon, and the tests of the language model are made of the options for md-eval. -/
theorem accepted_iff (there : String → Bool) (x : Args) :
    refusal there x = none ↔ Common there x ∧ (∀ l, x.l = some l → l.toLower = "german" → x.d = true) ∧
      (∀ v, x.M = some v → there v = true ∧ x.w = none) := by
  have hm : ∀ o : Option String, missing there o = false ↔ ∀ v, o = some v → there v = true := by
    intro o
    cases o <;> simp [missing]
  have hg : (missing there x.g = false ∧ x.g.isNone = false) ↔ ∃ g, x.g = some g ∧ there g = true := by
    cases x.g <;> simp [missing]
  have hr : (x.r.isNone = false ∧ missing there x.r = false) ↔ ∃ r, x.r = some r ∧ there r = true := by
    cases x.r <;> simp [missing]
  have hl : ((x.l.map String.toLower).isNone = false ∧ (!(x.l.map String.toLower).any (fun n => languages.contains n)) = false) ↔
      ∃ l, x.l = some l ∧ l.toLower ∈ ["english", "german", "italian", "spanish", "mandarin", "arabic"] := by
    unfold languages
    cases x.l with
    | none => simp
    | some v => rw [Bool.not_eq_false', Option.map_some, Option.any_some, List.contains_iff_mem]; simp
  have hh : ((x.h.map String.toLower).isNone = false ∧ (!(x.h.map String.toLower).any (fun n => hubs.contains n)) = false) ↔
      ∃ h, x.h = some h ∧ h.toLower ∈ ["hub4", "hub5", "rt-stt", "sastt"] := by
    unfold hubs
    cases x.h with
    | none => simp
    | some v => rw [Bool.not_eq_false', Option.map_some, Option.any_some, List.contains_iff_mem]; simp
  have hs : ∀ (o : Option String) (v : String), o.map String.toLower = some v ↔ ∃ l, o = some l ∧ l.toLower = v := by
    intro o v
    cases o <;> simp
  have ho : (x.o.any (fun n => decide (0 ≤ n)) = true) ↔ ∃ n, x.o = some n ∧ 0 ≤ n := by
    cases x.o <;> simp
  have hf : x.f.getD "ctm" = "rttm" ↔ x.f = some "rttm" := by
    cases x.f <;> simp
  have key : refusal there x = none ↔ ∀ t ∈ tests there x, t.1 = false := by
    unfold refusal
    rw [Option.map_eq_none_iff, List.find?_eq_none]
    simp only [Bool.not_eq_true]
  rw [key]
  unfold tests
  simp only [List.forall_mem_cons, List.not_mem_nil, false_implies, implies_true, and_true]
  unfold Common
  constructor
  · rintro ⟨t1, t2, t3, t4, t5, t6, t7, t8, t9, t10, t11, t12, t13, t14, t15, t16, t17, t18, t19, t20, t21, t22, t23⟩
    refine ⟨⟨by simpa using t1, hg.1 ⟨t2, t3⟩, hl.1 ⟨t4, t5⟩, ?_, ?_, ?_, hh.1 ⟨t11, t12⟩, hr.1 ⟨t13, t14⟩, ?_, ?_, (hm _).1 t20, by simpa using t21, ?_⟩, ?_, ?_⟩
    · rw [← hs]
      rintro (e | e)
      · simpa [e] using t6
      · simpa [e] using t7
    · intro e
      rw [← hs]
      simpa [e] using t8
    · rintro (e | e)
      · simpa [ho.2 e] using t9
      · simpa [e] using t10
    · simpa using t15
    · simpa using t16
    · intro h e1 e2
      have e := (hs x.h "sastt").2 ⟨h, e1, e2⟩
      exact ⟨hf.1 (by simpa [e] using t22), by simpa [e] using t23⟩
    · intro l e1 e2
      have e := (hs x.l "german").2 ⟨l, e1, e2⟩
      simpa [e] using t17
    · intro v e
      exact ⟨(hm _).1 t19 v e, by simpa [e] using t18⟩
  · rintro ⟨⟨c1, c2, c3, c4, c5, c6, c7, c8, c9, c10, c11, c12, c13⟩, c14, c15⟩
    rw [← hs] at c4 c5
    rw [← ho] at c6
    have d13 : x.h.map String.toLower = some "sastt" → x.f = some "rttm" ∧ x.a = true := by
      intro e
      obtain ⟨h, e1, e2⟩ := (hs _ _).1 e
      exact c13 h e1 e2
    have d14 : x.l.map String.toLower = some "german" → x.d = true := by
      intro e
      obtain ⟨l, e1, e2⟩ := (hs _ _).1 e
      exact c14 l e1 e2
    refine ⟨by simpa using c1, (hg.2 c2).1, (hg.2 c2).2, (hl.2 c3).1, (hl.2 c3).2, ?_, ?_, ?_, ?_, ?_, (hh.2 c7).1, (hh.2 c7).2, (hr.2 c8).1, (hr.2 c8).2,
      by simpa using c9, by simpa using c10, ?_, ?_, (hm _).2 (fun v e => (c15 v e).1), (hm _).2 c11, by simpa using c12, ?_, ?_⟩
    · cases e : x.H
      · rfl
      · simpa using c4 (.inl e)
    · cases e : x.T
      · rfl
      · simpa using c4 (.inr e)
    · cases e : x.a
      · simp
      · simpa using c5 e
    · cases e : x.o.any (fun n => decide (0 ≤ n))
      · rfl
      · simpa using c6 (.inl e)
    · cases e : x.m == .given false
      · rfl
      · simpa using c6 (.inr (by simpa using e))
    · cases e : x.d
      · simp only [Bool.not_false, Bool.true_and, beq_eq_false_iff_ne]
        intro e1
        rw [d14 e1] at e
        cases e
      · rfl
    · cases e : x.M with
      | none => rfl
      | some v => simp [(c15 v e).2]
    · cases e : (x.h.map String.toLower == some "sastt")
      · rfl
      · simpa using hf.2 (d13 (by simpa using e)).1
    · cases e : (x.h.map String.toLower == some "sastt")
      · rfl
      · simpa using (d13 (by simpa using e)).2

/-- For other languages than German, without `-M` and `-K`, a command is accepted exactly if it is as the usage asks. -/
theorem accepted_partial (there : String → Bool) (x : Args) (hl : ∀ l, x.l = some l → l.toLower ≠ "german") (hM : x.M = none) (hK : x.K = none) :
    refusal there x = none ↔ Usable there x := by
  rw [accepted_iff]
  unfold Usable
  constructor
  · rintro ⟨h, _, _⟩
    refine ⟨h, fun l e1 e2 => absurd e2 (hl l e1), fun k e => ?_⟩
    rw [hK] at e
    cases e
  · rintro ⟨h, _, _⟩
    refine ⟨h, fun l e1 e2 => absurd e2 (hl l e1), fun k e => ?_⟩
    rw [hM] at e
    cases e

/-- German is refused without `-d`, whatever files there are: no lexicon helps. -/
theorem german_refused (there : String → Bool) (x : Args) (l : String) (hl : x.l = some l) (hg : l.toLower = "german") (hd : x.d = false) :
    refusal there x ≠ none := by
  rw [Ne, accepted_iff]
  rintro ⟨_, h, _⟩
  rw [h l hl hg] at hd
  cases hd

/-- Options for md-eval are refused unless they are the name of a file, and with `-w` even then. -/
theorem options_refused (there : String → Bool) (x : Args) (v : String) (hv : x.M = some v) (h : there v = false ∨ x.w ≠ none) :
    refusal there x ≠ none := by
  rw [Ne, accepted_iff]
  rintro ⟨_, _, h2⟩
  rcases h with h | h
  · rw [(h2 v hv).1] at h
    cases h
  · exact h (h2 v hv).2

/-- A command as the usage asks, and files for it. -/
def sample : Args := { l := some "English", h := some "hub5", r := some "ref.stm", g := some "en.glm", hyps := ["a.ctm"] }

def files (n : String) : Bool := n == "ref.stm" || n == "en.glm" || n == "a.ctm" || n == "lex" || n == "words"

/-- A German lexicon that is there is refused; with `-d` none is needed; options for md-eval are refused; a language model that is not there is accepted,
and together with `-w`. -/
theorem accepted_counterexample :
    refusal files { sample with l := some "german", L := some "lex" } = some .lexicon ∧
      refusal files { sample with l := some "german", d := true } = none ∧
      refusal files { sample with M := some "-c 0.25" } = some .slm ∧
      refusal files { sample with K := some "lm" } = none ∧
      refusal files { sample with K := some "lm", w := some "words" } = none := by
  decide +kernel

example : refusal files sample = none ∧ refusal files { sample with h := some "sastt", a := true } = some .sasttFormat ∧
    refusal files { sample with h := some "SASTT", a := true, f := some "rttm" } = none ∧ refusal files { sample with o := some 2 } = some .overlap := by
  decide +kernel

end Verif.Hub
