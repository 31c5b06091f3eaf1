import Verif.CtmIn.Group
import Verif.Lines.Read
/-!
# Reading the lines
-/
set_option autoImplicit false
namespace Verif.CtmIn
open Verif.Lines (cstr isSpace cstr_eq)

theorem isSpace_iff (c : Nat) : isSpace c = true ↔ Blank c := by
  simp only [isSpace, Bool.or_eq_true, Bool.and_eq_true, decide_eq_true_eq, Blank]
  omega

theorem wordsFrom_blanks {s : List Nat} (h : ∀ b ∈ s, Blank b) (x : List Nat) : wordsFrom [] (s ++ x) = wordsFrom [] x := by
  induction s with
  | nil => rfl
  | cons b s ih =>
    rw [List.cons_append, wordsFrom, if_pos ((isSpace_iff b).2 (h b (by simp))), if_pos rfl, List.nil_append]
    exact ih (fun c hc => h c (by simp [hc]))

theorem wordsFrom_field {f : List Nat} (h : ∀ b ∈ f, ¬ Blank b) (cur x : List Nat) : wordsFrom cur (f ++ x) = wordsFrom (cur ++ f) x := by
  induction f generalizing cur with
  | nil => simp
  | cons b f ih =>
    rw [List.cons_append, wordsFrom, if_neg (fun hb => h b (by simp) ((isSpace_iff b).1 hb)), ih (fun c hc => h c (by simp [hc]))]
    simp

theorem wordsFrom_fields {line : List Nat} {fs : List (List Nat)} (h : Fields line fs) : wordsFrom [] line = fs := by
  induction h with
  | nil s hs =>
    have := wordsFrom_blanks hs []
    rw [List.append_nil] at this
    rw [this]
    rfl
  | cons s f rest fs hs hf hn hr _ ih =>
    rw [wordsFrom_blanks hs, wordsFrom_field hn, List.nil_append, ← ih]
    cases rest with
    | nil => rw [wordsFrom, if_neg hf]; rfl
    | cons b rest =>
      have hb := (isSpace_iff b).2 (hr b rfl)
      rw [wordsFrom, if_pos hb, if_neg hf, wordsFrom, if_pos hb, if_pos rfl]
      rfl

theorem scan_data {line : List Nat} {fs : List (List Nat)} (h : DataLine line fs) : scan line = fs.take 6 := by
  rw [scan, cstr_eq (fun c hc e => h.2.1 (e ▸ hc)), wordsFrom_fields h.1]

theorem scan_fits {line : List Nat} {fs : List (List Nat)} (h : DataLine line fs) : ¬ (scan line).any (fun f => 255 ≤ f.length) = true := by
  rw [scan_data h, List.any_eq_true]
  rintro ⟨f, hf, hl⟩
  have := h.2.2.2 f (List.mem_of_mem_take hf)
  simp only [decide_eq_true_eq] at hl
  omega

theorem step_word {ms : List Nat → Int} {line : List Nat} {e : Entry} (h : WordLine ms line e) (r : Rd) {st' : St}
    (hs : onWord r.st e.file e.chan e.word = .ok st') : ∃ r', step ms r line = .ok r' ∧ r'.st = st' := by
  obtain ⟨f, c, s, d, t, more, hd, ht, rfl⟩ := h
  simp only [List.mem_cons, List.not_mem_nil, or_false, not_or] at ht
  obtain ⟨t1, t2, t3⟩ := ht
  rw [step, if_neg hd.2.2.1, if_neg (scan_fits hd)]
  have hsc := scan_data hd
  cases more with
  | nil =>
    have hsc' : scan line = [f, c, s, d, t] := hsc
    rw [hsc']
    simp only [List.length_cons, List.length_nil, if_true, List.cons_append, List.getElem?_cons_zero, List.getElem?_cons_succ]
    rw [if_neg t1, if_neg t2, if_neg t3, if_neg (by simp)]
    simp only [Bool.false_eq_true, if_false]
    change onWord r.st f c ⟨ms s, ms s + ms d, t, none⟩ = _ at hs
    rw [hs]
    exact ⟨_, rfl, rfl⟩
  | cons m more =>
    have hsc' : scan line = [f, c, s, d, t, m] := hsc
    rw [hsc']
    simp only [List.length_cons, List.length_nil, List.cons_append, List.getElem?_cons_zero, List.getElem?_cons_succ]
    rw [if_neg t1, if_neg t2, if_neg t3, if_neg (by simp)]
    simp only [if_true]
    change onWord r.st f c ⟨ms s, ms s + ms d, t, some m⟩ = _ at hs
    simp only [show ((0 + 1 + 1 + 1 + 1 + 1 + 1 : Nat) = 5) = False from by simp, if_false, if_true]
    rw [hs]
    exact ⟨_, rfl, rfl⟩

theorem step_tag {ms : List Nat → Int} {line tag : List Nat} (h : TagLine tag line) (r : Rd) :
    ∃ buf uc, step ms r line =
      if tag = tagBegin then .ok ⟨buf, uc, { r.st with altBegin := true, inside := true }⟩
      else if tag = tagEnd then .ok ⟨buf, uc, { r.st with altEnd := true, inside := false }⟩
      else if tag = tagAlt then .ok ⟨buf, uc, { r.st with alt := true }⟩ else step ms r line := by
  obtain ⟨f, c, s, d, more, hd⟩ := h
  by_cases h1 : tag = tagBegin
  · refine ⟨(f :: c :: s :: d :: tag :: more).take 6 ++ r.buf.drop ((f :: c :: s :: d :: tag :: more).take 6).length,
      if ((f :: c :: s :: d :: tag :: more).take 6).length = 5 then false else
        if ((f :: c :: s :: d :: tag :: more).take 6).length = 6 then true else r.useConf, ?_⟩
    rw [if_pos h1, step, if_neg hd.2.2.1, if_neg (scan_fits hd), scan_data hd]
    cases more <;> simp [h1]
  · by_cases h2 : tag = tagEnd
    · refine ⟨(f :: c :: s :: d :: tag :: more).take 6 ++ r.buf.drop ((f :: c :: s :: d :: tag :: more).take 6).length,
        if ((f :: c :: s :: d :: tag :: more).take 6).length = 5 then false else
          if ((f :: c :: s :: d :: tag :: more).take 6).length = 6 then true else r.useConf, ?_⟩
      rw [if_neg h1, if_pos h2, step, if_neg hd.2.2.1, if_neg (scan_fits hd), scan_data hd]
      cases more <;> simp [h2, show tagEnd ≠ tagBegin from by decide]
    · by_cases h3 : tag = tagAlt
      · refine ⟨(f :: c :: s :: d :: tag :: more).take 6 ++ r.buf.drop ((f :: c :: s :: d :: tag :: more).take 6).length,
          if ((f :: c :: s :: d :: tag :: more).take 6).length = 5 then false else
            if ((f :: c :: s :: d :: tag :: more).take 6).length = 6 then true else r.useConf, ?_⟩
        rw [if_neg h1, if_neg h2, if_pos h3, step, if_neg hd.2.2.1, if_neg (scan_fits hd), scan_data hd]
        cases more <;> simp [h3, show tagAlt ≠ tagBegin from by decide, show tagAlt ≠ tagEnd from by decide]
      · exact ⟨[], true, by rw [if_neg h1, if_neg h2, if_neg h3]⟩

theorem run_body (ms : List Nat → Int) (r : Rd) (lines : List (List Nat)) : run ms r lines = run ms r (body lines) := by
  induction lines generalizing r with
  | nil => rfl
  | cons l ls ih =>
    by_cases h : l.head? = some 59
    · have : body (l :: ls) = body ls := by simp [body, h]
      rw [this, ← ih, run, step, if_pos h]
    · have : body (l :: ls) = l :: body ls := by simp [body, h]
      rw [this, run, run]
      cases step ms r l with
      | ok r' => exact ih r'
      | fatal => rfl
      | undef => rfl

theorem run_append (ms : List Nat → Int) (r : Rd) (a b : List (List Nat)) {r' : Rd} (h : run ms r a = .ok r') :
    run ms r (a ++ b) = run ms r' b := by
  induction a generalizing r with
  | nil => cases h; rfl
  | cons l a ih =>
    rw [List.cons_append, run]
    rw [run] at h
    revert h
    cases step ms r l with
    | ok r1 => exact fun h => ih r1 h
    | fatal => exact fun h => by cases h
    | undef => exact fun h => by cases h

/-- The remaining words of an alternative. -/
theorem run_inside {ms : List Nat → Int} {ls : List (List Nat)} {es : List Entry} (hw : WordLines ms ls es) :
    ∀ {r : Rd} {items : List Item} {E0 : List Nat} {done : List (List Entry)} {cur : List Entry} {init : List Seg} {s : Seg} {t : Nat},
      In r.st items E0 done cur init s t → r.st.alt = false →
      ∃ r' s' t', run ms r ls = .ok r' ∧ In r'.st items E0 done (cur ++ es) init s' t' ∧ r'.st.alt = false ∧ s'.start = s.start := by
  induction hw with
  | nil => intro r items E0 done cur init s t h ha; exact ⟨r, s, t, rfl, by simpa using h, ha, rfl⟩
  | cons l e ls es hl _ ih =>
    intro r items E0 done cur init s t h ha
    obtain ⟨st', s', t', h1, h2, h3, h4⟩ := inside_step h ha e
    obtain ⟨r1, h5, h6⟩ := step_word hl r h1
    subst h6
    obtain ⟨r', s'', t'', g1, g2, g3, g4⟩ := ih h2 h3
    refine ⟨r', s'', t'', ?_, ?_, g3, g4.trans h4⟩
    · rw [run, h5]
      exact g1
    · rwa [List.append_assoc] at g2

/-- The alternatives of a group that follow the first one. -/
theorem run_alts {ms : List Nat → Int} {gl : List (List Nat)} {alts : List (List Entry)} (hw : AltLines ms gl alts) :
    ∀ {r : Rd} {items : List Item} {E0 : List Nat} {done : List (List Entry)} {cur : List Entry} {init : List Seg} {s : Seg} {t : Nat},
      In r.st items E0 done cur init s t → r.st.alt = true →
      (∀ alt ∈ alts, ∀ x, alt.head? = some x → x.word.start = -1 ∨ s.start ≤ x.word.start) →
      ∃ r', run ms r gl = .ok r' ∧ Between r'.st (items ++ [.group (done ++ [cur] ++ alts)]) ∧ Quiet r'.st := by
  induction hw with
  | last ls es e hw hne ht =>
    intro r items E0 done cur init s t h ha htime
    cases hw with
    | nil => exact absurd rfl hne
    | cons l0 e0 ls es hl hls =>
      obtain ⟨st', s', t', h1, h2, h3, h4⟩ := alt_step h ha e0 (htime (e0 :: es) (by simp) e0 rfl)
      obtain ⟨r1, h5, h6⟩ := step_word hl r h1
      subst h6
      obtain ⟨r2, s'', t'', g1, g2, g3, g4⟩ := run_inside hls h2 h3
      obtain ⟨buf, uc, h7⟩ := step_tag (ms := ms) ht r2
      rw [if_neg (by decide), if_pos rfl] at h7
      obtain ⟨k1, k2⟩ := end_step g2 g3
      refine ⟨⟨buf, uc, _⟩, ?_, by simpa using k1, k2⟩
      · rw [List.cons_append, run, h5]
        simp only
        rw [run_append ms r1 ls _ g1, run, h7]
        rfl
  | more ls es a rest alts hw hne ht _ ih =>
    intro r items E0 done cur init s t h ha htime
    cases hw with
    | nil => exact absurd rfl hne
    | cons l0 e0 ls es hl hls =>
      obtain ⟨st', s', t', h1, h2, h3, h4⟩ := alt_step h ha e0 (htime (e0 :: es) (by simp) e0 rfl)
      obtain ⟨r1, h5, h6⟩ := step_word hl r h1
      subst h6
      obtain ⟨r2, s'', t'', g1, g2, g3, g4⟩ := run_inside hls h2 h3
      obtain ⟨buf, uc, h7⟩ := step_tag (ms := ms) ht r2
      rw [if_neg (by decide), if_neg (by decide), if_pos rfl] at h7
      have g2' : In ({ r2.st with alt := true } : St) items E0 (done ++ [cur]) ([e0] ++ es) init s'' t'' :=
        ⟨g2.altSeg, g2.segs, g2.precAltTok, g2.isFirst, g2.altEnd, g2.altBegin, g2.inside, g2.pos, g2.preds, g2.curNe, g2.tlt, g2.tword,
          g2.langT, g2.langL, g2.ends, g2.before, g2.seg, g2.valid, g2.fresh, g2.used⟩
      obtain ⟨r', k1, k2, k3⟩ := ih (r := ⟨buf, uc, { r2.st with alt := true }⟩) g2' rfl (fun alt halt x hx => by rw [g4, h4]; exact htime alt (by simp [halt]) x hx)
      refine ⟨r', ?_, ?_, k3⟩
      · rw [List.cons_append, run, h5]
        simp only
        rw [run_append ms r1 ls _ g1, run, h7]
        exact k1
      · simpa using k2

/-- A whole group. -/
theorem run_group {ms : List Nat → Int} {b : List Nat} {gl : List (List Nat)} {alts : List (List Entry)} (hb : TagLine tagBegin b)
    (hw : AltLines ms gl alts) (htime : Timely (.group alts)) {r : Rd} {items : List Item} (h : Between r.st items) (hq : Quiet r.st) :
    ∃ r', run ms r (b :: gl) = .ok r' ∧ Between r'.st (items ++ [.group alts]) ∧ Quiet r'.st := by
  obtain ⟨q1, q2, q3⟩ := hq
  obtain ⟨buf, uc, h7⟩ := step_tag (ms := ms) hb r
  rw [if_pos rfl] at h7
  have h' : Between ({ r.st with altBegin := true, inside := true } : St) items := by
    cases h with
    | start h1 h2 h3 h4 h5 h6 h7 h8 => exact .start h1 h2 h3 h4 h5 h6 h7 h8
    | word t b e h0 h1 h2 h3 h4 h5 h6 h7 => exact .word t b e h0 h1 h2 h3 h4 h5 h6 h7
    | group before alts init s t h0 h1 h2 h3 h4 h5 h6 h7 h8 h9 h10 h11 =>
      exact .group before alts init s t h0 h1 h2 h3 h4 h5 h6 h7 h8 h9 h10 h11
  have hhead : ∀ {l0 : List Nat} {e0 : Entry} {ls : List (List Nat)} {es : List Entry}, WordLine ms l0 e0 → WordLines ms ls es →
      ∃ r2 E0 init s t, run ms r (b :: l0 :: ls) = .ok r2 ∧ In r2.st items E0 [] (e0 :: es) init s t ∧ r2.st.alt = false ∧
        s.start = e0.word.start := by
    intro l0 e0 ls es hl hls
    obtain ⟨st', E0, init, s, t, h1, h2, h3⟩ := begin_step h' rfl rfl q3 e0
    obtain ⟨r1, h5, h6⟩ := step_word hl ⟨buf, uc, { r.st with altBegin := true, inside := true }⟩ h1
    subst h6
    obtain ⟨r2, s', t', g1, g2, g3, g4⟩ := run_inside hls h2 h3
    refine ⟨r2, E0, init, s', t', ?_, g2, g3, ?_⟩
    · rw [run, h7]
      simp only
      rw [run, h5]
      exact g1
    · rw [g4]
      obtain ⟨⟨e1, es1, rest, c1, _, _, c4⟩, _⟩ := h2.seg
      simp only [List.nil_append, List.cons.injEq] at c1
      rw [c1.1.1]
      exact c4
  cases hw with
  | last ls es e hw hne ht =>
    cases hw with
    | nil => exact absurd rfl hne
    | cons l0 e0 ls es hl hls =>
      obtain ⟨r2, E0, init, s, t, g1, g2, g3, g4⟩ := hhead hl hls
      obtain ⟨buf', uc', h8⟩ := step_tag (ms := ms) ht r2
      rw [if_neg (by decide), if_pos rfl] at h8
      obtain ⟨k1, k2⟩ := end_step g2 g3
      refine ⟨⟨buf', uc', _⟩, ?_, k1, k2⟩
      have : b :: (l0 :: ls ++ [e]) = (b :: l0 :: ls) ++ [e] := rfl
      rw [this, run_append ms r _ _ g1, run, h8]
      rfl
  | more ls es a rest alts hw hne ht hrest =>
    cases hw with
    | nil => exact absurd rfl hne
    | cons l0 e0 ls es hl hls =>
      obtain ⟨r2, E0, init, s, t, g1, g2, g3, g4⟩ := hhead hl hls
      obtain ⟨buf', uc', h8⟩ := step_tag (ms := ms) ht r2
      rw [if_neg (by decide), if_neg (by decide), if_pos rfl] at h8
      have g2' : In ({ r2.st with alt := true } : St) items E0 [] (e0 :: es) init s t :=
        ⟨g2.altSeg, g2.segs, g2.precAltTok, g2.isFirst, g2.altEnd, g2.altBegin, g2.inside, g2.pos, g2.preds, g2.curNe, g2.tlt, g2.tword,
          g2.langT, g2.langL, g2.ends, g2.before, g2.seg, g2.valid, g2.fresh, g2.used⟩
      obtain ⟨r', k1, k2, k3⟩ := run_alts hrest (r := ⟨buf', uc', { r2.st with alt := true }⟩) g2' rfl (fun alt halt x hx => by
          rw [g4]
          exact htime e0 es alts rfl alt (by simp [halt]) x hx)
      refine ⟨r', ?_, k2, k3⟩
      have : b :: (l0 :: ls ++ a :: rest) = (b :: l0 :: ls) ++ a :: rest := rfl
      rw [this, run_append ms r _ _ g1, run, h8]
      exact k1

theorem run_file {ms : List Nat → Int} {ls : List (List Nat)} {items : List Item} (hw : FileLines ms ls items) :
    ∀ {r : Rd} {before : List Item}, (∀ i ∈ items, Timely i) → Between r.st before → Quiet r.st →
      ∃ r', run ms r ls = .ok r' ∧ Between r'.st (before ++ items) ∧ Quiet r'.st := by
  induction hw with
  | nil => intro r before _ h hq; exact ⟨r, rfl, by simpa using h, hq⟩
  | word l e ls items hl _ ih =>
    intro r before ht h hq
    obtain ⟨st', h1, h2, h3⟩ := plain_step h hq e
    obtain ⟨r1, h5, h6⟩ := step_word hl r h1
    subst h6
    obtain ⟨r', g1, g2, g3⟩ := ih (fun i hi => ht i (by simp [hi])) h2 h3
    refine ⟨r', ?_, by simpa using g2, g3⟩
    rw [run, h5]
    exact g1
  | group b gl alts ls items hb hg _ ih =>
    intro r before ht h hq
    obtain ⟨r1, h1, h2, h3⟩ := run_group hb hg (ht _ (by simp)) h hq
    obtain ⟨r', g1, g2, g3⟩ := ih (fun i hi => ht i (by simp [hi])) h2 h3
    refine ⟨r', ?_, by simpa using g2, g3⟩
    have : b :: (gl ++ ls) = (b :: gl) ++ ls := rfl
    rw [this, run_append ms r _ _ h1]
    exact g1

theorem start_between : Between st0 [] := by
  refine .start rfl rfl rfl rfl rfl rfl rfl ⟨?_, ?_, ?_⟩
  all_goals intros; simp_all [st0]

end Verif.CtmIn
