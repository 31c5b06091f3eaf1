import Verif.AscSgml.Doc
/-!
# asclite's alignment report and its reading by sclite: properties C201-C206
-/
set_option autoImplicit false
namespace Verif.AscSgml
open Verif.Text Verif.Lines
open Verif.Scorer (Verdict)
open Verif.Sgml (Entry LWord Ev2)

/-- What is read says what was aligned for the system: the title, files, date and settings; for each speaker that occurs one
group with a path for each of its segments; ordered by sequence number within a speaker if each speech is one
speaker's. -/
def Faithful (o : Opts) (sys ref : List Nat) (al : List Speech) (y : LSys) : Prop :=
  ∃ gs, Grouped (allSegs al) gs ∧ viewSys y = reportOf o sys ref (al.head?.elim [] Speech.cats) al gs ∧
    ((∀ x ∈ al, OneSpeaker x) → ∀ g ∈ gs, g.2.Pairwise fun a b => a.seq ≤ b.seq)

/-- A report to be written: the settings, the system, the reference file, the alignment. -/
structure Job where
  o : Opts
  sys : List Nat
  ref : List Nat
  al : List Speech

/-- The reports one after the other. -/
def genAll : List Job → Option (List (List Nat))
  | [] => some []
  | j :: js =>
    match genSystem j.o j.sys j.al, genAll js with
    | some a, some b => some (a ++ b)
    | _, _ => none

theorem jobs_steps (e : Enc) (js : List Job) (h : ∀ j ∈ js, AlOk e j.o j.sys j.ref j.al) : ∀ (done : List LSys) (K : List Verif.AscSgml.AKind),
    ∃ ls ys K', genAll js = some ls ∧ (∀ l ∈ ls, IsLine l) ∧ ys.length = js.length ∧
      (∀ (i : Nat) (j : Job) (y : LSys), js[i]? = some j → ys[i]? = some y → Faithful j.o j.sys j.ref j.al y) ∧
      steps e (outside done K) ls = some (outside (done ++ ys) K') := by
  induction js with
  | nil =>
    intro done K
    exact ⟨[], [], K, rfl, fun l hl => (by cases hl), rfl, fun i j y hj => (by simp at hj), by rw [List.append_nil]; rfl⟩
  | cons j js ih =>
    intro done K
    obtain ⟨o, sys, ref, al⟩ := j
    have hj := h _ List.mem_cons_self
    obtain ⟨sp, sps, hal, _⟩ := hj.first
    dsimp only at hj hal
    subst hal
    obtain ⟨l1, y, gs, K1, a1, a2, a3, a4, a5, a6⟩ := system_steps e o sys ref sp sps hj done K
    obtain ⟨l2, ys, K2, b1, b2, b3, b4, b5⟩ := ih (fun x hx => h x (List.mem_cons_of_mem _ hx)) (done ++ [y]) K1
    refine ⟨l1 ++ l2, y :: ys, K2, ?_, ?_, by rw [List.length_cons, b3, List.length_cons], ?_, ?_⟩
    · show (match genSystem o sys (sp :: sps), genAll js with
        | some a, some b => some (a ++ b)
        | _, _ => none) = _
      rw [a1, b1]
    · intro l hl
      rcases List.mem_append.1 hl with hl | hl
      · exact a2 l hl
      · exact b2 l hl
    · intro i j z hj hz
      cases i with
      | zero =>
        have e1 : (⟨o, sys, ref, sp :: sps⟩ : Job) = j := by simpa using hj
        have e2 : y = z := by simpa using hz
        subst e1 e2
        exact ⟨gs, a3, a5, a4⟩
      | succ i => exact b4 i j z (by simpa using hj) (by simpa using hz)
    · rw [steps_append, a6, Option.bind_some, b5]
      simp

/-- **C201**: the alignment reports that asclite writes, one or several in a file, are read back by sclite as what was
aligned: one system for each report, faithful to its alignment.  For every encoding, every alignment whose token alignments
were all scored for the system (`AlOk`), every line buffer. -/
theorem C201_report_read_back (e : Enc) (cap len : Nat) (hl : 2 ≤ len) (hc : len ≤ cap) (js : List Job)
    (h : ∀ j ∈ js, AlOk e j.o j.sys j.ref j.al) :
    ∃ ls ys, genAll js = some ls ∧ loadFile e cap len ls.flatten = some ys ∧ ys.length = js.length ∧
      ∀ (i : Nat) (j : Job) (y : LSys), js[i]? = some j → ys[i]? = some y → Faithful j.o j.sys j.ref j.al y := by
  obtain ⟨ls, ys, K', a1, a2, a3, a4, a5⟩ := jobs_steps e js h [] []
  refine ⟨ls, ys, a1, ?_, a3, a4⟩
  have e0 : steps e LState.new ls = some (outside ([] ++ ys) K') := a5
  unfold loadFile
  rw [readAll_lines cap len hl hc ls a2]
  dsimp only
  rw [e0]
  rfl

/-- What a report says of two systems' reports that are read as the same is the same: nothing that `reportOf` mentions is
lost in writing. -/
theorem C201_injective (e : Enc) (cap len : Nat) (hl : 2 ≤ len) (hc : len ≤ cap) (o : Opts) (sys ref : List Nat) (al al' : List Speech)
    (h : AlOk e o sys ref al) (h' : AlOk e o sys ref al') (heq : genSystem o sys al = genSystem o sys al') :
    ∃ gs gs', Grouped (allSegs al) gs ∧ Grouped (allSegs al') gs' ∧
      gs.map (fun g => (g.1, g.2.map (pathOf o sys))) = gs'.map (fun g => (g.1, g.2.map (pathOf o sys))) := by
  have one : ∀ al : List Speech, genAll [⟨o, sys, ref, al⟩] = genSystem o sys al := by
    intro al
    show (match genSystem o sys al, some [] with
        | some a, some b => some (a ++ b)
        | _, _ => none) = _
    cases genSystem o sys al with
    | none => rfl
    | some a => show some (a ++ []) = _; rw [List.append_nil]
  obtain ⟨ls, ys, a1, a2, a3, a4⟩ := C201_report_read_back e cap len hl hc [⟨o, sys, ref, al⟩] (fun j hj => by
    rw [List.mem_singleton.1 hj]; exact h)
  obtain ⟨ls', ys', b1, b2, b3, b4⟩ := C201_report_read_back e cap len hl hc [⟨o, sys, ref, al'⟩] (fun j hj => by
    rw [List.mem_singleton.1 hj]; exact h')
  rw [one, heq] at a1
  rw [one, a1] at b1
  cases b1
  rw [a2] at b2
  cases b2
  have a3 : ys.length = 1 := a3
  obtain ⟨y, rfl⟩ := List.length_eq_one_iff.1 a3
  obtain ⟨gs, g1, g2, _⟩ := a4 0 _ y rfl rfl
  obtain ⟨gs', g1', g2', _⟩ := b4 0 _ y rfl rfl
  refine ⟨gs, gs', g1, g1', ?_⟩
  dsimp only at g2 g2'
  rw [g2] at g2'
  exact congrArg RSys.grps g2'

/-! A report with two speakers, all kinds of results, times, a confidence and a category. -/

/-- The bytes of an ASCII text, for the examples. -/
def bytes (s : String) : List Nat := s.toList.map Char.toNat

/-- A token of the examples. -/
def xTok (w : String) (a b : Int) : Tok := ⟨bytes w, bytes w, .no, false, a, b, none, bytes "s1", bytes "h.ctm"⟩

/-- The system of the examples. -/
def xSys : List Nat := bytes "dir/sys1"

/-- A token alignment of the examples. -/
def xTA (v : Verdict) (r h : Option Tok) : TA := ⟨r, [(xSys, ⟨some v, h⟩)]⟩

/-- A segment of the examples. -/
def xSeg (spk : String) (n : Nat) (ts : List TA) : Seg :=
  ⟨bytes spk, bytes "(f-1)", bytes "<o,f0>", bytes "f", bytes "A", n, 0, 2500, ts⟩

/-- The alignment of the examples. -/
def xAl : List Speech :=
  [⟨bytes "r.stm", [⟨nCATEGORY, [48], [], bytes "all"⟩],
    [xSeg "s1" 2 [xTA .correct (some (xTok "a" 100 250)) (some { xTok "a" 100 250 with conf := some (bytes "0.500000") }),
                  xTA .deletion (some { xTok "b" (-1) (-1) with optional := true, frag := .begin }) none]]⟩,
   ⟨bytes "r.stm", [], [xSeg "s2" 1 [xTA .insertion none (some (xTok "c" 0 10)), xTA .speakerSub (some (xTok "d" 5 7)) (some (xTok "d" 5 7))]]⟩]

/-- The settings of the examples. -/
def xOpts : Opts := ⟨false, true, false, true, bytes "today"⟩

theorem xTok_ok (w : String) (hw : ∀ x ∈ bytes w, 0 < x ∧ x < 128 ∧ x ≠ 34 ∧ x ≠ 10) (a b : Int) (fr : Token.Frag) (op : Bool)
    (c : Option (List Nat)) (hc : ∀ x, c = some x → Sgml.IsNumber x) :
    TokOk { xTok w a b with frag := fr, optional := op, conf := c } := by
  refine ⟨?_, hc, show ∀ x ∈ bytes "s1", 0 < x ∧ x < 128 ∧ x ≠ 34 ∧ x ≠ 44 ∧ x ≠ 58 ∧ x ≠ 10 by decide⟩
  intro x hx
  have hx : x ∈ bytes w ++ bytes w := hx
  have := hw x (by simpa using hx)
  omega

theorem xFile (e : Enc) : Clean e (bytes "h.ctm") := clean_ascii e _ (by decide)

theorem xSeg_ok (e : Enc) (spk : String) (hs : ∀ x ∈ bytes spk, 0 < x ∧ x < 128 ∧ x ≠ 34 ∧ x ≠ 10) (n : Nat) (ts : List TA)
    (h : ∀ t ∈ ts, (∀ k, t.ref = some k → TokOk k) ∧
      ∃ ev v, t.get xSys = some ev ∧ ev.res = some v ∧ Judged v t.ref ev.tok ∧ ∀ k, ev.tok = some k → TokOk k ∧ Clean e k.file) :
    SegOk e xSys (xSeg spk n ts) :=
  ⟨clean_ascii e _ hs, clean_ascii e (bytes "(f-1)") (by decide), clean_ascii e (bytes "<o,f0>") (by decide),
   clean_ascii e (bytes "f") (by decide), clean_ascii e (bytes "A") (by decide), h⟩

theorem xAl_ok (e : Enc) : AlOk e xOpts xSys (bytes "r.stm") xAl := by
  have hn : ∀ x, (none : Option (List Nat)) = some x → Sgml.IsNumber x := fun x h => (by cases h)
  have hv : ∀ x, some (bytes "0.500000") = some x → Sgml.IsNumber x := by
    intro x h
    cases h
    unfold Sgml.IsNumber
    decide
  refine ⟨⟨_, _, rfl, by decide, ?_⟩, ⟨clean_ascii e _ (by decide), by decide⟩, clean_ascii e _ (by decide), clean_ascii e _ (by decide), ?_⟩
  · intro c hc
    have hc : c ∈ [(⟨nCATEGORY, [48], [], bytes "all"⟩ : Cat)] := hc
    rw [List.mem_singleton.1 hc]
    exact ⟨Or.inr rfl, clean_ascii e _ (by decide), clean_ascii e _ (by decide), clean_ascii e _ (by decide)⟩
  · intro g hg
    have hg : g ∈ [_, _] := hg
    rcases List.mem_cons.1 hg with rfl | hg
    · refine xSeg_ok e _ (by decide) _ _ ?_
      intro t ht
      rcases List.mem_cons.1 ht with rfl | ht
      · refine ⟨fun k hk => ?_, _, _, rfl, rfl, trivial, fun k hk => ?_⟩ <;> cases hk
        · exact xTok_ok "a" (by decide) _ _ _ _ _ hn
        · exact ⟨xTok_ok "a" (by decide) _ _ _ _ _ hv, xFile e⟩
      · rw [List.mem_singleton.1 ht]
        refine ⟨fun k hk => ?_, _, _, rfl, rfl, ⟨rfl, rfl⟩, fun k hk => ?_⟩ <;> cases hk
        exact xTok_ok "b" (by decide) _ _ _ _ _ hn
    · rw [List.mem_singleton.1 hg]
      refine xSeg_ok e _ (by decide) _ _ ?_
      intro t ht
      rcases List.mem_cons.1 ht with rfl | ht
      · refine ⟨fun k hk => ?_, _, _, rfl, rfl, ⟨rfl, rfl⟩, fun k hk => ?_⟩ <;> cases hk
        exact ⟨xTok_ok "c" (by decide) _ _ _ _ _ hn, xFile e⟩
      · rw [List.mem_singleton.1 ht]
        refine ⟨fun k hk => ?_, _, _, rfl, rfl, ⟨rfl, rfl⟩, fun k hk => ?_⟩ <;> cases hk
        · exact xTok_ok "d" (by decide) _ _ _ _ _ hn
        · exact ⟨xTok_ok "d" (by decide) _ _ _ _ _ hn, xFile e⟩

/-- The hypotheses of C201 are met: this report twice in a file. -/
example : ∃ ls ys, genAll [⟨xOpts, xSys, bytes "r.stm", xAl⟩, ⟨xOpts, xSys, bytes "r.stm", xAl⟩] = some ls ∧
    loadFile .utf8 5000 5000 ls.flatten = some ys ∧ ys.length = 2 := by
  obtain ⟨ls, ys, a, b, c, _⟩ := C201_report_read_back .utf8 5000 5000 (by omega) (by omega)
    [⟨xOpts, xSys, bytes "r.stm", xAl⟩, ⟨xOpts, xSys, bytes "r.stm", xAl⟩] (fun j hj => by
      simp only [List.mem_cons, List.not_mem_nil, or_false, or_self] at hj
      rw [hj]; exact xAl_ok _)
  exact ⟨ls, ys, a, b, c⟩

/-- The second speaker comes first in the report: its sequence number is smaller. -/
example : ((prepAll xSys Prep.new xAl).map fun s => (sortBy Spk.seq s.spks).map Spk.name) = some [bytes "s2", bytes "s1"] := by decide

/-! ## C202 -/

/-- **C202**: the words of a segment survive: the line written for a segment's token alignments is read, whatever values
are declared for the report, as the same number of elements, each with its result, its display form, its confidence
and its times to the millisecond. -/
theorem C202_line_read_back (e : Enc) (o : Opts) (sys : List Nat) (ps : List Spk) (p : Spk) (hp : p ∈ ps) (g : Seg) (hg : g ∈ p.segs)
    (h : SegOk e sys g) :
    ∃ l es, tokLines o (flagsOf sys ps) sys g.toks = some l ∧ loadLine e (kinds o (flagsOf sys ps)) (l ++ [10]) = some es ∧
      es.length = g.toks.length ∧ es.map viewEntry = entriesOf o.caseSens sys g.toks := by
  obtain ⟨l, l1, l2, _⟩ := loadLine_spec e o (flagsOf sys ps) sys (kinds o (flagsOf sys ps)) (Or.inl rfl) g.toks (ready_of e sys g h)
  exact ⟨l, _, l1, l2, by rw [List.length_map],
    entries_view o (flagsOf sys ps) sys g.toks (ready_of e sys g h) (fun t ht => flagsOf_covers sys ps p hp g hg t ht)⟩

/-- Times are exact: what is printed for a time of `n` milliseconds stands for `n` milliseconds, and different times are
printed differently. -/
theorem C202_times_exact (m n : Nat) : millis (secs m) = m ∧ (secs m = secs n → m = n) := by
  have h : ∀ n : Nat, millis (secs n) = n := fun n => by rw [millis_secs]; rfl
  exact ⟨h m, fun he => by rw [← h m, he, h n]⟩

example : secs 61005 = bytes "61.005" := by decide

/-- Which auxiliary values are declared: times or confidences of a side exactly when some token of that side in the report
has them (stated for the times of the reference and the confidences of the system). -/
theorem C202_declared (sys : List Nat) (ps : List Spk) :
    ((flagsOf sys ps).refT = true ↔ ∃ p ∈ ps, ∃ g ∈ p.segs, ∃ t ∈ g.toks, ∃ k, t.ref = some k ∧ 0 ≤ k.start ∧ 0 ≤ k.stop) ∧
    ((flagsOf sys ps).hypC = true ↔ ∃ p ∈ ps, ∃ g ∈ p.segs, ∃ t ∈ g.toks, ∃ ev k c, t.get sys = some ev ∧ ev.tok = some k ∧ k.conf = some c) := by
  have key : ∀ (ts : List TA) (f : Flags),
      ((ts.foldl (Flags.look sys) f).refT = true ↔ f.refT = true ∨ ∃ t ∈ ts, ∃ k, t.ref = some k ∧ 0 ≤ k.start ∧ 0 ≤ k.stop) ∧
      ((ts.foldl (Flags.look sys) f).hypC = true ↔ f.hypC = true ∨ ∃ t ∈ ts, ∃ ev k c, t.get sys = some ev ∧ ev.tok = some k ∧ k.conf = some c) := by
    intro ts
    induction ts with
    | nil => intro f; simp
    | cons t ts ih =>
      intro f
      obtain ⟨i1, i2⟩ := ih (f.look sys t)
      have l1 : (f.look sys t).refT = true ↔ f.refT = true ∨ ∃ k, t.ref = some k ∧ 0 ≤ k.start ∧ 0 ≤ k.stop := by
        cases hr : t.ref <;> simp [Flags.look, hr, timeReal]
      have l2 : (f.look sys t).hypC = true ↔ f.hypC = true ∨ ∃ ev k c, t.get sys = some ev ∧ ev.tok = some k ∧ k.conf = some c := by
        cases hg : t.get sys with
        | none => simp [Flags.look, hg]
        | some ev =>
          cases hk : ev.tok with
          | none => simp [Flags.look, hg, hk]
          | some k => cases hc : k.conf <;> simp [Flags.look, hg, hk, hc]
      rw [List.foldl_cons, i1, i2, l1, l2]
      simp only [List.mem_cons, exists_eq_or_imp, or_assoc, and_self]
  unfold flagsOf
  obtain ⟨k1, k2⟩ := key ((ps.flatMap Spk.segs).flatMap Seg.toks) ⟨false, false, false, false⟩
  rw [k1, k2]
  simp only [List.mem_flatMap, Bool.false_eq_true, false_or]
  constructor
  · constructor
    · rintro ⟨t, ⟨g, ⟨p, hp, hg⟩, ht⟩, h⟩; exact ⟨p, hp, g, hg, t, ht, h⟩
    · rintro ⟨p, hp, g, hg, t, ht, h⟩; exact ⟨t, ⟨g, ⟨p, hp, hg⟩, ht⟩, h⟩
  · constructor
    · rintro ⟨t, ⟨g, ⟨p, hp, hg⟩, ht⟩, h⟩; exact ⟨p, hp, g, hg, t, ht, h⟩
    · rintro ⟨p, hp, g, hg, t, ht, h⟩; exact ⟨t, ⟨g, ⟨p, hp, hg⟩, ht⟩, h⟩

/-! ## C203 -/

/-- **C203**: preparing the speakers loses no segment and invents none: each segment stands exactly once, under its
speaker; the speakers are ordered by their smallest sequence number.  For every alignment that does not crash the
program. -/
theorem C203_segments_kept (sys : List Nat) (al : List Speech) (s : Prep) (h : prepAll sys Prep.new al = some s)
    (hk : ∀ sp ∈ al, ∀ g ∈ sp.segs, Known sys g) (ref : List Nat) (hr : ∀ sp ∈ al, sp.refFile = ref)
    (hf : ∃ sp sps, al = sp :: sps ∧ sp.segs ≠ []) :
    Grouped (allSegs al) (groupsOf (sortBy Spk.seq s.spks)) := by
  obtain ⟨sp, sps, e1, e2⟩ := hf
  obtain ⟨s', a1, a2, _⟩ := prepAll_spec sys ref al Prep.new [] (pinv_new sys) hk hr (Or.inr ⟨sp, sps, e1, rfl, e2⟩)
  rw [h] at a1
  cases a1
  rw [List.nil_append] at a2
  exact grouped _ _ a2.inv

/-- Within a speaker the segments are in order of sequence number only if each speech is one speaker's: of a speech with
segments of two speakers only the last segment's speaker is put in order. -/
theorem C203_violation_unsorted : ∃ (al : List Speech) (s : Prep) (p : Spk), prepAll xSys Prep.new al = some s ∧ p ∈ s.spks ∧
    ¬ p.segs.Pairwise fun a b => a.seq ≤ b.seq :=
  ⟨[⟨[], [], [xSeg "s1" 5 [xTA .insertion none (some (xTok "a" 0 1))], xSeg "s1" 3 [xTA .insertion none (some (xTok "a" 0 1))],
      xSeg "s2" 4 [xTA .insertion none (some (xTok "a" 0 1))]]⟩], _,
    ⟨bytes "s1", 3, [xSeg "s1" 5 [xTA .insertion none (some (xTok "a" 0 1))], xSeg "s1" 3 [xTA .insertion none (some (xTok "a" 0 1))]]⟩,
    rfl, List.mem_cons_self, by decide⟩

/-! ## C204 -/

/-- **C204**: what the scorer decides can be written: the result it gives to a pair fits the tokens of the pair, for every
setting and every comparison of texts. -/
theorem C204_scored_fits (eqv : Scorer.Str → Scorer.Str → Bool) (opt : Scorer.Str) (spk : Bool) (m : Scorer.SpkMap) (f : Tok → Scorer.Tok)
    (ref hyp : Option Tok) (v : Verdict) (h : Scorer.verdict eqv opt spk m (ref.map f) (hyp.map f) = some v) : Judged v ref hyp := by
  cases ref with
  | none =>
    cases hyp with
    | none => cases h
    | some k =>
      have h : some (if (f k).optional && (Scorer.optFlags opt).2 then Verdict.correct else Verdict.insertion) = some v := h
      split at h <;> cases h
      · trivial
      · exact ⟨rfl, rfl⟩
  | some r =>
    cases hyp with
    | none =>
      have h : some (if (f r).optional && (Scorer.optFlags opt).1 then Verdict.correct else Verdict.deletion) = some v := h
      split at h <;> cases h
      · trivial
      · exact ⟨rfl, rfl⟩
    | some k =>
      have h : some (if eqv (f r).text (f k).text then
        if spk then
          if Scorer.getRef m (f k).source (f k).channel (f k).speaker = (f r).speaker then Verdict.correct else Verdict.speakerSub
        else Verdict.correct
        else Verdict.substitution) = some v := h
      split at h
      · split at h
        · split at h <;> cases h
          · trivial
          · exact ⟨rfl, rfl⟩
        · cases h; trivial
      · cases h; exact ⟨rfl, rfl⟩

example : Scorer.verdict (· == ·) "ref".toList false [] (some ⟨['a'], false, [], [], []⟩) none = some .deletion := by decide

/-- Writing a segment's line needs a result of this system for every token alignment: if one has none, the program
dereferences NULL. -/
theorem C204_needs_every_result (o : Opts) (f : Flags) (sys : List Nat) (ts : List TA) (t : TA) (ht : t ∈ ts) (hn : t.get sys = none) :
    tokLines o f sys ts = none := by
  induction ts with
  | nil => cases ht
  | cons t' ts ih =>
    have h0 : tokLine o f sys t = none := by
      unfold tokLine
      rw [hn]
    rcases List.mem_cons.1 ht with rfl | ht
    · cases ts with
      | nil => exact h0
      | cons t2 ts =>
        show (match tokLine o f sys t, tokLines o f sys (t2 :: ts) with
          | some a, some b => some (a ++ 58 :: b)
          | _, _ => none) = none
        rw [h0]
    · cases ts with
      | nil => cases ht
      | cons t2 ts =>
        show (match tokLine o f sys t', tokLines o f sys (t2 :: ts) with
          | some a, some b => some (a ++ 58 :: b)
          | _, _ => none) = none
        rw [ih ht]
        cases tokLine o f sys t' <;> rfl

/-- Violations: two systems aligned with the same reference share the segment's token alignments, and a word that only one
of them inserted has no result for the other, whose report crashes the program; so do an alignment without speeches and
one whose first speech has no segments. -/
theorem C204_violation_crash :
    genSystem xOpts xSys [⟨[], [], [xSeg "s1" 1 [xTA .insertion none (some (xTok "a" 0 1)),
      ⟨none, [(bytes "other", ⟨some .insertion, some (xTok "b" 0 1)⟩)]⟩]]⟩] = none ∧
    genSystem xOpts xSys [] = none ∧
    genSystem xOpts xSys [⟨[], [], []⟩, ⟨[], [], [xSeg "s1" 1 [xTA .insertion none (some (xTok "a" 0 1))]]⟩] = none := by
  refine ⟨by rfl, rfl, rfl⟩

/-! ## C205 -/

/-- **C205** (partial): the name of the hypothesis file in a report is the file of the first token of the system that begins
a segment.  Missing: it is empty if every segment begins with a deletion (`C205_violation_empty`). -/
theorem C205_hyp_file_partial (sys : List Nat) (al : List Speech) (file : List Nat)
    (hf : ∀ g ∈ allSegs al, ∀ t ∈ g.toks, ∀ ev k, t.get sys = some ev → ev.tok = some k → k.file = file)
    (hx : ∃ g ∈ allSegs al, ∃ t ts ev k, g.toks = t :: ts ∧ t.get sys = some ev ∧ ev.tok = some k) : hypFile sys al = file := by
  unfold hypFile
  cases hh : (allSegs al).findSome? fun g => g.toks.head?.bind fun t => (t.get sys).bind fun ev => ev.tok.map Tok.file with
  | none =>
    obtain ⟨g, hg, t, ts, ev, k, h1, h2, h3⟩ := hx
    have := List.findSome?_eq_none_iff.1 hh g hg
    rw [h1] at this
    simp [h2, h3] at this
  | some x =>
    obtain ⟨g, hg, hy⟩ := List.exists_of_findSome?_eq_some hh
    cases ht : g.toks with
    | nil => rw [ht] at hy; cases hy
    | cons t ts =>
      rw [ht] at hy
      have hy : ((t.get sys).bind fun ev => ev.tok.map Tok.file) = some x := hy
      cases hev : t.get sys with
      | none => rw [hev] at hy; cases hy
      | some ev =>
        rw [hev, Option.bind_some] at hy
        obtain ⟨k, hk, rfl⟩ := Option.map_eq_some_iff.1 hy
        exact hf g hg t (by rw [ht]; exact List.mem_cons_self) ev k hev hk

example : hypFile xSys xAl = bytes "h.ctm" := by decide

/-- The file name is missing from the report if every segment begins with a deletion. -/
theorem C205_violation_empty : ∃ al : List Speech, (∃ s, prepAll xSys Prep.new al = some s ∧ s.hyp = []) ∧
    (∃ g ∈ allSegs al, ∃ t ∈ g.toks, ∃ ev k, t.get xSys = some ev ∧ ev.tok = some k ∧ k.file ≠ []) :=
  ⟨[⟨[], [], [xSeg "s1" 1 [xTA .deletion (some (xTok "a" 0 1)) none, xTA .correct (some (xTok "b" 0 1)) (some (xTok "b" 0 1))]]⟩],
    ⟨_, rfl, rfl⟩, _, List.mem_singleton.2 rfl, xTA .correct (some (xTok "b" 0 1)) (some (xTok "b" 0 1)), by decide, _, _, rfl, rfl, by decide⟩

/-! ## C206 -/

/-- **C206** (partial): each report goes to its own file, named after the system's file with the suffix `.sgml`, in the
output directory if one is given; two systems get the same file only if their names agree (in a directory: their names
without the path).  Missing: the report survives only if the file can be opened (`C206_violation_lost`). -/
theorem C206_own_file_partial (canOpen : List Nat → Bool) (dir a b : List Nat) (ha : canOpen (fileName dir a) = true)
    (hb : canOpen (fileName dir b) = true) :
    dest canOpen true dir a = .file (fileName dir a) ∧ ext <:+ fileName dir a ∧
    (dest canOpen true dir a = dest canOpen true dir b ↔ if dir = [] then a = b else baseName a = baseName b) := by
  have e1 : ∀ x, canOpen (fileName dir x) = true → dest canOpen true dir x = .file (fileName dir x) := by
    intro x hx
    unfold dest
    rw [if_pos rfl, if_pos hx]
  refine ⟨e1 a ha, ?_, ?_⟩
  · unfold fileName
    split
    · exact ⟨a, rfl⟩
    · exact ⟨dir ++ 47 :: baseName a, by simp⟩
  · rw [e1 a ha, e1 b hb]
    unfold fileName
    by_cases hd : dir = []
    · simp [hd]
    · simp [hd]

example : fileName (bytes "out") xSys = bytes "out/sys1.sgml" := by decide

/-- If the file cannot be opened the program says that the report goes to the standard output, but it is lost. -/
theorem C206_violation_lost (dir a : List Nat) : dest (fun _ => false) true dir a = .lost ∧ dest (fun _ => false) true dir a ≠ .stdout := by
  refine ⟨rfl, by intro h; cases h⟩

/-- A quote in a word breaks the report: the words `a"b` is not read back. -/
theorem C206_violation_quote : ∃ l, tokLines xOpts ⟨false, false, false, false⟩ xSys [xTA .insertion none (some (xTok "a\"b" (-1) (-1)))] = some l ∧
    ∀ es, loadLine .ascii (kinds xOpts ⟨false, false, false, false⟩) (l ++ [10]) = some es →
      es.map viewEntry ≠ entriesOf false xSys [xTA .insertion none (some (xTok "a\"b" (-1) (-1)))] := by
  refine ⟨_, rfl, ?_⟩
  intro es h
  revert h
  revert es
  decide

end Verif.AscSgml
