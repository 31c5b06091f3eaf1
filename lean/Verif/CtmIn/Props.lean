import Verif.CtmIn.Any
/-!
# Properties of reading CTM files
-/
set_option autoImplicit false
namespace Verif.CtmIn

/-! ## Helpers for the examples -/

theorem fields_blank {c : Nat} (hc : Blank c) {x : List Nat} {fs : List (List Nat)} (h : Fields x fs) : Fields (c :: x) fs := by
  cases h with
  | nil _ hs =>
    refine .nil _ (fun b hb => ?_)
    rcases List.mem_cons.1 hb with hb | hb
    · rw [hb]; exact hc
    · exact hs b hb
  | cons s f rest fs hs hf hn hr hrest =>
    refine Fields.cons (c :: s) f rest fs (fun b hb => ?_) hf hn hr hrest
    rcases List.mem_cons.1 hb with hb | hb
    · rw [hb]; exact hc
    · exact hs b hb

theorem fields_words (line : List Nat) : ∀ cur : List Nat, (∀ b ∈ cur, ¬ Blank b) → Fields (cur ++ line) (wordsFrom cur line) := by
  induction line with
  | nil =>
    intro cur hcur
    by_cases h : cur = []
    · subst h
      exact .nil [] (by simp)
    · rw [wordsFrom, if_neg h]
      exact .cons [] cur [] [] (by simp) h hcur (by simp) (.nil [] (by simp))
  | cons c s ih =>
    intro cur hcur
    by_cases hc : Blank c
    · rw [wordsFrom, if_pos ((isSpace_iff c).2 hc)]
      have h1 : Fields (c :: s) (wordsFrom [] s) := fields_blank hc (ih [] (by simp))
      by_cases h : cur = []
      · subst h
        exact h1
      · rw [if_neg h]
        exact .cons [] cur (c :: s) _ (by simp) h hcur (by simpa using hc) h1
    · rw [wordsFrom, if_neg (fun hb => hc ((isSpace_iff c).1 hb))]
      have := ih (cur ++ [c]) (by
        intro b hb
        rcases List.mem_append.1 hb with hb | hb
        · exact hcur b hb
        · rw [List.mem_singleton.1 hb]; exact hc)
      rwa [List.append_assoc] at this

theorem dataLine_of {line : List Nat} {fs : List (List Nat)}
    (h : wordsFrom [] line = fs ∧ 0 ∉ line ∧ line.head? ≠ some 59 ∧ ∀ f ∈ fs, f.length < 255) : DataLine line fs := by
  obtain ⟨h1, h2⟩ := h
  exact ⟨h1 ▸ fields_words line [] (by simp), h2⟩

/-- The bytes of a text. -/
def bytes (s : String) : List Nat := s.toList.map Char.toNat

/-- Whole seconds, written as digits. -/
def secs (s : List Nat) : Int := 1000 * ((s.foldl (fun n c => 10 * n + (c - 48)) 0 : Nat) : Int)

/-- `f 1 0 1 a`, `f 1 * * <ALT_BEGIN>`, `f 1 1 1 b`, `f 1 * * <ALT>`, `f 1 1 1 c 0.5`, `f 1 2 1 d`, `f 1 * * <ALT_END>`, `f 1 3 1 e` -/
def sample : List (List Nat) :=
  [bytes ";; a comment", bytes "f 1 0 1 a", bytes "f 1 * * <ALT_BEGIN>", bytes "f 1 1 1 b", bytes "f 1 * * <ALT>", bytes "f 1 1 1 c 0.5",
    bytes "f 1 2 1 d", bytes "f 1 * * <ALT_END>", bytes "f 1 3 1 e"]

def ent (a b : Int) (t : String) (c : Option String) : Entry := ⟨bytes "f", bytes "1", ⟨a, b, bytes t, c.map bytes⟩⟩

def sampleItems : List Item :=
  [.word (ent 0 1000 "a" none), .group [[ent 1000 2000 "b" none], [ent 1000 2000 "c" (some "0.5"), ent 2000 3000 "d" none]],
    .word (ent 3000 4000 "e" none)]

theorem sample_lines : FileLines secs (body sample) sampleItems := by
  have hb : body sample = bytes "f 1 0 1 a" :: bytes "f 1 * * <ALT_BEGIN>" ::
      (([bytes "f 1 1 1 b"] ++ bytes "f 1 * * <ALT>" :: ([bytes "f 1 1 1 c 0.5", bytes "f 1 2 1 d"] ++ [bytes "f 1 * * <ALT_END>"])) ++
        [bytes "f 1 3 1 e"]) := by decide
  rw [hb]
  refine .word _ _ _ _ ⟨bytes "f", bytes "1", bytes "0", bytes "1", bytes "a", [], dataLine_of (by decide), by decide, by decide⟩ ?_
  refine .group _ _ _ _ _ ⟨bytes "f", bytes "1", bytes "*", bytes "*", [], dataLine_of (by decide)⟩ ?_ ?_
  · refine .more _ _ _ _ _ (.cons _ _ _ _ ⟨bytes "f", bytes "1", bytes "1", bytes "1", bytes "b", [], dataLine_of (by decide), by decide, by decide⟩ .nil)
      (by simp) ⟨bytes "f", bytes "1", bytes "*", bytes "*", [], dataLine_of (by decide)⟩ ?_
    refine .last _ _ _ (.cons _ _ _ _ ⟨bytes "f", bytes "1", bytes "1", bytes "1", bytes "c", [bytes "0.5"], dataLine_of (by decide), by decide, by decide⟩
      (.cons _ _ _ _ ⟨bytes "f", bytes "1", bytes "2", bytes "1", bytes "d", [], dataLine_of (by decide), by decide, by decide⟩ .nil)) (by simp)
      ⟨bytes "f", bytes "1", bytes "*", bytes "*", [], dataLine_of (by decide)⟩
  · exact .word _ _ _ _ ⟨bytes "f", bytes "1", bytes "3", bytes "1", bytes "e", [], dataLine_of (by decide), by decide, by decide⟩ .nil

theorem sample_timely : ∀ i ∈ sampleItems, Timely i := by
  intro i hi
  simp only [sampleItems, List.mem_cons, List.not_mem_nil, or_false] at hi
  rcases hi with rfl | rfl | rfl
  · trivial
  · intro e0 es0 rest h alt ha e he
    simp only [List.cons.injEq] at h
    simp only [List.mem_cons, List.not_mem_nil, or_false] at ha
    obtain ⟨⟨h1, _⟩, _⟩ := h
    subst h1
    rcases ha with rfl | rfl <;> cases he <;> (right; decide)
  · trivial

/-! ## Readings -/

theorem between_spells {st : St} {items : List Item} (h : Between st items) (hi : items ≠ []) (ws : List Word) :
    Spells st.net ws ↔ Reading items ws := by
  have key : ∀ {E : List Nat}, Pos st.net items E → E ≠ [] → (∀ u, u < st.net.toks.length → (st.net.next u = [] ↔ u ∈ E)) →
      (Spells st.net ws ↔ Reading items ws) := by
    intro E hp hE hends
    rw [from_lang hp.ok.mirror, ← hp.lang hE]
    have hlt : ∀ t, Lang st.net t ws → t < st.net.toks.length := by
      intro t hl
      cases hl with
      | start _ k hk _ => exact (List.getElem?_eq_some_iff.1 hk).1
      | step _ _ k _ hk _ _ => exact (List.getElem?_eq_some_iff.1 hk).1
    constructor
    · rintro ⟨t, hn, hl⟩
      exact ⟨t, (hends t (hlt t hl)).1 hn, hl⟩
    · rintro ⟨t, hm, hl⟩
      exact ⟨t, (hends t (hlt t hl)).2 hm, hl⟩
  cases h with
  | start h1 => exact absurd h1 hi
  | word t _ _ _ h1 h2 h3 h4 h5 h6 h7 => exact key h5 (by simp) (by simpa using h6)
  | group before alts init s t h0 h1 h2 h3 h4 h5 h6 h7 h8 => exact key h7 (by simp) h8

theorem between_segs {st : St} {items : List Item} (h : Between st items) (hi : items ≠ []) : st.net.segs ≠ [] := by
  cases h with
  | start h1 => exact absurd h1 hi
  | word t _ _ _ h1 h2 h3 h4 h5 h6 h7 =>
    intro hs
    rw [hs] at h7
    have h8 := h7.all
    generalize hq : ([] : List Seg) = q at h8
    cases h8 with
    | nil => exact hi rfl
    | snoc items segs i s => cases segs <;> cases hq
  | group before alts init s t h0 h1 h2 h3 h4 => rw [h4]; simp

theorem load_run {ms : List Nat → Int} {lines : List (List Nat)} {r : Rd} (h : run ms ⟨[], true, st0⟩ (body lines) = .ok r) (hs : r.st.net.segs ≠ []) :
    load ms lines = .ok r.st.net := by
  rw [load, run_body, h]
  simp only
  rw [if_neg hs]

/-- **The network of a CTM file.**  A file of words and groups of alternatives (comments anywhere) is accepted, and the ways through
its tokens, from a token without predecessors to a token without successors, spell exactly the readings of the file: all words in
order, with one alternative of every group. -/
theorem ctm_readings {ms : List Nat → Int} {lines : List (List Nat)} {items : List Item} (h : FileLines ms (body lines) items)
    (hne : items ≠ []) (ht : ∀ i ∈ items, Timely i) : ∃ net, load ms lines = .ok net ∧ ∀ ws, Spells net ws ↔ Reading items ws := by
  obtain ⟨r, h1, h2, _⟩ := run_file h (r := ⟨[], true, st0⟩) ht start_between ⟨rfl, rfl, rfl⟩
  rw [List.nil_append] at h2
  exact ⟨r.st.net, load_run h1 (between_segs h2 hne), between_spells h2 hne⟩

example : ∃ net, load secs sample = .ok net ∧ ∀ ws, Spells net ws ↔ Reading sampleItems ws :=
  ctm_readings sample_lines (by decide) sample_timely

/-- Every word of such a file is one token, and the tokens are in the order of the file. -/
theorem ctm_tokens {ms : List Nat → Int} {lines : List (List Nat)} {items : List Item} (h : FileLines ms (body lines) items)
    (hne : items ≠ []) (ht : ∀ i ∈ items, Timely i) :
    ∃ net, load ms lines = .ok net ∧
      net.toks.map Tok.word = (items.flatMap (fun i => match i with | .word e => [e] | .group alts => alts.flatten)).map Entry.word := by
  obtain ⟨r, h1, h2, _⟩ := run_file h (r := ⟨[], true, st0⟩) ht start_between ⟨rfl, rfl, rfl⟩
  rw [List.nil_append] at h2
  exact ⟨r.st.net, load_run h1 (between_segs h2 hne), file_said h (r := ⟨[], true, st0⟩) sane_st0 h1⟩

example : ∃ net, load secs sample = .ok net ∧ net.toks.map (fun t => t.word.text) = [bytes "a", bytes "b", bytes "c", bytes "d", bytes "e"] := by
  obtain ⟨net, h1, h2⟩ := ctm_tokens sample_lines (by decide) sample_timely
  refine ⟨net, h1, ?_⟩
  have : net.toks.map (fun t => t.word.text) = (net.toks.map Tok.word).map Word.text := by simp
  rw [this, h2]
  decide

/-- What the examples look at: texts, segments and successors of the tokens, and the segments. -/
def look : Out Net → Out (List (List Nat × Nat × List Nat) × List Seg)
  | .ok n => .ok ((n.toks.zip (List.range n.toks.length)).map (fun x => (x.1.word.text, x.1.seg, n.next x.2)), n.segs)
  | .fatal => .fatal
  | .undef => .undef

/-- An alternative that starts before the first one of its group ends the program. -/
theorem early_alternative :
    look (load secs [bytes "f 1 * * <ALT_BEGIN>", bytes "f 1 2 1 b", bytes "f 1 * * <ALT>", bytes "f 1 1 2 c", bytes "f 1 * * <ALT_END>"]) =
      .fatal := by decide

/-- A group without words after a word crashes the program. -/
theorem empty_group :
    look (load secs [bytes "f 1 0 1 a", bytes "f 1 * * <ALT_BEGIN>", bytes "f 1 * * <ALT_END>", bytes "f 1 1 1 b"]) = .undef := by decide

/-- With an empty alternative at the end of a group (`a` or nothing, then `b`, then `c`) the word after the group becomes an
alternative: no way through the tokens spells `a b c`. -/
theorem empty_alternative :
    look (load secs [bytes "f 1 * * <ALT_BEGIN>", bytes "f 1 0 1 a", bytes "f 1 * * <ALT>", bytes "f 1 * * <ALT_END>", bytes "f 1 1 1 b",
      bytes "f 1 2 1 c"]) =
    .ok ([(bytes "a", 0, [2]), (bytes "b", 0, [2]), (bytes "c", 0, [])],
      [⟨bytes "f", bytes "1", 0, 2000, [0, 1], [0, 1]⟩, ⟨bytes "f", bytes "1", 2000, 3000, [2], [2]⟩]) := by decide

/-- The words of different files and channels form one chain. -/
theorem files_chained :
    look (load secs [bytes "f 1 0 1 a", bytes "g 2 0 1 b"]) =
    .ok ([(bytes "a", 0, [1]), (bytes "b", 1, [])],
      [⟨bytes "f", bytes "1", 0, 1000, [0], [0]⟩, ⟨bytes "g", bytes "2", 0, 1000, [1], [1]⟩]) := by decide

/-! ## Segments -/

/-- **The segments of a CTM file that ends with a word.**  Every word and every group is one segment, in the order of the file, with
file, channel and times, and with the first and last tokens of its alternatives. -/
theorem ctm_segments_partial {ms : List Nat → Int} {lines : List (List Nat)} {items : List Item} (h : FileLines ms (body lines) items)
    (ht : ∀ i ∈ items, Timely i) {e : Entry} (hl : items.getLast? = some (.word e)) :
    ∃ net, load ms lines = .ok net ∧ SegsFor net.toks items net.segs := by
  have hne : items ≠ [] := by rintro rfl; cases hl
  obtain ⟨r, h1, h2, _⟩ := run_file h (r := ⟨[], true, st0⟩) ht start_between ⟨rfl, rfl, rfl⟩
  rw [List.nil_append] at h2
  refine ⟨r.st.net, load_run h1 (between_segs h2 hne), ?_⟩
  cases h2 with
  | start h1 => exact absurd h1 hne
  | word t _ _ _ h1 h2 h3 h4 h5 h6 h7 => exact h7.all
  | group before alts init s t h0 => rw [h0] at hl; simp at hl

example : ∃ net, load secs sample = .ok net ∧ SegsFor net.toks sampleItems net.segs :=
  ctm_segments_partial sample_lines sample_timely (e := ent 3000 4000 "e" none) (by decide)

/-- When the file ends with a group, the segment of this group always lacks one token among its last tokens: the last token of the
last alternative. -/
theorem ctm_segments_group_end {ms : List Nat → Int} {lines : List (List Nat)} {before : List Item} {alts : List (List Entry)}
    (h : FileLines ms (body lines) (before ++ [.group alts])) (ht : ∀ i ∈ before ++ [.group alts], Timely i) :
    ∃ net init s t, load ms lines = .ok net ∧ net.segs = init ++ [s] ∧ SegsFor net.toks before init ∧
      SegFor net.toks (.group alts) { s with lasts := s.lasts ++ [t] } := by
  obtain ⟨r, h1, h2, _⟩ := run_file h (r := ⟨[], true, st0⟩) ht start_between ⟨rfl, rfl, rfl⟩
  rw [List.nil_append] at h2
  have hld := load_run h1 (between_segs h2 (by simp))
  cases h2 with
  | start h1 => simp at h1
  | word t b e h0 =>
    obtain ⟨_, e2⟩ := List.append_inj' h0 rfl
    simp at e2
  | group before' alts' init s t h0 h1 h2 h3 h4 h5 h6 h7 h8 h9 h10 h11 =>
    obtain ⟨e1, e2⟩ := List.append_inj' h0 rfl
    simp only [List.cons.injEq, Item.group.injEq, and_true] at e2
    subst e1 e2
    exact ⟨r.st.net, init, s, t, hld, h4, h9.all, h10⟩

/-- So the segment of a file with one group of two alternatives ends only with the first of them. -/
theorem group_at_end :
    look (load secs [bytes "f 1 * * <ALT_BEGIN>", bytes "f 1 0 1 a", bytes "f 1 * * <ALT>", bytes "f 1 0 1 b", bytes "f 1 * * <ALT_END>"]) =
    .ok ([(bytes "a", 0, []), (bytes "b", 0, [])], [⟨bytes "f", bytes "1", 0, 1000, [0, 1], [0]⟩]) := by decide

/-- The word after a group belongs to the segment of the group, although it has a segment of its own. -/
theorem word_after_group :
    look (load secs [bytes "f 1 * * <ALT_BEGIN>", bytes "f 1 0 1 a", bytes "f 1 * * <ALT_END>", bytes "f 1 1 1 b"]) =
    .ok ([(bytes "a", 0, [1]), (bytes "b", 0, [])],
      [⟨bytes "f", bytes "1", 0, 1000, [0], [0]⟩, ⟨bytes "f", bytes "1", 1000, 2000, [1], [1]⟩]) := by decide

/-! ## Files of any form -/

/-- **The token graph of any CTM file.**  Whatever the lines are: when the file is accepted, the links agree in both directions, lead
forward in the order of the file and stay inside the tokens, and the last tokens of all segments are tokens. -/
theorem ctm_graph {ms : List Nat → Int} {lines : List (List Nat)} {net : Net} (h : load ms lines = .ok net) :
    (∀ t u, u ∈ net.next t ↔ t ∈ net.prec u) ∧ (∀ t u, u ∈ net.next t → t < u ∧ u < net.toks.length) ∧
      ∀ s ∈ net.segs, ∀ i ∈ s.lasts, i < net.toks.length := by
  unfold load at h
  split at h
  · rename_i r hr
    split at h
    · cases h
    · cases h
      have hs := run_sane (r := ⟨[], true, st0⟩) sane_st0 hr
      refine ⟨fun t u => hs.ok.mirror u t, ?_, hs.segs⟩
      intro t u hu
      have hp := (hs.ok.mirror u t).1 hu
      refine ⟨hs.ok.lt u t hp, ?_⟩
      apply Nat.lt_of_not_le
      intro hle
      rw [hs.ok.out u hle] at hp
      cases hp
  · cases h
  · cases h

example : ∃ net, load secs [bytes "f 1 0 1 a", [], bytes "f 1 * * <ALT>"] = .fatal ∨ load secs [bytes "f 1 0 1 a", []] = .ok net ∧ net.next 0 = [1] := by
  refine ⟨_, .inr ⟨rfl, ?_⟩⟩
  decide

/-- **Comments.**  Lines that start with a semicolon, wherever they are, have no effect. -/
theorem ctm_comments (ms : List Nat → Int) (a b : List (List Nat)) (c : List Nat) : load ms (a ++ (59 :: c) :: b) = load ms (a ++ b) := by
  have hb : body (a ++ (59 :: c) :: b) = body (a ++ b) := by simp [body]
  have h : run ms ⟨[], true, st0⟩ (a ++ (59 :: c) :: b) = run ms ⟨[], true, st0⟩ (a ++ b) := by
    rw [run_body, run_body ms _ (a ++ b), hb]
  rw [load, load, h]

/-! ## Lines without fields -/

theorem blank_again {ms : List Nat → Int} {l b : List Nat} {fs : List (List Nat)} (hl : DataLine l fs) (h5 : 5 ≤ fs.length)
    (hb : DataLine b []) {r r1 : Rd} (h1 : step ms r l = .ok r1) : step ms r1 b = step ms r1 l := by
  have hbuf : r1.buf = fs.take 6 ++ r.buf.drop (fs.take 6).length ∧ (r1.useConf = (if fs.length = 5 then false else true)) := by
    rw [step, if_neg hl.2.2.1, if_neg (scan_fits hl), scan_data hl] at h1
    have hu : (if (fs.take 6).length = 5 then false else if (fs.take 6).length = 6 then true else r.useConf) = (if fs.length = 5 then false else true) := by
      rw [List.length_take]
      by_cases h : fs.length = 5
      · rw [if_pos h, if_pos (by omega)]
      · rw [if_neg h, if_neg (by omega), if_pos (by omega)]
    simp only [hu] at h1
    generalize hq : (if fs.length = 5 then false else true) = uc at h1
    split at h1
    · split at h1
      · cases h1; exact ⟨rfl, rfl⟩
      split at h1
      · cases h1; exact ⟨rfl, rfl⟩
      split at h1
      · cases h1; exact ⟨rfl, rfl⟩
      split at h1
      · cases h1
      split at h1
      · cases h1; exact ⟨rfl, rfl⟩
      · cases h1
      · cases h1
    · cases h1
  obtain ⟨hbuf, huc⟩ := hbuf
  rw [step, if_neg hb.2.2.1, if_neg (scan_fits hb), scan_data hb, step, if_neg hl.2.2.1, if_neg (scan_fits hl), scan_data hl]
  have hu : (if (fs.take 6).length = 5 then false else if (fs.take 6).length = 6 then true else r1.useConf) = r1.useConf := by
    rw [huc, List.length_take]
    by_cases h : fs.length = 5
    · rw [if_pos h, if_pos (by omega)]
    · rw [if_neg h, if_neg (by omega), if_pos (by omega)]
  have hd : fs.take 6 ++ r1.buf.drop (fs.take 6).length = r1.buf := by
    rw [hbuf, List.drop_append_of_le_length (Nat.le_refl _), List.drop_length, List.nil_append]
  have hu0 : (if (List.take 6 ([] : List (List Nat))).length = 5 then false else
      if (List.take 6 ([] : List (List Nat))).length = 6 then true else r1.useConf) = r1.useConf := by simp
  have hd0 : List.take 6 ([] : List (List Nat)) ++ r1.buf.drop (List.take 6 ([] : List (List Nat))).length = r1.buf := by simp
  simp only [hu, hu0, hd, hd0]

/-- **Blank lines repeat the line before.**  A line without fields, after a line with at least five of them, is read as if the line
before stood there a second time. -/
theorem blank_line_repeats (ms : List Nat → Int) (a rest : List (List Nat)) {l b : List Nat} {fs : List (List Nat)} (hl : DataLine l fs)
    (h5 : 5 ≤ fs.length) (hb : DataLine b []) : load ms (a ++ l :: b :: rest) = load ms (a ++ l :: l :: rest) := by
  have key : ∀ r, run ms r (a ++ l :: b :: rest) = run ms r (a ++ l :: l :: rest) := by
    induction a with
    | nil =>
      intro r
      show run ms r (l :: b :: rest) = run ms r (l :: l :: rest)
      rw [run, run]
      cases h1 : step ms r l with
      | ok r1 =>
        show run ms r1 (b :: rest) = run ms r1 (l :: rest)
        rw [run, run, blank_again hl h5 hb h1]
      | fatal => rfl
      | undef => rfl
    | cons x a ih =>
      intro r
      rw [List.cons_append, List.cons_append, run, run]
      cases step ms r x with
      | ok r1 => exact ih r1
      | fatal => rfl
      | undef => rfl
  rw [load, load, key]

example : load secs [bytes "f 1 0 1 a", bytes " ", bytes "f 1 1 1 b"] = load secs [bytes "f 1 0 1 a", bytes "f 1 0 1 a", bytes "f 1 1 1 b"] :=
  blank_line_repeats secs [] [bytes "f 1 1 1 b"] (fs := [bytes "f", bytes "1", bytes "0", bytes "1", bytes "a"]) (dataLine_of (by decide)) (by decide)
    (dataLine_of (by decide))

/-- So the word before an empty line is said twice. -/
theorem blank_line_says_twice :
    look (load secs [bytes "f 1 0 1 a", [], bytes "f 1 1 1 b"]) =
    .ok ([(bytes "a", 0, [1]), (bytes "a", 1, [2]), (bytes "b", 2, [])],
      [⟨bytes "f", bytes "1", 0, 1000, [0], [0]⟩, ⟨bytes "f", bytes "1", 0, 1000, [1], [1]⟩, ⟨bytes "f", bytes "1", 1000, 2000, [2], [2]⟩]) := by
  decide

/-- A blank line at the start of a file reads variables that have no value. -/
theorem blank_first_line (ms : List Nat → Int) {b : List Nat} (hb : DataLine b []) (rest : List (List Nat)) : load ms (b :: rest) = .undef := by
  have : step ms ⟨[], true, st0⟩ b = .undef := by
    rw [step, if_neg hb.2.2.1, if_neg (scan_fits hb), scan_data hb]
    rfl
  rw [load, run, this]

/-- A field of 255 bytes or more is written past the end of its buffer. -/
theorem long_field (ms : List Nat → Int) {l : List Nat} {fs : List (List Nat)} (hl : Fields l fs) (h0 : 0 ∉ l) (hc : l.head? ≠ some 59) {f : List Nat}
    (hf : f ∈ fs.take 6) (hlen : 255 ≤ f.length) (rest : List (List Nat)) : load ms (l :: rest) = .undef := by
  have hs : scan l = fs.take 6 := by rw [scan, Verif.Lines.cstr_eq (fun c hc e => h0 (e ▸ hc)), wordsFrom_fields hl]
  have : step ms ⟨[], true, st0⟩ l = .undef := by
    rw [step, if_neg hc, if_pos (by rw [hs, List.any_eq_true]; exact ⟨f, hf, by simpa using hlen⟩)]
  rw [load, run, this]

end Verif.CtmIn
