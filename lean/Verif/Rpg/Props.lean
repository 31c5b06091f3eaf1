import Verif.Rpg.Ops
/-!
# Properties of the reports of sclite

Format strings, the width of the lines, the texts and where they are printed, and what a report depends on.
-/
set_option autoImplicit false
namespace Verif.Rpg

/-- The lines of the report that some calls on a new report build. -/
def report (s : State) (ops : List Op) : Option (List (List Char)) :=
  match run (erase s) ops with
  | .error _ => none
  | .ok s' => (dump exactRound 1 none s').toOption

/-- Some lines, for examples. -/
def lines (ls : List String) : Option (List (List Char)) := some (ls.map String.toList)

/-- A row, for examples. -/
def rowOf (fmt : String) (vals : List String) : Op := .row fmt.toList (vals.map String.toList)

/-- The state after some calls, for examples. -/
def after (s : State) (ops : List Op) : State := (run s ops).toOption.getD s

/-- A report with a title over all columns, a separation, and two rows. -/
def sample : List Op :=
  [rowOf "caa" ["Results of the test"], .sep '-' true, rowOf "l=c|r" ["a speaker", "b", "1//22"], .sep '=' true, rowOf "l=c|r" ["x", "long one", "3"]]

example : report init sample = lines [
    ",----------------------------.",
    "|    Results of the test     |",
    "|----------------------------|",
    "| a speaker ||    b     |  1 |",
    "|           ||          | 22 |",
    "|============================|",
    "| x         || long one |  3 |",
    "`----------------------------'"] := by decide +kernel

/-! ### C193: all lines are equally long -/

/-- The lines of a report all have the same length, and the report is printed.  What is missing: formats that begin with `a` or use
`n`, a `=` next to an `a` or at the end, separations after a row with a `=`, reports wider than 300, and formats with as many columns as
are allocated; see the witnesses below. -/
theorem C193_same_width_partial (R : Round) (hR : Shares R) (pad : Nat) (centred : Option Nat) (s : State) (hb : Built s)
    (hp : ∀ d ∈ s.defs, Plain d.cols) (hB : reportWidth R pad s ≤ 300) (hc : ∀ d ∈ s.defs, d.cols.length < s.maxCol)
    (ha : (∀ d ∈ s.defs, ∀ k ∈ d.cols, k.sep ≠ '=') ∨ ∀ i, s.after i = []) :
    ∃ (ls : List (List Char)) (w : Nat), dump R pad centred s = .ok ls ∧ s.rows.length + 2 ≤ ls.length ∧ ∀ l ∈ ls, l.length = w := by
  obtain ⟨L, n, b, a, c⟩ := dump_ok R hR pad centred s hb hp hB hc
  have hwf := built_wf hb
  have hrows : ∀ ls ∈ L, 1 ≤ ls.length ∧ ∀ l ∈ ls, (l.length : Int) = reportWidth R pad s := by
    intro ls hls
    obtain ⟨i, hi⟩ := List.getElem?_of_mem hls
    have hlt : i < s.rows.length := by rw [← b]; exact (List.getElem?_eq_some_iff.mp hi).1
    have hj : s.rows[i]? = some s.rows[i] := List.getElem?_eq_getElem hlt
    have hd : s.defs[s.rows[i]]? = some (s.defs[s.rows[i]]'(hwf.1 _ (List.getElem_mem _))) := List.getElem?_eq_getElem _
    obtain ⟨text, P, befores, afters, e1, e2, e3, e4, e5, e6, e7, _⟩ := (c i _ _ ls hj hd hi).lines
    subst e1
    refine ⟨?_, ?_⟩
    · have : 0 < text.length := List.length_pos_iff.mpr e5
      rw [List.length_append, List.length_append]; omega
    · intro l hl
      rcases List.mem_append.mp hl with hl | hl
      · exact e6 l hl
      · rcases ha with ha | ha
        · exact e7 (fun k hk => ha _ (List.getElem_mem _) k hk) l hl
        · rw [ha i] at e3
          rw [List.eq_nil_of_length_eq_zero e3] at hl; cases hl
  have hlen : ∀ (L : List (List (List Char))), (∀ ls ∈ L, 1 ≤ ls.length) → L.length ≤ L.flatten.length := by
    intro L
    induction L with
    | nil => intro _; exact Nat.le_refl 0
    | cons x L ih =>
      intro h
      have h1 := h x (List.mem_cons_self ..)
      have h2 := ih (fun y hy => h y (List.mem_cons_of_mem _ hy))
      rw [List.flatten_cons, List.length_append, List.length_cons]; omega
  refine ⟨_, n + (2 + (reportWidth R pad s - 2).toNat), a, ?_, ?_⟩
  · have := hlen L (fun ls hls => (hrows ls hls).1)
    simp only [List.length_map, List.length_append, List.length_singleton]
    omega
  · intro l hl
    obtain ⟨l', hl', rfl⟩ := List.mem_map.mp hl
    rw [List.length_append]
    have hbl : (blanks n).length = n := by unfold blanks; simp
    rw [hbl]
    congr 1
    rcases List.mem_append.mp hl' with hl' | hl'
    · rcases List.mem_append.mp hl' with hl' | hl'
      · rw [List.mem_singleton] at hl'; subst hl'; unfold edge; simp; omega
      · obtain ⟨ls, hls, hm⟩ := List.mem_flatten.mp hl'
        have e := (hrows ls hls).2 l' hm
        have hne : s.defs ≠ [] := by
          intro h0
          obtain ⟨i, hi⟩ := List.getElem?_of_mem hls
          have hlt : i < s.rows.length := by rw [← b]; exact (List.getElem?_eq_some_iff.mp hi).1
          have := hwf.1 _ (List.getElem_mem hlt)
          rw [h0] at this; simp at this
        have := width_pos R hR pad s hne hp
        omega
    · rw [List.mem_singleton] at hl'; subst hl'; unfold edge; simp; omega

/-- A check for `Plain`, for examples. -/
def plainB (cols : List Col) : Bool :=
  (match cols with | [] => false | k :: _ => k.just != 'a') && cols.all (fun k => k.just != 'n') && eqB cols
where
  /-- A check for `EqOk`. -/
  eqB : List Col → Bool
    | [] => true
    | k :: ks => (k.sep != '=' || (match ks with | [] => false | k' :: _ => k'.just != 'a')) && eqB ks

theorem plain_of_check (cols : List Col) (h : plainB cols = true) : Plain cols := by
  unfold plainB at h
  rw [Bool.and_eq_true, Bool.and_eq_true] at h
  refine ⟨?_, ?_, ?_⟩
  · cases cols with
    | nil => simp at h
    | cons k ks => exact ⟨k, rfl, by simpa using h.1.1⟩
  · simpa using h.1.2
  · have := h.2
    clear h
    induction cols with
    | nil => trivial
    | cons k ks ih =>
      unfold plainB.eqB at this
      rw [Bool.and_eq_true] at this
      refine ⟨?_, ih this.2⟩
      intro he
      cases ks with
      | nil => simp [he] at this
      | cons k' ks => exact ⟨k', rfl, by simpa [he] using this.1⟩

theorem built_after (ops : List Op) : Built (after init ops) := by
  unfold after
  cases h : run init ops with
  | error e => exact .start
  | ok s => exact built_run ops init s .start h

/-- The conditions hold for the sample report, and for the arithmetic of `F_ROUND`. -/
example : ∃ (ls : List (List Char)) (w : Nat), dump exactRound 1 (some 80) (after init sample) = .ok ls ∧ 5 ≤ ls.length ∧ ∀ l ∈ ls, l.length = w :=
  C193_same_width_partial exactRound exactRound_shares 1 (some 80) _ (built_after sample)
    (fun d hd => plain_of_check _ ((show ∀ d ∈ (after init sample).defs, plainB d.cols = true by decide +kernel) d hd))
    (by decide +kernel) (by decide +kernel) (.inr (fun i => rfl))

/-- A separation after a row with a double bar is one character short. -/
theorem C193_after_double_bar :
    report init [.sep '-' false, rowOf "l=l" ["a", "b"]] =
      lines [",--------.", "| a || b |", "|-------|", "`--------'"] := by decide +kernel

/-- With a `=` next to an `a`, or at the end, the lines of text and the edges differ. -/
theorem C193_double_bar_span :
    report init [rowOf "l=a" ["abcdefghi"]] = lines [",------------.", "| abcdefghi |", "`------------'"] ∧
    report init [rowOf "l=" ["abc"]] = lines [",------.", "| abc |", "`------'"] := by decide +kernel

/-- For a column `n` a message is printed instead. -/
theorem C193_letter_n :
    report init [rowOf "n" ["abc"]] = lines [",-----.", "|undefined inter column space\n|", "`-----'"] := by decide +kernel

/-! ### C194: the texts are printed completely -/

/-- A report is printed (printing ends), with a block of lines for each row, in the order of the rows; in the block of a row there are
as many lines of text as pieces for each cell, each line has its piece of each cell in it, and the pieces of a cell are the text of the
cell, broken only at a blank or at `//`.  What is missing: as for C193. -/
theorem C194_texts_complete_partial (R : Round) (hR : Shares R) (pad : Nat) (centred : Option Nat) (s : State) (hb : Built s)
    (hp : ∀ d ∈ s.defs, Plain d.cols) (hB : reportWidth R pad s ≤ 300) (hc : ∀ d ∈ s.defs, d.cols.length < s.maxCol) :
    ∃ (first last : List Char) (L : List (List (List Char))), dump R pad centred s = .ok ([first] ++ L.flatten ++ [last]) ∧
      L.length = s.rows.length ∧
      ∀ (i j : Nat) (d : Def) (ls : List (List Char)), s.rows[i]? = some j → s.defs[j]? = some d → L[i]? = some ls →
        ∃ (befores text afters : List (List Char)) (piece : Nat → Nat → List Char), ls = befores ++ text ++ afters ∧
          befores.length = (s.before i).length ∧ afters.length = (s.after i).length ∧ text ≠ [] ∧
          ∀ (c : Nat) (k : Col), d.cols[c]? = some k → k.just ≠ 'a' →
            Splits ((List.range text.length).map (fun n => piece n c)) (s.cells c i) ∧
            ∀ (n : Nat) (l : List Char), text[n]? = some l → piece n c <:+: l ∧ ¬ ['/', '/'] <:+: piece n c := by
  obtain ⟨L, n, b, a, h⟩ := dump_ok R hR pad centred s hb hp hB hc
  refine ⟨blanks n ++ edge ',' '.' (reportWidth R pad s), blanks n ++ edge '`' '\'' (reportWidth R pad s),
    L.map (fun ls => ls.map (fun l => blanks n ++ l)), ?_, by simp [b], ?_⟩
  · rw [a]; simp [List.map_flatten]
  · intro i j d ls hi hj hl
    rw [List.getElem?_map] at hl
    cases hL : L[i]? with
    | none => rw [hL] at hl; cases hl
    | some ls0 =>
      rw [hL] at hl
      injection hl with hl
      obtain ⟨text, P, befores, afters, e1, e2, e3, e4, e5, e6, e7, e8⟩ := (h i j d ls0 hi hj hL).lines
      subst e1
      have hmap : ∀ c, (List.range (text.map (fun l => blanks n ++ l)).length).map (fun m => ((P[m]?).getD (fun _ => [])) c) = P.map (fun p => p c) := by
        intro c
        apply List.ext_getElem?
        intro m
        rw [List.getElem?_map, List.getElem?_map, List.length_map, ← e4]
        by_cases hm : m < P.length
        · rw [List.getElem?_range hm, List.getElem?_eq_getElem hm]; simp [hm]
        · rw [List.getElem?_eq_none (by simp; omega), List.getElem?_eq_none (by omega)]; rfl
      refine ⟨befores.map (fun l => blanks n ++ l), text.map (fun l => blanks n ++ l), afters.map (fun l => blanks n ++ l),
        fun m c => ((P[m]?).getD (fun _ => [])) c, ?_, by simp [e2], by simp [e3], by simp [e5], ?_⟩
      · rw [← hl]; simp
      · intro c k hk hn
        obtain ⟨f1, f2, f3⟩ := e8 c k hk hn
        refine ⟨by rw [hmap]; exact f1, ?_⟩
        intro m l hml
        rw [List.getElem?_map] at hml
        cases ht : text[m]? with
        | none => rw [ht] at hml; cases hml
        | some l0 =>
          rw [ht] at hml
          injection hml with hml
          subst hml
          have hmP : m < P.length := by rw [e4]; exact (List.getElem?_eq_some_iff.mp ht).1
          have hP : P[m]? = some P[m] := List.getElem?_eq_getElem hmP
          obtain ⟨g1, field, ⟨pre, post, g2, _⟩, ⟨x, y, g3, _⟩⟩ := f3 m l0 P[m] ht hP
          dsimp only
          rw [hP, Option.getD_some]
          refine ⟨?_, g1⟩
          refine ⟨blanks n ++ pre ++ List.replicate x ' ', List.replicate y ' ' ++ post, ?_⟩
          rw [g2, g3]; simp [List.append_assoc]

/-- The rows of a report hold the values that were given for them, in the columns that are not `a`, and they keep them. -/
theorem C194_values_kept (s s' : State) (fmt : List Char) (vals : List (List Char)) (h : addRow s fmt vals = .ok s') :
    ∃ j d, s'.rows = s.rows ++ [j] ∧ s'.defs[j]? = some d ∧ d.fmt = fmt ∧
      (∀ x y, y ≠ s.rows.length → s'.cells x y = s.cells x y) ∧
      ∀ (c : Nat) (k : Col), d.cols[c]? = some k → k.just ≠ 'a' →
        vals[(d.cols.take c).countP (fun k => k.just != 'a')]? = some (s'.cells c s.rows.length) := by
  obtain ⟨j, d, h1, h2, h3, _, _, _, h4, h5⟩ := addRow_spec s s' fmt vals h
  exact ⟨j, d, h1, h2, h3, h4, h5⟩

/-- A column of upper case is as wide as its longest word, so its text is broken at blanks. -/
example : report init [rowOf "L|r" ["one two//three", "x"]] =
    lines [",-----------.", "| one   | x |", "| two   |   |", "| three |   |", "`-----------'"] := by decide +kernel

/-- A text of 301 characters, which takes a buffer of 300. -/
theorem C194_overflow : (dump exactRound 1 none (after init [.row "l".toList [List.replicate 301 'x']])).toOption = none := by decide +kernel

/-! ### C195: where the texts are printed -/

/-- In all rows of the same format the texts of a column are printed in the same place: a text of a left justified column begins, and
that of a right justified column ends, at the same place in all lines of all these rows; one in the middle has on its left as many blanks
as on its right, or one or two fewer.  What is missing: as for C193. -/
theorem C195_aligned_partial (R : Round) (hR : Shares R) (pad : Nat) (centred : Option Nat) (s : State) (hb : Built s)
    (hp : ∀ d ∈ s.defs, Plain d.cols) (hB : reportWidth R pad s ≤ 300) (hc : ∀ d ∈ s.defs, d.cols.length < s.maxCol) :
    ∃ (first last : List Char) (L : List (List (List Char))) (start stop lead trail : Nat → Nat → Nat),
      dump R pad centred s = .ok ([first] ++ L.flatten ++ [last]) ∧ L.length = s.rows.length ∧
      ∀ (i j : Nat) (d : Def) (ls : List (List Char)), s.rows[i]? = some j → s.defs[j]? = some d → L[i]? = some ls →
        ∃ (befores text afters : List (List Char)) (piece : Nat → Nat → List Char), ls = befores ++ text ++ afters ∧
          befores.length = (s.before i).length ∧ afters.length = (s.after i).length ∧ text ≠ [] ∧
          ∀ (c : Nat) (k : Col), d.cols[c]? = some k → k.just ≠ 'a' →
            Splits ((List.range text.length).map (fun n => piece n c)) (s.cells c i) ∧
            ∀ (n : Nat) (l : List Char), text[n]? = some l →
              ∃ (pre post : List Char) (x y : Nat),
                l = pre ++ (List.replicate x ' ' ++ piece n c ++ List.replicate y ' ') ++ post ∧
                pre.length = start j c ∧ pre.length + x + (piece n c).length + y = stop j c ∧
                ((k.just = 'l' ∨ k.just = 'L') → x = lead j c) ∧ ((k.just = 'r' ∨ k.just = 'R') → y = trail j c) ∧
                ((k.just = 'c' ∨ k.just = 'C') → x ≤ y ∧ y ≤ x + 2) := by
  obtain ⟨L, n, b, a, h⟩ := dump_ok R hR pad centred s hb hp hB hc
  refine ⟨blanks n ++ edge ',' '.' (reportWidth R pad s), blanks n ++ edge '`' '\'' (reportWidth R pad s),
    L.map (fun ls => ls.map (fun l => blanks n ++ l)),
    fun j c => n + (layout R pad s ((s.defs[j]?).getD ⟨[], [], 0⟩) c).1,
    fun j c => n + (layout R pad s ((s.defs[j]?).getD ⟨[], [], 0⟩) c).1 + (layout R pad s ((s.defs[j]?).getD ⟨[], [], 0⟩) c).2.1.toNat,
    fun j c => (((layout R pad s ((s.defs[j]?).getD ⟨[], [], 0⟩) c).2.1 - (layout R pad s ((s.defs[j]?).getD ⟨[], [], 0⟩) c).2.2) / 2).toNat,
    fun j c => ((layout R pad s ((s.defs[j]?).getD ⟨[], [], 0⟩) c).2.1 - (layout R pad s ((s.defs[j]?).getD ⟨[], [], 0⟩) c).2.2 -
      ((layout R pad s ((s.defs[j]?).getD ⟨[], [], 0⟩) c).2.1 - (layout R pad s ((s.defs[j]?).getD ⟨[], [], 0⟩) c).2.2) / 2).toNat,
    ?_, by simp [b], ?_⟩
  · rw [a]; simp [List.map_flatten]
  · intro i j d ls hi hj hl
    rw [List.getElem?_map] at hl
    cases hL : L[i]? with
    | none => rw [hL] at hl; cases hl
    | some ls0 =>
      rw [hL] at hl
      injection hl with hl
      obtain ⟨text, P, befores, afters, e1, e2, e3, e4, e5, e6, e7, e8⟩ := (h i j d ls0 hi hj hL).lines
      subst e1
      have hmap : ∀ c, (List.range (text.map (fun l => blanks n ++ l)).length).map (fun m => ((P[m]?).getD (fun _ => [])) c) = P.map (fun p => p c) := by
        intro c
        apply List.ext_getElem?
        intro m
        rw [List.getElem?_map, List.getElem?_map, List.length_map, ← e4]
        by_cases hm : m < P.length
        · rw [List.getElem?_range hm, List.getElem?_eq_getElem hm]; simp [hm]
        · rw [List.getElem?_eq_none (by simp; omega), List.getElem?_eq_none (by omega)]; rfl
      refine ⟨befores.map (fun l => blanks n ++ l), text.map (fun l => blanks n ++ l), afters.map (fun l => blanks n ++ l),
        fun m c => ((P[m]?).getD (fun _ => [])) c, ?_, by simp [e2], by simp [e3], by simp [e5], ?_⟩
      · rw [← hl]; simp
      · intro c k hk hn
        obtain ⟨f1, f2, f3⟩ := e8 c k hk hn
        refine ⟨by rw [hmap]; exact f1, ?_⟩
        intro m l hml
        rw [List.getElem?_map] at hml
        cases ht : text[m]? with
        | none => rw [ht] at hml; cases hml
        | some l0 =>
          rw [ht] at hml
          injection hml with hml
          subst hml
          have hmP : m < P.length := by rw [e4]; exact (List.getElem?_eq_some_iff.mp ht).1
          have hP : P[m]? = some P[m] := List.getElem?_eq_getElem hmP
          obtain ⟨g1, field, ⟨pre, post, g2, g2'⟩, ⟨x, y, g3, g4, g5, g6, g7⟩⟩ := f3 m l0 P[m] ht hP
          have hbl : (blanks n).length = n := by unfold blanks; simp
          have hflen : field.length = x + (P[m] c).length + y := by rw [g3]; simp [Nat.add_assoc]
          dsimp only
          rw [hP, Option.getD_some, hj, Option.getD_some]
          refine ⟨blanks n ++ pre, post, x, y, ?_, ?_, ?_, ?_, ?_, g7⟩
          · rw [g2, g3]; simp [List.append_assoc]
          · rw [List.length_append, hbl, g2']
          · rw [List.length_append, hbl, g2']; omega
          · intro hl
            have := g5 hl
            omega
          · intro hr
            have := g6 hr
            omega

/-! ### C196: the lines of a column of lower case -/

/-- The text of a column of lower case is printed with one line for each of its parts between the `//`, up to empty lines at the end, if
no part but the first begins with a blank.  What is missing: parts that begin with a blank (see below), and what is missing for C193. -/
theorem C196_lower_case_partial (R : Round) (hR : Shares R) (pad : Nat) (centred : Option Nat) (s : State) (hb : Built s)
    (hp : ∀ d ∈ s.defs, Plain d.cols) (hB : reportWidth R pad s ≤ 300) (hc : ∀ d ∈ s.defs, d.cols.length < s.maxCol) :
    ∃ (first last : List Char) (L : List (List (List Char))), dump R pad centred s = .ok ([first] ++ L.flatten ++ [last]) ∧
      L.length = s.rows.length ∧
      ∀ (i j : Nat) (d : Def) (ls : List (List Char)), s.rows[i]? = some j → s.defs[j]? = some d → L[i]? = some ls →
        ∃ (befores text afters : List (List Char)), ls = befores ++ text ++ afters ∧
          befores.length = (s.before i).length ∧ afters.length = (s.after i).length ∧
          ∀ (c : Nat) (k : Col), d.cols[c]? = some k → (k.just = 'l' ∨ k.just = 'c' ∨ k.just = 'r') →
            (∀ x ∈ (segments (s.cells c i)).tail, x.head? ≠ some ' ') →
            ∃ (pieces : List (List Char)) (a b : Nat), pieces.length = text.length ∧
              pieces ++ List.replicate a [] = segments (s.cells c i) ++ List.replicate b [] ∧
              ∀ x ∈ pieces.zip text, x.1 <:+: x.2 := by
  obtain ⟨L, n, b, a, h⟩ := dump_ok R hR pad centred s hb hp hB hc
  refine ⟨blanks n ++ edge ',' '.' (reportWidth R pad s), blanks n ++ edge '`' '\'' (reportWidth R pad s),
    L.map (fun ls => ls.map (fun l => blanks n ++ l)), ?_, by simp [b], ?_⟩
  · rw [a]; simp [List.map_flatten]
  · intro i j d ls hi hj hl
    rw [List.getElem?_map] at hl
    cases hL : L[i]? with
    | none => rw [hL] at hl; cases hl
    | some ls0 =>
      rw [hL] at hl
      injection hl with hl
      obtain ⟨text, P, befores, afters, e1, e2, e3, e4, e5, e6, e7, e8⟩ := (h i j d ls0 hi hj hL).lines
      subst e1
      refine ⟨befores.map (fun l => blanks n ++ l), text.map (fun l => blanks n ++ l), afters.map (fun l => blanks n ++ l),
        by rw [← hl]; simp, by simp [e2], by simp [e3], ?_⟩
      intro c k hk hlow hseg
      have hn : k.just ≠ 'a' := by rcases hlow with h | h | h <;> rw [h] <;> decide
      have hup : k.just.isUpper = false := by rcases hlow with h | h | h <;> rw [h] <;> decide
      obtain ⟨f1, f2, f3⟩ := e8 c k hk hn
      have hsz : ∀ x ∈ segments (s.cells c i), x.length ≤ size k.just (s.cells c i) := by
        unfold size
        rw [hup]
        cases hs : segments (s.cells c i) with
        | nil => intro x hx; cases hx
        | cons s0 ss =>
          rw [hs, List.tail_cons] at hseg
          obtain ⟨i1, i2⟩ := size_segments _ _ 0 s0 ss (Nat.le_refl _) hs hseg
          intro x hx
          rcases List.mem_cons.mp hx with rfl | hx
          · omega
          · exact i2 x hx
      obtain ⟨x, y, hxy⟩ := f2 hsz
      refine ⟨P.map (fun p => p c), x, y, by simp [e4], hxy, ?_⟩
      intro z hz
      obtain ⟨m, hm⟩ := List.getElem?_of_mem hz
      obtain ⟨m1, m2⟩ := List.getElem?_zip_eq_some.mp hm
      rw [List.getElem?_map] at m1 m2
      cases ht : text[m]? with
      | none => rw [ht] at m2; cases m2
      | some l0 =>
        cases hP : P[m]? with
        | none => rw [hP] at m1; cases m1
        | some p =>
          rw [ht] at m2; rw [hP] at m1
          injection m1 with m1
          injection m2 with m2
          obtain ⟨_, field, ⟨pre, post, g2, _⟩, ⟨u, v, g3, _⟩⟩ := f3 m l0 p ht hP
          rw [← m1, ← m2]
          refine ⟨blanks n ++ pre ++ List.replicate u ' ', List.replicate v ' ' ++ post, ?_⟩
          rw [g2, g3]; simp [List.append_assoc]

example : segments "one two//three//four".toList = ["one two".toList, "three".toList, "four".toList] ∧
    report init [rowOf "l" ["one two//three//four"]] = lines [",---------.", "| one two |", "| three   |", "| four    |", "`---------'"] := by
  decide +kernel

/-- A part that begins with a blank: the blank is not counted, so the part does not fit and an empty line comes first. -/
theorem C196_blank_after_break :
    segments "ab// cd".toList = ["ab".toList, " cd".toList] ∧
    report init [rowOf "l" ["ab// cd"]] = lines [",----.", "| ab |", "|    |", "| cd |", "`----'"] := by decide +kernel

/-! ### C197: format strings -/

/-- A format that has not been used is read as the columns it is written for: letters with the separators after them, then
perhaps a `:` and marks for locked columns, none of which is `l`. -/
theorem C197_format_read (s : State) (cols : List Col) (locks : List Char) (tail : List Char)
    (hg : ∀ k ∈ cols, k.just ∈ ['c', 'C', 'l', 'L', 'r', 'R', 'n', 'a'] ∧ k.sep ∈ [' ', '|', '='])
    (ht : (tail = [] ∧ locks = []) ∨ tail = ':' :: locks) (hl : 'l' ∉ locks)
    (hn : ∀ d ∈ s.defs, d.fmt ≠ render cols ++ tail) (hlen : (render cols ++ tail).length < 100) :
    ∃ s' d, setJust s (render cols ++ tail) = .ok (s', s.defs.length) ∧ s'.defs = s.defs ++ [d] ∧ d.fmt = render cols ++ tail ∧ d.cols = cols ∧
      s'.rows = s.rows ∧ s'.cells = s.cells := by
  have hgood : Good cols := by
    intro k hk
    obtain ⟨h1, h2⟩ := hg k hk
    refine ⟨by unfold isLetter; rw [List.contains_iff_mem]; exact h1, by simpa using h2⟩
  have hns : NoSep tail := by
    rcases ht with ⟨h, _⟩ | h <;> subst h <;> exact ⟨by simp, by simp⟩
  obtain ⟨f', a, _, c⟩ := parseLoop_cols cols tail ((render cols ++ tail).length + 1) [] 0 hgood hns (Nat.lt_succ_self _)
  have hp : parseLoop ((render cols ++ tail).length + 1) (render cols ++ tail) [] 0 = .ok (cols, 0 + eqs cols, tail) := by
    rw [c, List.nil_append]
    cases f' with
    | zero => exact absurd a (by simp)
    | succ f' =>
      rcases ht with ⟨h, _⟩ | h <;> subst h
      · rfl
      · show (if _ then _ else _) = _
        rw [if_pos rfl]
  have hf : s.defs.findIdx? (fun d => decide (d.fmt = render cols ++ tail)) = none := by
    rw [List.findIdx?_eq_none_iff]
    intro d hd
    simpa using hn d hd
  have hlock : (tail.drop 1).contains 'l' = false := by
    rcases ht with ⟨h, _⟩ | h <;> subst h
    · rfl
    · rw [List.drop_one, List.tail_cons]
      cases hcon : locks.contains 'l' with
      | false => rfl
      | true => exact absurd (List.contains_iff_mem.mp hcon) hl
  unfold setJust
  rw [hf]
  dsimp only
  rw [if_neg (by omega), hp]
  dsimp only
  rw [hlock, if_neg (by decide)]
  exact ⟨_, ⟨_, cols, 0 + eqs cols⟩, rfl, rfl, rfl, rfl, rfl, rfl⟩

example : render [⟨'l', '='⟩, ⟨'c', '|'⟩, ⟨'r', ' '⟩] = "l=c|r".toList := by decide

/-- Formats with the same columns are equal up to the marks after `:`: there is one way to read a format. -/
theorem C197_one_reading (cols cols' : List Col) (h : ∀ k ∈ cols ++ cols', isLetter k.just = true ∧ (k.sep = ' ' ∨ k.sep = '|' ∨ k.sep = '='))
    (he : render cols = render cols') : cols = cols' := by
  have h1 : Good cols := fun k hk => h k (List.mem_append_left _ hk)
  have h2 : Good cols' := fun k hk => h k (List.mem_append_right _ hk)
  obtain ⟨f1, a1, _, c1⟩ := parseLoop_cols cols [] ((render cols ++ []).length + 1) [] 0 h1 ⟨by simp, by simp⟩ (Nat.lt_succ_self _)
  obtain ⟨f2, a2, _, c2⟩ := parseLoop_cols cols' [] ((render cols' ++ []).length + 1) [] 0 h2 ⟨by simp, by simp⟩ (Nat.lt_succ_self _)
  rw [← he] at c2
  rw [c1] at c2
  cases f1 with
  | zero => exact absurd a1 (by simp)
  | succ f1 =>
    cases f2 with
    | zero => exact absurd a2 (by simp)
    | succ f2 =>
      have c3 : (Except.ok ([] ++ cols, 0 + eqs cols, []) : Except Stop (List Col × Nat × List Char)) = .ok ([] ++ cols', 0 + eqs cols', []) := c2
      injection c3 with c3
      injection c3

/-- What comes of a new format that is not read: with a character that is no letter, no separator and no `:` after some columns the
call never returns, with a separator that follows no letter the columns are skewed. -/
theorem C197_not_read (s : State) (fmt : List Char) (hn : ∀ d ∈ s.defs, d.fmt ≠ fmt) (hlen : fmt.length < 100) :
    (setJust s fmt = .error .hang ↔ ∃ cols x q, Good cols ∧ fmt = render cols ++ x :: q ∧ x ∉ ['c', 'C', 'l', 'L', 'r', 'R', 'n', 'a', '|', '=', ':']) := by
  have hf : s.defs.findIdx? (fun d => decide (d.fmt = fmt)) = none := by
    rw [List.findIdx?_eq_none_iff]
    intro d hd
    simpa using hn d hd
  have e : setJust s fmt = (match parseLoop (fmt.length + 1) fmt [] 0 with
      | .error e => .error e
      | .ok (cols, k, rest) =>
        if (rest.drop 1).contains 'l' then .error .locked
        else .ok ({ s with defs := s.defs ++ [⟨fmt, cols, k⟩], maxCol := growTo (growTo (if s.defs.length = s.maxCol then s.maxCol * 3 / 2 else s.maxCol) cols.length) (rest.drop 1).length }, s.defs.length)) := by
    unfold setJust
    rw [hf]
    dsimp only
    rw [if_neg (by omega)]
    cases parseLoop (fmt.length + 1) fmt [] 0 <;> rfl
  rw [e]
  constructor
  · intro h
    cases hp : parseLoop (fmt.length + 1) fmt [] 0 with
    | error x =>
      rw [hp] at h
      injection h with h
      subst h
      obtain ⟨cs, x, q, g1, g2, g3, g4, g5⟩ := parseLoop_error _ _ _ _ _ (Nat.lt_succ_self _) hp
      rcases g5 with ⟨g5, _⟩ | ⟨_, g5, g6⟩
      · cases g5
      · refine ⟨cs, x, q, g1, g2, ?_⟩
        intro hx
        unfold isLetter at g3
        simp at g3
        simp at hx
        rcases hx with hx | hx | hx | hx | hx | hx | hx | hx | hx | hx | hx <;> simp_all
    | ok x =>
      rw [hp] at h
      dsimp only at h
      split at h <;> cases h
  · rintro ⟨cols, x, q, g1, g2, g3⟩
    have hx : isLetter x = false ∧ x ≠ ':' ∧ x ≠ '|' ∧ x ≠ '=' := by
      simp at g3
      unfold isLetter
      refine ⟨by simp [g3], ?_, ?_, ?_⟩ <;> rintro rfl <;> simp_all
    obtain ⟨f', _, _, c⟩ := parseLoop_cols cols (x :: q) (fmt.length + 1) [] 0 g1
      ⟨by simp; exact hx.2.2.1, by simp; exact hx.2.2.2⟩ (by rw [← g2]; exact Nat.lt_succ_self _)
    rw [← g2, parseLoop_stuck x q hx.1 hx.2.1 hx.2.2.1 hx.2.2.2] at c
    rw [c]

/-- A blank in a format. -/
example : setJust init "l c".toList = .error .hang :=
  (C197_not_read init "l c".toList (fun d hd => by (cases hd)) (by decide)).mpr ⟨[⟨'l', ' '⟩], ' ', ['c'], fun k hk => by
    rw [List.mem_singleton] at hk; subst hk; exact ⟨by decide, Or.inl rfl⟩, rfl, by decide⟩

/-! ### C198: a report does not depend on the reports before it -/

/-- After `Desc_erase`, the same calls give the same report whatever was there before, if the library has the same number of columns
allocated.  What is missing: formats with `a` (see below). -/
theorem C198_fresh_report_partial (R : Round) (pad : Nat) (centred : Option Nat) (s t s' : State) (ops : List Op) (hm : s.maxCol = t.maxCol)
    (hb : Built s) (hs : run (erase s) ops = .ok s') (hn : ∀ d ∈ s'.defs, ∀ k ∈ d.cols, k.just ≠ 'a') :
    ∃ t', run (erase t) ops = .ok t' ∧ dump R pad centred s' = dump R pad centred t' := by
  obtain ⟨t', a, b⟩ := alike_run ops (erase s) (erase t) s' (.erased s hb)
    ⟨rfl, rfl, rfl, rfl, hm, fun i j c k hi => by simp [erase] at hi⟩ hs
  exact ⟨t', a, dump_congr R pad centred s' t' (alike_same s' t' b hn)⟩

example : (∀ d ∈ (after (erase (after init sample)) [rowOf "l|r" ["a", "b"]]).defs, ∀ k ∈ d.cols, k.just ≠ 'a') ∧
    (after init sample).maxCol = init.maxCol := by decide +kernel

/-- With an `a`, the text that an earlier report left in the cell of the last column that is spanned still counts. -/
theorem C198_stale_cell :
    report init [rowOf "la" ["ab"]] = lines [",-----.", "| ab  |", "`-----'"] ∧
    report (after init [rowOf "ll" ["x", "something long"]]) [rowOf "la" ["ab"]] =
      lines [",-------------------.", "| ab                |", "`-------------------'"] := by decide +kernel

/-! ### C199: `//` taken out -/

/-- `Desc_rm_lf` puts a blank for each `//`, and nothing of the `//` is left. -/
theorem C199_breaks_removed (t : List Char) : rmLf t = withBlanks (segments t) ∧ ¬ ['/', '/'] <:+: rmLf t :=
  ⟨rmLf_segments _ t (Nat.le_refl _), (rmLf_noBreak _ t (Nat.le_refl _)).1⟩

example : rmLf "Corr//Sub///x".toList = "Corr Sub /x".toList := by decide

/-! ### C200: rows given value by value -/

/-- A row that is given value by value is the row that is given at once, while no more than 60 columns are allocated. -/
theorem C200_iterated_row_partial (s s' : State) (it : Iter) (fmt : List Char) (vals : List (List Char)) (hm : s.maxCol ≤ 60) (h0 : it.vals = [])
    (hl : vals.length ≤ 60) (hv : ∀ v ∈ vals, v.length < 2000) (hf : fmt.length < 2000) (h : addRow s fmt vals = .ok s') :
    ∃ it1 it2 it3, iterFormat s it fmt = .ok it1 ∧ iterValues s it1 vals = .ok it2 ∧ iterFlush s it2 = .ok (s', it3) ∧ it3.vals = [] := by
  refine ⟨{ it with fmt := fmt }, { it with fmt := fmt, vals := vals }, { it with fmt := fmt, vals := [] }, ?_, ?_, ?_, rfl⟩
  · unfold iterFormat setupFails
    rw [if_neg (by simp; omega), if_neg (by omega)]
  · rw [iterValues_ok s hm vals _ (by simp [h0]; omega) hv]
    simp [h0]
  · unfold iterFlush setupFails
    rw [if_neg (by simp; omega)]
    dsimp only
    rw [addRow_more s s' fmt vals _ h]

example : ∃ s', addRow init "l|r".toList ["a".toList, "b".toList] = .ok s' ∧ s'.rows = [0] := ⟨_, rfl, rfl⟩

/-- Values that were not given are empty, up to the number of columns allocated. -/
theorem C200_missing_values (s s' : State) (it : Iter) (hm : s.maxCol ≤ 60) (n : Nat) (hn : it.vals.length + n ≤ s.maxCol)
    (h : addRow s it.fmt (it.vals ++ List.replicate n []) = .ok s') : ∃ it', iterFlush s it = .ok (s', it') := by
  have e : it.vals ++ List.replicate (s.maxCol - it.vals.length) [] =
      (it.vals ++ List.replicate n []) ++ List.replicate (s.maxCol - it.vals.length - n) ([] : List Char) := by
    rw [List.append_assoc, List.replicate_append_replicate]
    congr 2
    omega
  refine ⟨{ it with vals := [] }, ?_⟩
  unfold iterFlush setupFails
  rw [if_neg (by simp; omega), e, addRow_more s s' it.fmt _ _ h]

/-- Once a row with more than 50 columns has been added, no row can be given value by value any more, in this report or in a later one:
each of the calls ends the program. -/
theorem C200_after_many_columns (s s1 s2 s3 : State) (fmt : List Char) (vals : List (List Char)) (ops ops' : List Op) (hm : s.maxCol = 50)
    (hnew : ∀ d ∈ s.defs, d.fmt ≠ fmt) (h : addRow s fmt vals = .ok s1) (hc : ∀ d ∈ s1.defs, d.fmt = fmt → 50 < d.cols.length)
    (h2 : run s1 ops = .ok s2) (h3 : run (erase s2) ops' = .ok s3) (it : Iter) (f v : List Char) :
    (iterFormat s2 it f = .error .exit ∧ iterValue s2 it v = .error .exit ∧ (∃ e, iterFlush s2 it = .error e)) ∧
    iterFormat s3 it f = .error .exit ∧ iterValue s3 it v = .error .exit ∧ ∃ e, iterFlush s3 it = .error e := by
  have h1 : 60 < s1.maxCol := by
    obtain ⟨s0, j, cells, g1, g2, g3⟩ := addRow_cases s s1 fmt vals h
    subst g3
    rcases setJust_cases s fmt s0 j g1 with ⟨e, d, hd, hdf⟩ | ⟨d, m, e, _, hdf, _, _, h60⟩
    · exact absurd hdf (hnew d (List.mem_of_getElem? hd))
    · subst e
      exact h60 hm (hc d (List.mem_append_right _ (List.mem_singleton.mpr rfl)) hdf)
  have h4 := run_maxCol ops s1 s2 h2
  have h5 := run_maxCol ops' (erase s2) s3 h3
  have h6 : (erase s2).maxCol = s2.maxCol := rfl
  have key : ∀ t : State, 60 < t.maxCol → iterFormat t it f = .error .exit ∧ iterValue t it v = .error .exit ∧ ∃ e, iterFlush t it = .error e := by
    intro t ht
    have hset : setupFails t = true := by unfold setupFails; simp; omega
    unfold iterFormat iterValue iterFlush
    rw [hset]
    exact ⟨rfl, rfl, _, rfl⟩
  exact ⟨key s2 (by omega), key s3 (by omega)⟩

example : (addRow init (List.replicate 51 'l') (List.replicate 51 [])).toOption.map (fun s => s.maxCol) = some 75 := by decide +kernel

/-- A format with just 50 columns goes past the arrays of sizes. -/
theorem C200_fifty_columns : tooMany (after init [.row (List.replicate 50 'l') (List.replicate 50 [])]) = true ∧
    ∀ (R : Round) (pad : Nat) (centred : Option Nat) (s : State), tooMany s = true → dump R pad centred s = .error .overflow :=
  ⟨by decide +kernel, fun R pad centred s h => by unfold dump; dsimp only; rw [if_pos h]⟩

end Verif.Rpg
