import Verif.ScliteArgs.Lemmas
/-!
# Properties of the command line and the main loop of sclite (C207–C212)
-/
set_option autoImplicit false
namespace Verif.ScliteArgs

/-! ## C207: options take effect as documented -/

/-- A command line made of documented options sets exactly what they stand for, one after the other (at most 40
hypotheses). -/
theorem options_read (env : Env) (os : List Opt) (h : ∀ o ∈ os, o.Ok env) (hh : hypCount os ≤ 40) :
    parse env (typedAll os).length Args.new (typedAll os) = .ok (os.foldl (fun s o => o.apply env s) Args.new) :=
  parse_typed env os h _ _ (typed_length os) (by simpa [Args.new] using hh)

/-- Only the order of options with the same letter matters. -/
theorem options_order (env : Env) (l m : List Opt) (hl : ∀ o ∈ l, o.Ok env) (hh : hypCount l ≤ 40)
    (h : ∀ c : Char, l.filter (fun o => o.letter = c) = m.filter (fun o => o.letter = c)) :
    procArgs env (typedAll l) = procArgs env (typedAll m) := by
  have hm : ∀ o ∈ m, o.Ok env := by
    intro o ho
    have : o ∈ l.filter (fun x => x.letter = o.letter) := by rw [h]; simp [ho]
    exact hl o (List.mem_filter.1 this).1
  have hc : ∀ k : List Opt, hypCount k = (k.filter (fun o => o.letter = 'h')).length := by
    intro k
    unfold hypCount
    rw [List.countP_eq_length_filter]
    congr 1
    apply List.filter_congr
    intro o _
    cases o <;> rfl
  have hhm : hypCount m ≤ 40 := by rw [hc, ← h, ← hc]; exact hh
  have hempty : ∀ k : List Opt, typedAll k = [] ↔ k = [] := by
    intro k
    cases k with
    | nil => exact ⟨fun _ => rfl, fun _ => rfl⟩
    | cons o k => exact ⟨fun e => by (cases e), fun e => by (cases e)⟩
  have hnil : ∀ a b : List Opt, (∀ c : Char, a.filter (fun o => o.letter = c) = b.filter (fun o => o.letter = c)) → a = [] → b = [] := by
    intro a b hab e
    subst e
    cases b with
    | nil => rfl
    | cons o b =>
      have := hab o.letter
      rw [List.filter_cons_of_pos (by simp)] at this
      cases this
  unfold procArgs
  by_cases he : l = []
  · have := hnil l m h he
    rw [he, this]
  · have hme : m ≠ [] := fun e => he (hnil m l (fun c => (h c).symm) e)
    rw [if_neg (fun e => he ((hempty l).1 e)), if_neg (fun e => hme ((hempty m).1 e)), options_read env l hl hh, options_read env m hm hhm,
      foldl_order env l m h]

/-- The encodings that -e takes, in any case. -/
theorem encodings (w : Str) : encOf w = [("euc".toList, Enc.gb), ("gb".toList, .gb), ("ext_ascii".toList, .extAscii), ("ascii".toList, .ascii),
    ("utf-8".toList, .utf8)].lookup (w.map Char.toLower) := by
  unfold encOf sameName
  generalize w.map Char.toLower = v
  by_cases h1 : v = "euc".toList
  · subst h1; decide
  by_cases h2 : v = "gb".toList
  · subst h2; decide
  by_cases h3 : v = "ext_ascii".toList
  · subst h3; decide
  by_cases h4 : v = "ascii".toList
  · subst h4; decide
  by_cases h5 : v = "utf-8".toList
  · subst h5; decide
  · have e : ∀ x : Str, v ≠ x → (v == x) = false := fun x h => by simpa using h
    rw [e _ h1, e _ h2, e _ h3, e _ h4, e _ h5]
    simp only [List.lookup, e _ h1, e _ h2, e _ h3, e _ h4, e _ h5]
    rfl

/-- The languages that -e takes, in any case. -/
theorem languages (w : Str) : langOf w = if w.map Char.toLower ∈ ["generic".toList, "babel_turkish".toList, "babel_vietnamese".toList,
    "babel_lithuanian".toList, "babel_kurmanji".toList, "babel_cebuano".toList, "babel_kazakh".toList, "babel_mongolian".toList,
    "babel_guarani".toList, "ukrainian".toList] then some (w.map Char.toLower) else none := find_name w langs

/-- The 41st hypothesis is written past the arrays of files. -/
theorem too_many_hyps (env : Env) (s : Args) (f : Str) (rest : List Str) (hf : Word f) (hs : s.hyps.length = 40) :
    step env s "-h".toList (f :: rest) = .error .undefined := by
  have hd : dash f = false := hf
  have hl : 40 ≤ s.hyps.length := by omega
  unfold step
  rw [if_neg (by decide), if_pos rfl]
  dsimp only
  rw [hd, if_neg (by decide), if_pos hl]

/-- A word that belongs to no option ends the reading: everything after it is dropped without a message. -/
theorem stray_word (env : Env) (os : List Opt) (h : ∀ o ∈ os, o.Ok env) (hh : hypCount os ≤ 40) (w : Str) (hw : Word w) (rest : List Str) :
    parse env ((typedAll (os ++ [.caseSens])).length + (w :: rest).length) Args.new (typedAll (os ++ [.caseSens]) ++ w :: rest) =
      .ok ((os ++ [Opt.caseSens]).foldl (fun s o => o.apply env s) Args.new) := by
  have gen : ∀ (os : List Opt) (_ : ∀ o ∈ os, o.Ok env) (n : Nat) (s : Args), os.length + 2 ≤ n → s.hyps.length + hypCount os ≤ 40 →
      parse env n s (typedAll (os ++ [.caseSens]) ++ w :: rest) = .ok ((os ++ [Opt.caseSens]).foldl (fun s o => o.apply env s) s) := by
    intro os
    induction os with
    | nil =>
      intro _ n s hn _
      obtain ⟨k, rfl⟩ : ∃ k, n = k + 2 := ⟨n - 2, by simp at hn; omega⟩
      have hd : dash w = false := hw
      show (if dash ['-', 's'] then (match step env s ['-', 's'] (w :: rest) with
        | Except.error e => Except.error e
        | Except.ok (s', r) => parse env (k + 1) s' r) else Except.ok s) = _
      have e : step env s ['-', 's'] (w :: rest) = .ok ({ s with caseSens := true }, w :: rest) := rfl
      rw [if_pos (by decide), e]
      show (if dash w then _ else Except.ok _) = _
      rw [hd, if_neg (by decide)]
      rfl
    | cons o os ih =>
      intro ho n s hn hc
      obtain ⟨k, rfl⟩ : ∃ k, n = k + 1 := ⟨n - 1, by simp at hn; omega⟩
      have hcount : hypCount (o :: os) = hypCount os + (if o.isHyp = true then 1 else 0) := by
        unfold hypCount; rw [List.countP_cons]
      have hfresh : Fresh (typedAll (os ++ [.caseSens]) ++ w :: rest) := by
        intro a ha
        refine fresh_typedAll (os ++ [.caseSens]) a ?_
        rw [List.head?_append] at ha
        cases ht : (typedAll (os ++ [.caseSens])).head? with
        | some b => rw [ht] at ha; exact ha
        | none => cases os <;> cases ht
      have hst := step_typed env s o (ho o List.mem_cons_self) (typedAll (os ++ [.caseSens]) ++ w :: rest) hfresh
        (fun hi => by rw [hcount, if_pos hi] at hc; omega)
      have e : typedAll (o :: os ++ [.caseSens]) ++ w :: rest = ['-', o.letter] :: (o.values ++ (typedAll (os ++ [.caseSens]) ++ w :: rest)) := by
        show ((['-', o.letter] :: o.values) ++ typedAll (os ++ [.caseSens])) ++ w :: rest = _
        simp
      rw [e]
      show (if dash ['-', o.letter] then (match step env s ['-', o.letter] (o.values ++ (typedAll (os ++ [.caseSens]) ++ w :: rest)) with
        | Except.error e => Except.error e
        | Except.ok (s', r) => parse env k s' r) else Except.ok s) = _
      rw [if_pos (show dash ['-', o.letter] = true from rfl), hst]
      exact ih (fun x hx => ho x (List.mem_cons_of_mem _ hx)) k (o.apply env s) (by simp at hn; omega) (by rw [apply_hyps]; omega)
  refine gen os h _ _ ?_ (by simpa [Args.new] using hh)
  have := typed_length (os ++ [.caseSens])
  simp at this ⊢
  omega

/-- A world in which every file exists. -/
def exEnv : Env := ⟨fun _ => true, fun w => w.length, true, false⟩

/-- A usual command line. -/
def exOpts : List Opt := [.ref "r.stm".toList (some "stm".toList), .hyp "h.ctm".toList (some ("ctm".toList, some "sys".toList)),
  .reports ["pra".toList, "sum".toList], .optDel, .frag]

example : (∀ o ∈ exOpts, o.Ok exEnv) ∧ hypCount exOpts ≤ 40 :=
  ⟨fun o ho => by
    simp only [exOpts, List.mem_cons, List.not_mem_nil, or_false] at ho
    rcases ho with rfl | rfl | rfl | rfl | rfl
    · exact ⟨by decide, by intro b hb; cases hb; decide⟩
    · exact ⟨by decide, by intro b hb; cases hb; exact ⟨by decide, by intro t ht; cases ht; decide⟩⟩
    · exact ⟨by decide, by decide⟩
    · trivial
    · trivial, by decide⟩

example : typedAll exOpts = ["-r", "r.stm", "stm", "-h", "h.ctm", "ctm", "sys", "-o", "pra", "sum", "-D", "-F"].map String.toList := by decide

example : ((procArgs exEnv (typedAll exOpts)).toOption.map fun s => (s.outputs, s.rfmt, s.optDel, s.frag)) =
    some ([.pra, .sum], some "stm".toList, true, true) := by decide

/-- The help text names the language `ukranian`, which is refused. -/
theorem ukranian_refused : langOf "ukranian".toList = none ∧ langOf "ukrainian".toList = some "ukrainian".toList := by decide

/-- After a stray word even `-D` and `-F` are ignored. -/
theorem stray_ignored : ((procArgs exEnv (["-r", "r.stm", "stm", "-h", "h.ctm", "ctm", "-s", "oops", "-D", "-F"].map String.toList)).toOption.map
    fun s => (s.caseSens, s.optDel, s.frag)) = some (true, false, false) := by decide

/-! ## C208: which reports are made -/

/-- A report is made exactly if it was named an odd number of times after the last `none`. -/
theorem reports_named (ws : List Str) (r : Rep) : r ∈ ws.foldl repWord [] ↔ named r ws % 2 = 1 := (reports_spec ws r).2

/-- If no report is named twice, the reports named after the last `none` are made, and no others. -/
theorem reports_once_partial (ws : List Str) (h : ∀ r, named r ws ≤ 1) (r : Rep) : r ∈ ws.foldl repWord [] ↔ 1 ≤ named r ws := by
  rw [reports_named]
  have := h r
  omega

/-- A report that is named twice is not made; asking for all and the summary gives all but the summary. -/
theorem named_twice : ["sum".toList, "sum".toList].foldl repWord [] = [] ∧
    Rep.sum ∉ ["all".toList, "sum".toList].foldl repWord [] := by decide

/-- The same for the graphs of confidences. -/
theorem confs_named (ws : List Str) (c : Conf) : c ∈ ws.foldl confWord [] ↔ namedConf c ws % 2 = 1 := (confs_spec ws c).2

/-- Without -o, -C and -p the summary goes to standard output. -/
theorem default_report (s : Args) (h : s.outputs = [] ∧ s.outset = false) (hp : s.pipeOut = false) :
    (defaults s).toOption.map Args.outputs = some [.sum, .stdout] := by
  unfold defaults
  rw [if_neg (by simp [hp])]
  simp [hp, h.1, h.2, Except.toOption]

/-- With any of these the reports are exactly those asked for. -/
theorem asked_reports (s d : Args) (h : s.outset = true) (hd : defaults s = .ok d) : d.outputs = s.outputs := by
  unfold defaults at hd
  split at hd
  · cases hd
  · injection hd with hd
    subst hd
    have h1 : ∀ x : Args, x.outset = true → (if x.outputs = [] ∧ x.outset = false then { x with outputs := [.sum, .stdout] } else x) = x := by
      intro x hx
      rw [if_neg (by simp [hx])]
    have h2 : ∀ x : Args, (if .stdout ∈ x.outputs ∧ x.outset = true ∧ 0 < x.feedback ∧ x.fbset = false then { x with feedback := 0 } else x).outputs =
        x.outputs := by
      intro x; split <;> rfl
    have h3 : (if s.pipeOut = true then { s with feedback := 0 } else s).outset = true := by split <;> exact h
    rw [h1 _ h3, h2]
    split <;> rfl

/-- What is written for a system: every report asked for, to its own file or all to standard output; the report of
weights only if weights were used; every graph. -/
theorem reports_written {σ : Type} (s : Args) (weighted : σ → Bool) (y : σ) (root : Str) (e : Event σ) :
    e ∈ reports s weighted y root ↔
      (∃ r ∈ s.outputs, r ≠ .stdout ∧ (r = .wws → weighted y = true) ∧ e = .report y r (if .stdout ∈ s.outputs then none else some root)) ∨
      (∃ c ∈ s.conf, e = .conf y c root) := by
  unfold reports
  rw [List.mem_append, List.mem_map, List.mem_map]
  constructor
  · rintro (⟨r, hr, rfl⟩ | ⟨c, hc, rfl⟩)
    · rw [List.mem_filter] at hr
      obtain ⟨ho, hx⟩ := hr
      simp only [Bool.and_eq_true, decide_eq_true_eq, Bool.or_eq_true, bne_iff_ne, ne_eq] at hx
      refine Or.inl ⟨r, hx.1, ?_, ?_, rfl⟩
      · intro e; subst e; exact absurd ho (by decide)
      · intro e; rcases hx.2 with h | h
        · exact absurd e h
        · exact h
    · rw [List.mem_filter] at hc
      exact Or.inr ⟨c, by simpa using hc.2, rfl⟩
  · rintro (⟨r, hr, h1, h2, rfl⟩ | ⟨c, hc, rfl⟩)
    · refine Or.inl ⟨r, List.mem_filter.2 ⟨?_, ?_⟩, rfl⟩
      · cases r <;> first | exact absurd rfl h1 | decide
      · simp only [Bool.and_eq_true, decide_eq_true_eq, Bool.or_eq_true, bne_iff_ne, ne_eq]
        refine ⟨hr, ?_⟩
        by_cases e : r = .wws
        · exact Or.inr (h2 e)
        · exact Or.inl e
    · refine Or.inr ⟨c, List.mem_filter.2 ⟨?_, by simpa using hc⟩, rfl⟩
      cases c <;> decide

example : (∀ r, named r ["dtl".toList, "none".toList, "all".toList, "lur".toList] ≤ 1) ∧
    ["dtl".toList, "none".toList, "all".toList, "lur".toList].foldl repWord [] = [.pra, .sum, .rsum, .lur] :=
  ⟨fun r => by cases r <;> decide, by decide⟩

example : (defaults Args.new).toOption.map Args.outputs = some [.sum, .stdout] := by decide

/-! ## C209: what is accepted -/

/-- A command line is accepted exactly if it names an input and keeps the rules for files, formats and options; piped
input alone with -m or -c is left out. -/
theorem accepted_partial (env : Env) (d : Args) (hx : d.hyps ≠ [] ∨ (d.redRef = false ∧ d.redHyp = false ∧ d.chars = false)) :
    (∃ a b, checkFiles env d = .ok a ∧ checkRest a = .ok b) ↔ HasInput d ∧ (d.hyps ≠ [] → FilesOk env d) ∧ OptionsOk d := by
  constructor
  · rintro ⟨a, b, ha, hb⟩
    obtain ⟨h1, h2, h3⟩ := checkFiles_ok env d a ha
    exact ⟨h1, h2, checkRest_ok d a b h3 hx hb⟩
  · rintro ⟨h1, h2, h3⟩
    exact checks_accept env d hx h1 h2 h3

/-- What is accepted is not changed, except that the format of the reference is filled in. -/
theorem accepted_same (env : Env) (d a b : Args) (ha : checkFiles env d = .ok a) (hb : checkRest a = .ok b) :
    b = if d.hyps = [] then d else { d with rfmt := some (refFmt d) } := by
  have h3 := (checkFiles_ok env d a ha).2.2
  have : b = a := by
    unfold checkRest at hb
    repeat' split at hb
    all_goals first | (injection hb with hb; exact hb.symm) | cases hb
  rw [this, h3]

/-- Piping the systems out and printing to standard output exclude each other. -/
theorem no_pipe_with_stdout (s : Args) : (∃ d, defaults s = .ok d) ↔ ¬ (s.pipeOut = true ∧ .stdout ∈ s.outputs) := by
  unfold defaults
  split
  · rename_i h
    exact ⟨fun ⟨d, e⟩ => by (cases e), fun h' => absurd h h'⟩
  · rename_i h
    exact ⟨fun _ => h, fun _ => ⟨_, rfl⟩⟩

/-- Piped input alone with -m always reads through a null pointer; so does -c without -d. -/
theorem piped_reduce_undefined (env : Env) (d : Args) (hp : d.pipeIn = true) (hr : d.ref = none) (hh : d.hyps = []) (hf : d.rfmt = none)
    (hi : ∀ i ∈ d.id, i ∈ idTypes)
    (h : (d.redRef = true ∨ d.redHyp = true) ∨ (d.chars = true ∧ d.useDiff = false)) :
    checkFiles env d = .ok d ∧ checkRest d = .error .undefined := by
  constructor
  · unfold checkFiles
    rw [if_neg (by simp [hp]), hr, hh]
  · unfold checkRest
    rw [if_neg (by
      cases hid : d.id with
      | none => simp
      | some i => exact fun e => of_decide_eq_true e (hi i hid))]
    by_cases hm : d.redRef = true ∨ d.redHyp = true
    · rw [if_pos ⟨hm, hf⟩]
    · rcases h with h | ⟨h1, h2⟩
      · exact absurd h hm
      · rw [if_neg (fun e => hm e.1), if_neg (fun e => hm e.1), if_neg (by simp [h2]), if_pos ⟨h1, hf⟩]

/-- The help text excludes -F and -D with -d; both are accepted. -/
theorem exclusive_accepted : ((procArgs exEnv (["-r", "r", "-h", "h", "-i", "rm", "-d", "-F", "-D"].map String.toList)).toOption.map
    fun s => (s.useDiff, s.frag, s.optDel)) = some (true, true, true) := by decide

/-- A pair of formats that is accepted but never scored: the time marked format, with any partner. -/
theorem tmk_accepted_not_scored : (procArgs exEnv (["-r", "r", "tmk", "-h", "h", "tmk"].map String.toList)).toOption.isSome = true ∧
    ∀ f, scorable "tmk".toList f = false ∧ scorable f "tmk".toList = false := by
  refine ⟨by decide, fun f => ?_⟩
  unfold scorable
  constructor
  · simp only [decide_eq_false_iff_not]
    rintro (⟨h, _⟩ | ⟨h, _⟩ | ⟨h, _⟩ | ⟨h, _⟩) <;> exact absurd h (by decide)
  · simp only [decide_eq_false_iff_not]
    rintro (⟨_, h⟩ | ⟨_, h⟩ | ⟨_, h⟩ | ⟨_, h⟩) <;> exact absurd h (by decide)

/-- The check for -c looks at the first hypothesis only. -/
theorem chars_first_only :
    (procArgs exEnv (["-r", "r", "stm", "-h", "a", "ctm", "-h", "b", "txt", "-c"].map String.toList)).toOption.isSome = true ∧
    (procArgs exEnv (["-r", "r", "stm", "-h", "b", "txt", "-h", "a", "ctm", "-c"].map String.toList)).toOption = none := by decide

example : ((parse exEnv 12 Args.new (typedAll exOpts)).toOption.map fun s => decide (s.hyps ≠ [])) = some true := by decide

/-! ## C210: where reports go -/

/-- Without options the reports lie beside the hypothesis and are named after it. -/
theorem root_beside (f : Str) : outRoot none none f = f ∨ f = ['.', '/'] ++ outRoot none none f := by
  by_cases h : '/' ∈ f
  · obtain ⟨d, b, rfl, hb⟩ := split_last f h
    unfold outRoot
    rw [splitPath_slash d b hb]
    by_cases hd : d = ['.']
    · right; subst hd; simp
    · left; simp [hd]
  · left
    unfold outRoot
    rw [splitPath_plain f h]
    simp

/-- With -O the reports lie in that directory, with -n they have that name; the rest comes from the hypothesis. -/
theorem root_placed (dir name : Option Str) (d b : Str) (h : '/' ∉ b) (hd : dir.isSome ∨ d ≠ ['.']) :
    outRoot dir name (d ++ '/' :: b) = dir.getD d ++ '/' :: name.getD b := by
  unfold outRoot
  rw [splitPath_slash d b h, if_pos hd]

/-- The same for a hypothesis in the current directory. -/
theorem root_here (dir name : Option Str) (b : Str) (h : '/' ∉ b) :
    outRoot dir name b = (match dir with | some d => d ++ '/' :: name.getD b | none => name.getD b) := by
  unfold outRoot
  rw [splitPath_plain b h]
  cases dir <;> simp

/-- Files of reports of two systems differ if neither root continues the other. -/
theorem files_distinct_partial (a b : Str) (h1 : ¬ a <+: b) (h2 : ¬ b <+: a) (x y : Str) : a ++ x ≠ b ++ y := by
  intro e
  rcases List.append_eq_append_iff.1 e with ⟨c, h, _⟩ | ⟨c, h, _⟩
  · exact h1 ⟨c, h.symm⟩
  · exact h2 ⟨c, h.symm⟩

/-- The files of different reports of a system differ. -/
theorem suffixes_distinct (sp : List Str) (r q : Rep) (h : r ≠ q) (a b : Str) (ha : a ∈ suffixes sp r) (hb : b ∈ suffixes sp q) : a ≠ b := by
  intro e
  subst e
  cases r <;> cases q <;> first
    | exact absurd rfl h
    | (simp [suffixes] at ha hb; done)
    | (simp [suffixes] at ha hb; subst ha; simp at hb; done)
    | (simp [suffixes] at ha hb; subst hb; simp at ha; done)
    | (simp [suffixes] at ha hb
       obtain ⟨p, _, rfl⟩ := ha
       obtain ⟨q, _, hq⟩ := hb
       simp at hq; done)

/-- Reports by speaker have a file of its own for each. -/
theorem speakers_distinct (sp : List Str) (h : sp.Nodup) (r : Rep) : (suffixes sp r).Nodup := by
  cases r
  case snt => exact (List.pairwise_map.2 (h.imp fun hne e => hne (List.append_cancel_left e)))
  case spk => exact (List.pairwise_map.2 (h.imp fun hne e => hne (List.append_cancel_left e)))
  all_goals simp [suffixes]

/-- With -n the hypotheses of one directory all have the same root, although the help text promises to append the
hypothesis's name if there are several. -/
theorem name_collides (n d b c : Str) (hb : '/' ∉ b) (hc : '/' ∉ c) :
    outRoot none (some n) (d ++ '/' :: b) = outRoot none (some n) (d ++ '/' :: c) := by
  unfold outRoot
  rw [splitPath_slash d b hb, splitPath_slash d c hc]
  rfl

/-- With -O hypotheses of the same name in different directories have the same root. -/
theorem dir_collides (o d e b : Str) (hb : '/' ∉ b) : outRoot (some o) none (d ++ '/' :: b) = outRoot (some o) none (e ++ '/' :: b) := by
  rw [root_placed _ _ _ _ hb (Or.inl rfl), root_placed _ _ _ _ hb (Or.inl rfl)]
  rfl

/-- Two hypotheses whose reports of two kinds share a file. -/
theorem files_collide : ∃ a ∈ suffixes [] .nlSgml, ∃ b ∈ suffixes [] .sgml, "x".toList ++ a = "x.nl".toList ++ b := by decide

example : outRoot none none "out/a.ctm".toList = "out/a.ctm".toList ∧ outRoot (some "res".toList) none "out/a.ctm".toList = "res/a.ctm".toList ∧
    outRoot none (some "best".toList) "a.ctm".toList = "best".toList := by decide

example : ¬ "a.ctm".toList <+: "b.ctm".toList ∧ ¬ "b.ctm".toList <+: "a.ctm".toList := by decide

/-! ## C211: what a run writes -/

/-- The systems at the end of a run and its closing message. -/
def closing {σ : Type} (s : Args) (ys : List σ) (ok : Bool) : List (Event σ) :=
  (if s.pipeOut then ys.map Event.piped else []) ++ (if 1 ≤ s.feedback then [.message ok] else [])

/-- A graph that was asked for and could be made; all else counts as made. -/
def made {σ : Type} (confOk : σ → Conf → Bool) : Event σ → Bool
  | .conf y c _ => confOk y c
  | _ => true

/-- With hypotheses only, all of which can be aligned: the reports of each, in order, then the closing; status 0. -/
theorem run_hyps {σ : Type} (s : Args) (title : σ → Str) (weighted : σ → Bool) (align : Hyp → Option σ) (input : Option (List σ))
    (confOk : σ → Conf → Bool) (zs : List σ) (hp : s.pipeIn = false) (hz : s.hyps.map align = zs.map some)
    (hsc : ∀ h ∈ s.hyps, scorable (s.rfmt.getD []) h.fmt = true) :
    let out := expected s weighted (zs.zip (s.hyps.map fun h => outRoot s.outDir s.outName h.file))
    run s title weighted align input true confOk = (out ++ closing s zs (out.all (made confOk)), .exit 0) := by
  intro out
  have hl := loop_hyps s title weighted align s.hyps [] [] zs [] rfl rfl hz hsc
  have hlen : zs.length = s.hyps.length := by simpa using (congrArg List.length hz).symm
  unfold run
  rw [hp]
  simp only [Bool.false_eq_true, if_false, reduceCtorEq, and_false, List.length_nil, Nat.add_zero, List.nil_append] at hl ⊢
  rw [hl]
  dsimp only
  rw [List.range_eq_range', pipeAll_spec zs s.hyps.length 0 (by omega), closing, ← List.append_assoc]
  rfl

/-- With piped systems only: the reports of each, in order, then the closing; status 0. -/
theorem run_piped {σ : Type} (s : Args) (title : σ → Str) (weighted : σ → Bool) (align : Hyp → Option σ) (ys : List σ)
    (confOk : σ → Conf → Bool) (hp : s.pipeIn = true) (hh : s.hyps = []) :
    let out := expected s weighted (ys.map fun y => (y, outRoot s.outDir s.outName (title y)))
    run s title weighted align (some ys) true confOk = (out ++ closing s ys (out.all (made confOk)), .exit 0) := by
  intro out
  have hl := loop_piped s title weighted align ys ys.length (Nat.le_refl _) ys.length 0 0 [] (by omega)
  unfold run
  rw [hp, hh]
  simp only [if_true, reduceCtorEq, Bool.true_eq_false, and_false, if_false, List.length_nil, Nat.zero_add, Nat.add_zero, List.nil_append,
    List.drop_zero] at hl ⊢
  rw [hl]
  have e : ∀ out : List (Event σ), loop s title weighted align ys.length ys.length 0 ys.length (fun i => ys[i]?) out = ((fun i => ys[i]?), out, none) :=
    fun _ => rfl
  rw [e]
  dsimp only
  rw [List.range_eq_range', pipeAll_spec ys ys.length 0 (by omega), closing, ← List.append_assoc]
  rfl

/-- With both, the hypotheses are stored in the wrong place: the first one is reported from a place that was never set. -/
theorem run_both_undefined {σ : Type} (s : Args) (title : σ → Str) (weighted : σ → Bool) (align : Hyp → Option σ) (ys : List σ)
    (confOk : σ → Conf → Bool) (hp : s.pipeIn = true) (hy : ys ≠ []) (h : Hyp) (hs : List Hyp) (hh : s.hyps = h :: hs)
    (hsc : scorable (s.rfmt.getD []) h.fmt = true) (z : σ) (hz : align h = some z) :
    (run s title weighted align (some ys) true confOk).2 = .undefined := by
  have hl := loop_piped s title weighted align ys (s.hyps.length + ys.length) (by omega) ys.length 0 s.hyps.length [] (by omega)
  have hpos : 0 < ys.length := List.length_pos_iff.2 hy
  unfold run
  rw [hp]
  simp only [if_true, reduceCtorEq, Bool.true_eq_false, and_false, if_false, List.nil_append, List.drop_zero] at hl ⊢
  rw [show s.hyps.length + ys.length = ys.length + s.hyps.length by omega] at hl ⊢
  rw [hl]
  have e : ∀ out : List (Event σ), ∃ sc, loop s title weighted align ys.length (ys.length + s.hyps.length) s.hyps.length ys.length (fun i => ys[i]?) out =
      (sc, out, some .undefined) := by
    intro out
    rw [hh]
    refine ⟨fun i => if i = 0 then some z else ys[i]?, ?_⟩
    show (if ys.length < ys.length + (h :: hs).length then (if ys.length ≤ ys.length then (match s.hyps[ys.length - ys.length]? with
      | none => _
      | some h => _) else _) else _) = _
    rw [if_pos (by simp), if_pos (Nat.le_refl _), Nat.sub_self, hh]
    dsimp only [List.getElem?_cons_zero]
    rw [if_pos hsc, hz]
    dsimp only
    rw [if_neg (by omega), List.getElem?_eq_none (Nat.le_refl _)]
  obtain ⟨sc, e⟩ := e (expected s weighted (ys.map fun y => (y, outRoot s.outDir s.outName (title y))))
  rw [e]

/-- A run of two hypotheses. -/
def exArgs : Args := { Args.new with ref := some "r".toList, rfmt := some "stm".toList, outputs := [.sum, .pra], outset := true,
                                     hyps := [⟨"a".toList, "ctm".toList, "a".toList⟩, ⟨"b".toList, "ctm".toList, "b".toList⟩] }

example : exArgs.hyps.map (fun h => some h.file) = ["a".toList, "b".toList].map some ∧
    ∀ h ∈ exArgs.hyps, scorable (exArgs.rfmt.getD []) h.fmt = true := by decide

example : run exArgs id (fun _ => false) (fun h => some h.file) none true (fun _ _ => true) =
    ([.report ['a'] .sum (some ['a']), .report ['a'] .pra (some ['a']), .report ['b'] .sum (some ['b']), .report ['b'] .pra (some ['b']),
      .message true], .exit 0) := by decide

example : (run { exArgs with pipeIn := true } id (fun _ => false) (fun h => some h.file) (some [['c']]) true (fun _ _ => true)).2 = .undefined := by decide

/-! ## C212: the exit status -/

/-- Status 0 means that all systems came in and, if there were hypotheses, each of them could be aligned. -/
theorem status_zero_partial {σ : Type} (s : Args) (title : σ → Str) (weighted : σ → Bool) (align : Hyp → Option σ) (input : Option (List σ))
    (wwlOk : Bool) (confOk : σ → Conf → Bool) (h : (run s title weighted align input wwlOk confOk).2 = .exit 0) :
    (s.pipeIn = true → input.isSome) ∧ (s.wwl.isSome → wwlOk = true) ∧
      ∀ x ∈ s.hyps, scorable (s.rfmt.getD []) x.fmt = true ∧ (align x).isSome := by
  unfold run at h
  cases hi : (if s.pipeIn then input else some []) with
  | none => rw [hi] at h; cases h
  | some ys =>
    rw [hi] at h
    dsimp only at h
    by_cases hw : s.wwl.isSome ∧ wwlOk = false
    · rw [if_pos hw] at h; cases h
    · rw [if_neg hw] at h
      refine ⟨?_, ?_, ?_⟩
      · intro hp; rw [hp, if_pos rfl] at hi; rw [hi]; rfl
      · intro hs
        cases hk : wwlOk with
        | true => rfl
        | false => exact absurd ⟨hs, hk⟩ hw
      · have hl := loop_all s title weighted align ys.length (s.hyps.length + ys.length) (s.hyps.length + ys.length) 0 (fun i => ys[i]?) []
        cases hr : loop s title weighted align ys.length (s.hyps.length + ys.length) (s.hyps.length + ys.length) 0 (fun i => ys[i]?) [] with
        | mk sc rest =>
          obtain ⟨out, st⟩ := rest
          rw [hr] at h hl
          cases st with
          | some e =>
            dsimp only at h
            subst h
            exact absurd rfl (hl.2)
          | none =>
            intro x hx
            obtain ⟨i, hi', hx⟩ := List.mem_iff_getElem.1 hx
            exact hl.1 rfl (i + ys.length) x (by omega) (by omega) (by omega) (by omega) (by rw [Nat.add_sub_cancel, List.getElem?_eq_getElem hi', hx])

/-- The status is 0 also when a graph could not be made and the closing message says so. -/
theorem failed_graph_status_zero : run { exArgs with conf := [.det] } id (fun _ => false) (fun h => some h.file) none true (fun _ _ => false) =
    ([.report ['a'] .sum (some ['a']), .report ['a'] .pra (some ['a']), .conf ['a'] .det ['a'], .report ['b'] .sum (some ['b']),
      .report ['b'] .pra (some ['b']), .conf ['b'] .det ['b'], .message false], .exit 0) := by decide

example : (run exArgs id (fun _ => false) (fun h => some h.file) none true (fun _ _ => true)).2 = .exit 0 := by decide

end Verif.ScliteArgs
