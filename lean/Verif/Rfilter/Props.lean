import Verif.Rfilter.Rewrite
/-!
# Theorems on the text filter rfilter1 (C89 – C95)
-/
set_option autoImplicit false
namespace Verif.Rfilter
open Verif.Lines (isSpace cstr fgets)

/-- The bytes of a text, for the examples. -/
def bytes (s : String) : List Nat := s.toList.map Char.toNat

/-- A rule set as it is after reading, for the examples. -/
def demo (keep cs : Bool) (rules : List SRule) : RuleSet :=
  let rs := rules.map (fun r => Rule.mk r.left r.source r.source.length r.right r.target)
  ⟨nist1, keep, cs, rs, (buildIndex cs rs).order, (buildIndex cs rs).first, (buildIndex cs rs).last⟩

theorem demo_built (keep cs : Bool) (rules : List SRule) : (demo keep cs rules).Built ∧ (demo keep cs rules).spec = rules := by
  refine ⟨⟨rfl, rfl, rfl, ?_⟩, ?_⟩
  · intro r hr
    obtain ⟨q, _, rfl⟩ := List.mem_map.1 hr
    exact fun _ => rfl
  · simp [demo, RuleSet.spec, Function.comp_def, Rule.spec]

/-! ## C89: what the rules make of a text -/

/-- Every rule set that is read from a file has its index built, whatever the file. -/
theorem read_is_built (file : List Nat) (rs : RuleSet) (h : getRules file = .ok rs) : rs.Built := (getRules_ok h).1

/-- The result of applying the rules is the specified rewriting — from left to right, at every place the first rule of the
file that applies to the original text — exactly when the buffer holds it and no left context reaches before the text. -/
theorem apply_iff (cap : Nat) (hcap : 0 < cap) (rs : RuleSet) (hb : rs.Built) (hfmt : rs.format = nist1) (text : List Nat) (h0 : 0 ∉ text)
    (out used : List Nat) :
    applyRules cap rs text = .ok (out, used) ↔
      Rewrites rs.caseSensitive rs.copyNoHit rs.spec [] text out used ∧ out.length < cap ∧ ¬ Hazard rs.caseSensitive rs.spec text := by
  have h0' : ∀ b ∈ text, b ≠ 0 := fun b hb e => h0 (e ▸ hb)
  have hspec := applyLoop_spec cap rs hb text h0' (text.length + 1) 0 [] [] (by omega) (by omega) (by simpa using hcap)
  simp only [List.take_zero, List.drop_zero, List.nil_append] at hspec
  rw [applyRules, if_neg (fun h => h hfmt), hazard_iff]
  rcases hspec with ⟨o, u, e, h1, h2, h3⟩ | ⟨e, h⟩
  · rw [e]
    constructor
    · intro h
      cases h
      exact ⟨h1, h2, h3⟩
    · rintro ⟨g1, g2, g3⟩
      obtain ⟨rfl, rfl⟩ := rewrites_unique g1 h1
      rfl
  · rw [e]
    constructor
    · intro h
      cases h
    · rintro ⟨g1, g2, g3⟩
      rcases h with h | ⟨o, u, g4, g5⟩
      · exact absurd h g3
      · obtain ⟨rfl, rfl⟩ := rewrites_unique g1 g4
        omega

/-- There is exactly one such rewriting of a text. -/
theorem rewriting_exists_unique (cs keep : Bool) (rules : List SRule) (text : List Nat) :
    ∃ out used, Rewrites cs keep rules [] text out used ∧
      ∀ out' used', Rewrites cs keep rules [] text out' used' → out' = out ∧ used' = used := by
  obtain ⟨out, used, h⟩ := rewrites_exists cs keep rules text.length [] text (Nat.le_refl _)
  exact ⟨out, used, h, fun o u h' => rewrites_unique h' h⟩

/-- A text in which no rule applies anywhere is not changed. -/
theorem untouched (cap : Nat) (hcap : 0 < cap) (rs : RuleSet) (hb : rs.Built) (text : List Nat) (h0 : 0 ∉ text) (hk : rs.copyNoHit = true)
    (hn : ∀ before after, text = before ++ after → ∀ r ∈ rs.spec, ¬ Applies rs.caseSensitive r before after) (out used : List Nat)
    (hfmt : rs.format = nist1) (h : applyRules cap rs text = .ok (out, used)) : out = text ∧ used = [] := by
  have := ((apply_iff cap hcap rs hb hfmt text h0 out used).1 h).1
  rw [hk] at this
  exact rewrites_same this (by simpa using hn)

/-- "the" becomes "THE" between blanks, "ab" is replaced before "a" is looked at, and the replaced text is not read again. -/
example : applyRules 100 (demo true true [⟨bytes "the", bytes "THE", [32], [32]⟩, ⟨bytes "ab", bytes "aa", [], []⟩, ⟨bytes "a", bytes "x", [], []⟩])
    (bytes " the theta aba") = .ok (bytes " THE thetx aax", [1, 3, 2, 3]) := by decide +kernel

example : (demo true true [⟨bytes "ab", bytes "ba", [], []⟩]).format = nist1 ∧ 0 ∉ bytes " the theta aba" := by decide +kernel

/-- The order of the rules in the file counts, not the order in the index. -/
example : applyRules 100 (demo true true [⟨bytes "a", bytes "x", [], []⟩, ⟨bytes "b", bytes "y", [], []⟩, ⟨bytes "ab", bytes "aa", [], []⟩])
    (bytes "ab") = .ok (bytes "xy", [1, 2]) := by decide +kernel

/-! ## C90: the filter ends -/

/-- Whatever the rule file and the input — rules without a source included — the program comes to an end. -/
theorem always_ends (file input : List Nat) : rfilter file input ≠ .hang := by
  rw [rfilter]
  split
  · rename_i rs h
    exact filterLines_hang rs (getRules_ok h).1 _ (getLines_nul _ _ _)
  · intro h; cases h
  · intro h; cases h
  · rename_i h
    exact absurd h (getRules_hang _)

/-- No more replacements are made than the text has bytes. -/
theorem few_replacements (cap : Nat) (hcap : 0 < cap) (rs : RuleSet) (hb : rs.Built) (hfmt : rs.format = nist1) (text : List Nat) (h0 : 0 ∉ text)
    (out used : List Nat) (h : applyRules cap rs text = .ok (out, used)) : used.length ≤ text.length :=
  rewrites_used ((apply_iff cap hcap rs hb hfmt text h0 out used).1 h).1

/-- A rule without a source is never used. -/
theorem empty_source_never_used (cap : Nat) (hcap : 0 < cap) (rs : RuleSet) (hb : rs.Built) (hfmt : rs.format = nist1) (text : List Nat)
    (h0 : 0 ∉ text) (out used : List Nat) (h : applyRules cap rs text = .ok (out, used)) (i : Nat) (hi : i ∈ used) :
    ∃ (r : SRule), rs.spec[i - 1]? = some r ∧ 1 ≤ i ∧ r.source ≠ [] := by
  have hr := ((apply_iff cap hcap rs hb hfmt text h0 out used).1 h).1
  clear h
  have key : ∀ {b a o u : List Nat}, Rewrites rs.caseSensitive rs.copyNoHit rs.spec b a o u → i ∈ u →
      ∃ (r : SRule), rs.spec[i - 1]? = some r ∧ 1 ≤ i ∧ r.source ≠ [] := by
    intro b a o u hr hi
    induction hr with
    | done => simp at hi
    | replace b s rest out used j r hf hl _ ih =>
      rcases List.mem_cons.1 hi with hi | hi
      · refine ⟨r, ?_, by omega, hf.2.1.1⟩
        rw [hi]
        exact hf.1
      · exact ih hi
    | pass b c rest out used _ _ ih => exact ih hi
  exact key hr hi

/-- A file with a rule without source and a rule that makes its own source again. -/
example : rfilter (bytes ";; c\n[] => [x]\n[a] => [aa]\n") (bytes "banana\n") = .ok (bytes "baanaanaa\n", [2, 2, 2]) := by decide +kernel

/-! ## C91: lines -/

theorem filter_texts (file : List Nat) (texts : List (List Nat)) (hs : ∀ t ∈ texts, ShortLine 99998 t) (rs : RuleSet)
    (hg : getRules file = .ok rs) : rfilter file (fileOf texts) = filterLines rs (texts.map (· ++ [10])) := by
  rw [rfilter, hg]
  simp only
  rw [getLines_fileOf 99998 texts hs _ (length_fileOf _)]

theorem text_facts (texts : List (List Nat)) (n : Nat) (hs : ∀ t ∈ texts, ShortLine n t) :
    (∀ t ∈ texts.map (· ++ [10]), ∀ b ∈ t, b ≠ 0) ∧ ∀ t ∈ texts.map (· ++ [10]), t ≠ [] := by
  constructor
  · intro t ht b hb e
    obtain ⟨x, hx, rfl⟩ := List.mem_map.1 ht
    rcases List.mem_append.1 hb with hb | hb
    · exact (hs x hx).1 (e ▸ hb)
    · simp at hb
      omega
  · intro t ht e
    obtain ⟨x, hx, rfl⟩ := List.mem_map.1 ht
    simp at e

theorem rewritesAll_lines {cs : Bool} {rules : List SRule} {texts os : List (List Nat)} {used : List Nat}
    (h : RewritesAll cs true rules (texts.map (· ++ [10])) os used) (ht : ∀ t ∈ texts, 10 ∉ t)
    (hn : ∀ r ∈ rules, 10 ∉ r.source ∧ 10 ∉ r.target) :
    ∃ outs, os.flatten = fileOf outs ∧ outs.length = texts.length ∧ ∀ (i : Nat) (t o : List Nat), texts[i]? = some t → outs[i]? = some o →
      10 ∉ o ∧ ∃ u, Rewrites cs true rules [] (t ++ [10]) (o ++ [10]) u := by
  induction texts generalizing os used with
  | nil =>
    cases h
    exact ⟨[], by simp [fileOf], rfl, by simp⟩
  | cons t texts ih =>
    rw [List.map_cons] at h
    cases h with
    | cons _ _ o os u more h1 h2 =>
      obtain ⟨outs, e1, e2, h3⟩ := ih h2 (fun x hx => ht x (List.mem_cons_of_mem _ hx))
      obtain ⟨hc, hl⟩ := rewrites_newlines h1 hn
      obtain ⟨y, hy⟩ := hl t rfl
      have hy10 : 10 ∉ y := by
        rw [hy, List.count_append, List.count_append, List.count_eq_zero.2 (ht t (List.mem_cons_self ..))] at hc
        simp at hc
        exact List.count_eq_zero.1 hc
      refine ⟨y :: outs, ?_, by simp [e2], ?_⟩
      · rw [List.flatten_cons, e1, hy]
        simp [fileOf]
      · intro i t' o' ht' ho'
        cases i with
        | zero =>
          simp only [List.getElem?_cons_zero, Option.some.injEq] at ht' ho'
          subst ht' ho'
          exact ⟨hy10, u, by rw [← hy]; exact h1⟩
        | succ i =>
          simp only [List.getElem?_cons_succ] at ht' ho'
          exact h3 i t' o' ht' ho'

/-- The output has as many lines as the input, and every line of the output is what the rules make of the line of the input
with the same number. -/
theorem lines_preserved (file : List Nat) (texts : List (List Nat)) (hs : ∀ t ∈ texts, ShortLine 99998 t) (rs : RuleSet)
    (hg : getRules file = .ok rs) (hk : rs.copyNoHit = true) (out used : List Nat) (h : rfilter file (fileOf texts) = .ok (out, used)) :
    ∃ outs, out = fileOf outs ∧ outs.length = texts.length ∧ ∀ (i : Nat) (t o : List Nat), texts[i]? = some t → outs[i]? = some o →
      10 ∉ o ∧ ∃ u, Rewrites rs.caseSensitive true rs.spec [] (t ++ [10]) (o ++ [10]) u := by
  rw [filter_texts file texts hs rs hg] at h
  have hok := getRules_ok hg
  obtain ⟨f1, f2⟩ := text_facts texts 99998 hs
  by_cases hfmt : rs.format = nist1
  · rcases filterLines_spec rs hok.1 hfmt _ f1 f2 with ⟨os, u, e, h1, _⟩ | ⟨e, _⟩
    · rw [e] at h
      cases h
      rw [hk] at h1
      apply rewritesAll_lines h1 (fun t ht => (hs t ht).2.1)
      intro r hr
      obtain ⟨q, hq, rfl⟩ := List.mem_map.1 hr
      exact ⟨(hok.2 q hq).1, (hok.2 q hq).2.1⟩
    · rw [e] at h
      cases h
  · cases texts with
    | nil =>
      rw [List.map_nil, filterLines] at h
      cases h
      exact ⟨[], by simp [fileOf], rfl, by simp⟩
    | cons t ts =>
      rw [List.map_cons, filterLines, if_neg (by simp), applyRules, if_pos hfmt] at h
      cases h

example : ∃ rs, getRules (bytes ";; c\n[a] => [bb]\n") = .ok rs ∧ rs.copyNoHit = true ∧
    rfilter (bytes ";; c\n[a] => [bb]\n") (fileOf [bytes "data", [], bytes "a"]) = .ok (fileOf [bytes "dbbtbb", [], bytes "bb"], [1, 1, 1]) :=
  ⟨_, rfl, rfl, by decide +kernel⟩

example : ∀ t ∈ [bytes "data", [], bytes "a"], ShortLine 99998 t := by
  unfold ShortLine
  decide +kernel

/-- With COPY_NO_HIT off the newlines are lost. -/
theorem lines_lost_witness : rfilter (bytes ";; c\n* copy_no_hit = 'F'\n[a] => [b]\n") (fileOf [bytes "a", bytes "a"]) =
    .ok (bytes "bb", [1, 1]) := by decide +kernel

/-! ## C92: the notation of rules -/

/-- A line in the notation of rules is read as the rule it writes down. -/
theorem notation_partial (line trail : List Nat) (r : SRule) (h : RuleText line r) (ht : ∀ b ∈ trail, Blank b) :
    ∃ q, parseRule (line ++ trail) = .ok q ∧ q.spec = r ∧ q.sinl = r.source.length :=
  ⟨_, parseRule_text h trail ht, rfl, rfl⟩

/-- `[the] => "THE" / [ ] __ [ ]` -/
theorem notation_example : RuleText (bytes "[the] => \"THE\" / [ ] __ [ ]") ⟨bytes "the", bytes "THE", [32], [32]⟩ := by
  have h := RuleText.context ⟨bytes "the", bytes "THE", [32], [32]⟩ [] (bytes "[the]") [32] [32] (bytes "\"THE\"") [32] [32] (bytes "[ ]") [32]
    [32] (bytes "[ ]") 1 (by unfold Blank; decide +kernel) (Part.brackets (bytes "the")) (Part.quotes (bytes "THE")) (Part.brackets [32])
    (Part.brackets [32]) (by decide +kernel) (by decide +kernel) (by decide +kernel)
    (by
      have hno : ∀ l : List Nat, 61 ∉ l → ¬ Contains [61, 62] l := by
        rintro l h ⟨a, b, e⟩
        exact h (by rw [e]; simp)
      exact hno _ (by decide +kernel))
    (by decide +kernel) (by decide +kernel) (.inr ⟨bytes "[ ", bytes "[ ]", by decide +kernel, by decide +kernel, by decide +kernel⟩)
  exact h

example : parseRule (bytes "[the] => \"THE\" / [ ] __ [ ]") = .ok ⟨[32], bytes "the", 3, [32], bytes "THE"⟩ := by decide +kernel

/-- A slash in a source without brackets is taken for the mark of the context: the target is lost. -/
theorem slash_in_source_witness : parseRule (bytes " /SLASH => SLASH") = .ok ⟨[], bytes "/SLASH", 6, [], []⟩ := by decide +kernel

/-- A slash in the target of a rule without context is taken for the mark of the context. -/
theorem slash_in_target_witness : ∃ q, parseRule (bytes "[a] => [b/c]") = .ok q ∧ q.sout ≠ bytes "b/c" := by
  refine ⟨_, rfl, ?_⟩
  decide +kernel

/-- Without white space after the arrow the target is lost. -/
theorem arrow_without_blank_witness : ∃ q, parseRule (bytes "[a]=>[b]") = .ok q ∧ q.sout = [] := by
  refine ⟨_, rfl, ?_⟩
  decide +kernel

/-- A line that begins with a slash that is taken for the mark of the context: the byte before the line is read. -/
theorem slash_first_witness : parseRule (bytes "/a => b") = .oob := by decide +kernel

/-! ## C93: rule files -/

theorem rewritesAll_unique {cs keep : Bool} {rules : List SRule} {ts os os' : List (List Nat)} {used used' : List Nat}
    (h : RewritesAll cs keep rules ts os used) (h' : RewritesAll cs keep rules ts os' used') : os = os' ∧ used = used' := by
  induction h generalizing os' used' with
  | nil =>
    cases h'
    exact ⟨rfl, rfl⟩
  | cons t ts o os u more h1 _ ih =>
    cases h' with
    | cons _ _ o' os'' u' more' g1 g2 =>
      obtain ⟨rfl, rfl⟩ := rewrites_unique h1 g1
      obtain ⟨rfl, rfl⟩ := ih g2
      exact ⟨rfl, rfl⟩

/-- A rule file is read line by line: comments and blank lines say nothing, a rule adds the rule, and the last setting
counts. -/
theorem read_rule_file_partial (l0 flag : List Nat) (ls : List (List Nat)) (es : List Effect) (hfl : FlagOf l0 flag)
    (hshort : ∀ l ∈ l0 :: ls, ShortLine 130 l) (h : FileLines flag ls es) (hmax : MaxFirst es) (hne : rulesOf es ≠ [])
    (hroom : (rulesOf es).length < maxOf 400 es) :
    ∃ rs : RuleSet, getRules (fileOf (l0 :: ls)) = .ok rs ∧ rs.spec = rulesOf es ∧ rs.caseSensitive = caseOf true es ∧
      rs.copyNoHit = keepOf true es := by
  obtain ⟨rs, h1, _, _, h2⟩ := getRules_file hfl hshort h hmax hne hroom
  exact ⟨rs, h1, h2⟩

/-- The whole program: what the lines of a rule file make of the lines of the input. -/
theorem filter_with_rule_file_partial (l0 flag : List Nat) (ls : List (List Nat)) (es : List Effect) (hfl : FlagOf l0 flag)
    (hshort : ∀ l ∈ l0 :: ls, ShortLine 130 l) (h : FileLines flag ls es) (hmax : MaxFirst es) (hne : rulesOf es ≠ [])
    (hroom : (rulesOf es).length < maxOf 400 es) (texts : List (List Nat)) (hs : ∀ t ∈ texts, ShortLine 99998 t) (out used : List Nat) :
    rfilter (fileOf (l0 :: ls)) (fileOf texts) = .ok (out, used) ↔
      ∃ os, out = os.flatten ∧ RewritesAll (caseOf true es) (keepOf true es) (rulesOf es) (texts.map (· ++ [10])) os used ∧
        (∀ o ∈ os, o.length < 100000) ∧ ∀ t ∈ texts, ¬ Hazard (caseOf true es) (rulesOf es) (t ++ [10]) := by
  obtain ⟨rs, h1, hb, hfmt, h2, h3, h4⟩ := getRules_file hfl hshort h hmax hne hroom
  obtain ⟨f1, f2⟩ := text_facts texts 99998 hs
  rw [filter_texts _ texts hs rs h1, ← h2, ← h3, ← h4]
  rcases filterLines_spec rs hb hfmt _ f1 f2 with ⟨os, u, e, g1, g2, g3⟩ | ⟨e, t, ht, hh⟩
  · rw [e]
    constructor
    · intro hh
      cases hh
      exact ⟨os, rfl, g1, g2, fun t ht => g3 _ (List.mem_map.2 ⟨t, ht, rfl⟩)⟩
    · rintro ⟨os', rfl, k1, k2, k3⟩
      obtain ⟨rfl, rfl⟩ := rewritesAll_unique k1 g1
      rfl
  · rw [e]
    constructor
    · intro hh
      cases hh
    · rintro ⟨os', rfl, k1, k2, k3⟩
      exfalso
      have hin : ∀ {ts os : List (List Nat)} {us : List Nat}, RewritesAll rs.caseSensitive rs.copyNoHit rs.spec ts os us →
          (∀ o ∈ os, o.length < 100000) → ∀ t ∈ ts, ∃ o u, Rewrites rs.caseSensitive rs.copyNoHit rs.spec [] t o u ∧ o.length < 100000 := by
        intro ts os us hra
        induction hra with
        | nil => simp
        | cons t ts o os u more q1 _ ih =>
          intro hl x hx
          rcases List.mem_cons.1 hx with hx | hx
          · rw [hx]
            exact ⟨o, u, q1, hl o (List.mem_cons_self ..)⟩
          · exact ih (fun o ho => hl o (List.mem_cons_of_mem _ ho)) x hx
      rcases hh with hh | ⟨o, u, q1, q2⟩
      · obtain ⟨x, hx, rfl⟩ := List.mem_map.1 ht
        exact k3 x hx hh
      · obtain ⟨o', u', p1, p2⟩ := hin k1 k2 t ht
        obtain ⟨rfl, rfl⟩ := rewrites_unique q1 p1
        omega

/-- A file with the flag `;;`, a comment, a setting, and a rule with a remark. -/
example : ∃ es, FlagOf (bytes ";; rules") (bytes ";;") ∧
    FileLines (bytes ";;") [bytes ";; hello", bytes "* case_sensitive = 'no'", [], bytes "a => b  ;; why"] es ∧ MaxFirst es ∧
    rulesOf es = [⟨bytes "a", bytes "b", [], []⟩] ∧ (rulesOf es).length < maxOf 400 es ∧ caseOf true es = false := by
  have hno : ∀ (k : Nat) (w l : List Nat), k ∉ l → ¬ Contains (k :: w) l := by
    rintro k w l h ⟨a, b, e⟩
    exact h (by rw [e]; simp)
  refine ⟨[.nothing, .caseMatters false, .nothing, .rule ⟨bytes "a", bytes "b", [], []⟩], ?_, ?_, ?_, rfl, ?_, rfl⟩
  · refine ⟨bytes " rules", by decide +kernel, by decide +kernel, ?_⟩
    intro b hb
    have : b = 32 := by
      have e : (bytes " rules").head? = some 32 := by decide +kernel
      rw [e] at hb
      exact (Option.some.inj hb).symm
    omega
  · refine .cons _ _ _ _ (.comment (bytes " hello") (by decide +kernel)) (.cons _ _ _ _ ?_ (.cons _ _ _ _ (.blank [] (by simp)) (.cons _ _ _ _ ?_ .nil)))
    · refine .caseMatters _ (bytes "no") false ⟨bytes " case_sensitive = ", 39, 39, [], ?_, .inr rfl, .inr rfl, ?_, ?_, ?_, ?_, ?_, ?_⟩ ?_ ?_
      · decide +kernel
      · decide +kernel
      · decide +kernel
      · decide +kernel
      · decide +kernel
      · exact ⟨[32], [32, 61, 32], by decide +kernel⟩
      · intro k hk
        simp only [List.mem_cons, List.not_mem_nil, or_false] at hk
        rcases hk with rfl | rfl | rfl
        · exact hno _ _ _ (by decide +kernel)
        · exact hno _ _ _ (by decide +kernel)
        · intro hc
          have : has kwCopy (upperText (bytes "* case_sensitive = 'no'")) = true := (has_iff _ _ (by decide)).2 hc
          revert this
          decide +kernel
      · rw [← atobool_iff]
        decide +kernel
      · right
        exact hno _ _ _ (by decide +kernel)
    · have hr : RuleText (bytes "a => b") ⟨bytes "a", bytes "b", [], []⟩ := by
        refine RuleText.plain ⟨bytes "a", bytes "b", [], []⟩ [] (bytes "a") [32] [32] (bytes "b") (by unfold Blank; decide +kernel) ?_ ?_ (by decide +kernel)
          (hno _ _ _ (by decide +kernel)) rfl rfl (.inl (by decide +kernel))
        · refine .bare _ (by decide +kernel) ?_ ?_ (by decide +kernel) (by decide +kernel)
          · intro b hb
            have e : some 97 = some b := hb
            cases e
            simp [Blank]
          · intro b hb
            have e : some 97 = some b := hb
            cases e
            simp [Blank]
        · refine .bare _ (by decide +kernel) ?_ ?_ (by decide +kernel) (by decide +kernel)
          · intro b hb
            have e : some 98 = some b := hb
            cases e
            simp [Blank]
          · intro b hb
            have e : some 98 = some b := hb
            cases e
            simp [Blank]
      have hl : FileLine (bytes ";;") (bytes "a => b" ++ (bytes "  " ++ (bytes ";;" ++ bytes " why"))) (.rule ⟨bytes "a", bytes "b", [], []⟩) := by
        refine .remark (bytes "a => b") (bytes "  ") (bytes " why") _ hr ?_ (by decide +kernel) (by decide +kernel) ?_
        · unfold Blank
          decide +kernel
        · intro x y e
          apply Nat.le_of_not_lt
          intro hlt
          have h8 : (bytes "a => b" ++ bytes "  ").length = 8 := by decide +kernel
          have hx : ∀ i, i < 8 → (bytes "a => b  ;; why")[i]? ≠ some 59 := by decide +kernel
          apply hx x.length (by omega)
          have e' : bytes "a => b  ;; why" = x ++ (bytes ";;" ++ y) := by
            rw [← e]
            decide +kernel
          rw [e']
          simp [bytes]
      exact hl
  · unfold MaxFirst
    simp
  · decide +kernel

example : rfilter (fileOf [bytes ";; rules", bytes ";; hello", bytes "* case_sensitive = 'no'", [], bytes "a => b  ;; why"]) (bytes "A cat\n") =
    .ok (bytes "b cbt\n", [1, 1]) := by decide +kernel

/-- The table of rules has an entry too few: with as many rules as announced the last one is stored behind its end. -/
theorem rule_table_witness : rfilter (bytes ";;\n* max_nrules = '2'\n[a] => [b]\n[b] => [c]\n") (bytes "x\n") = .oob := by decide +kernel

/-- A maximum after the first rule does not make the table larger. -/
theorem late_maximum_witness :
    rfilter (bytes ";;\n* max_nrules = '2'\n[a] => [b]\n* max_nrules = '9'\n[b] => [c]\n") (bytes "x\n") = .oob := by decide +kernel

/-- A rule in the first line is lost (and its first word starts comments). -/
theorem first_line_witness : rfilter (bytes "[a] => [b]\n[c] => [d]\n") (bytes "ac\n") = .ok (bytes "ad\n", [1]) := by decide +kernel

/-- A comment with a blank before it makes the program fail. -/
theorem indented_comment_witness : rfilter (bytes ";;\n[a] => [b]\n ;; note\n") (bytes "a\n") = .err 3 := by decide +kernel

/-- A file without rules: the index is written through a pointer that was never set. -/
theorem no_rules_witness : rfilter (bytes ";; no rules\n") (bytes "a\n") = .oob := by decide +kernel

/-! ## C94: case -/

/-- If case does not matter, texts that differ only in the case of letters are changed by the same rules at the same places,
and the results differ only in the case of letters. -/
theorem case_insensitive (cap : Nat) (hcap : 0 < cap) (rs : RuleSet) (hb : rs.Built) (hfmt : rs.format = nist1) (hcs : rs.caseSensitive = false)
    (text text' : List Nat) (h0 : 0 ∉ text) (h0' : 0 ∉ text') (hal : Alike false text text') (out used out' used' : List Nat)
    (h : applyRules cap rs text = .ok (out, used)) (h' : applyRules cap rs text' = .ok (out', used')) :
    used' = used ∧ Alike false out out' := by
  have h1 := ((apply_iff cap hcap rs hb hfmt text h0 out used).1 h).1
  have h2 := ((apply_iff cap hcap rs hb hfmt text' h0' out' used').1 h').1
  rw [hcs] at h1 h2
  obtain ⟨o, g1, g2⟩ := rewrites_alike h1 .nil hal
  obtain ⟨rfl, rfl⟩ := rewrites_unique g1 h2
  exact ⟨rfl, g2⟩

/-- If case matters, a rule is used only on the very bytes of its source and contexts. -/
theorem case_sensitive (r : SRule) (before after : List Nat) :
    Applies true r before after ↔ r.source ≠ [] ∧ (∃ front, before = front ++ r.left) ∧ ∃ rest, after = r.source ++ (r.right ++ rest) := by
  have heq : ∀ {s t : List Nat}, Alike true s t ↔ s = t := by
    intro s t
    rw [alike_iff]
    constructor
    · intro h
      have : ∀ l : List Nat, l.map (foldOf true) = l := by
        intro l
        have : foldOf true = id := by
          funext x
          rfl
        rw [this, List.map_id]
      rwa [this, this] at h
    · intro h; rw [h]
  constructor
  · rintro ⟨h0, f, l, s, rt, rest, e1, e2, h1, h2, h3⟩
    rw [heq] at h1 h2 h3
    subst h1 h2 h3
    exact ⟨h0, ⟨f, e1⟩, ⟨rest, e2⟩⟩
  · rintro ⟨h0, ⟨f, e1⟩, ⟨rest, e2⟩⟩
    exact ⟨h0, f, r.left, r.source, r.right, rest, e1, e2, heq.2 rfl, heq.2 rfl, heq.2 rfl⟩

example : applyRules 100 (demo true false [⟨bytes "uh-huh", bytes "YES", [], []⟩]) (bytes "Uh-Huh sure") = .ok (bytes "YES sure", [1]) ∧
    applyRules 100 (demo true false [⟨bytes "uh-huh", bytes "YES", [], []⟩]) (bytes "UH-HUH Sure") = .ok (bytes "YES Sure", [1]) ∧
    applyRules 100 (demo true true [⟨bytes "uh-huh", bytes "YES", [], []⟩]) (bytes "UH-HUH Sure") = .ok (bytes "UH-HUH Sure", []) := by
  decide +kernel

/-! ## C95: memory -/

/-- Memory outside of the buffers is used exactly when a source stands closer to the start of the text than its left context
is long, or the result does not fit. -/
theorem memory_iff (cap : Nat) (hcap : 0 < cap) (rs : RuleSet) (hb : rs.Built) (hfmt : rs.format = nist1) (text : List Nat) (h0 : 0 ∉ text) :
    applyRules cap rs text = .oob ↔ Hazard rs.caseSensitive rs.spec text ∨
      ∃ out used, Rewrites rs.caseSensitive rs.copyNoHit rs.spec [] text out used ∧ cap ≤ out.length := by
  have h0' : ∀ b ∈ text, b ≠ 0 := fun b hb e => h0 (e ▸ hb)
  have hspec := applyLoop_spec cap rs hb text h0' (text.length + 1) 0 [] [] (by omega) (by omega) (by simpa using hcap)
  simp only [List.take_zero, List.drop_zero, List.nil_append] at hspec
  rw [applyRules, if_neg (fun h => h hfmt), hazard_iff]
  rcases hspec with ⟨o, u, e, h1, h2, h3⟩ | ⟨e, h⟩
  · rw [e]
    constructor
    · intro h; cases h
    · rintro (h | ⟨o', u', g1, g2⟩)
      · exact absurd h h3
      · obtain ⟨rfl, rfl⟩ := rewrites_unique g1 h1
        omega
  · rw [e]
    exact ⟨fun _ => h, fun _ => rfl⟩

/-- A text that begins with a blank is safe for rules whose left contexts are at most a byte and whose sources do not begin
with a blank (what csrfilt.sh relies on). -/
theorem leading_blank_safe (cs : Bool) (rules : List SRule) (text : List Nat)
    (hr : ∀ r ∈ rules, r.left.length ≤ 1 ∧ r.source.head? ≠ some 32) : ¬ Hazard cs rules (32 :: text) := by
  rintro ⟨b, a, i, r, hv, hne, hri, hsrc, ⟨s, rest, e, hal⟩, hlen, _⟩
  obtain ⟨h1, h2⟩ := hr r (List.mem_of_getElem? hri)
  have hb : b = [] := List.length_eq_zero_iff.1 (by omega)
  have hsplit : ∀ {b a : List Nat}, Visits cs rules (32 :: text) b a → 32 :: text = b ++ a := by
    intro b a hv
    induction hv with
    | start => rfl
    | replace b s rest i r _ _ _ ih => rw [ih]; simp
    | pass b c rest _ _ ih => rw [ih]; simp
  have ea := hsplit hv
  rw [hb, e, List.nil_append] at ea
  generalize hq : r.source = q at hal hsrc h2
  cases hal with
  | nil => exact hsrc rfl
  | cons x y s' t' hxy _ =>
    rw [List.cons_append, List.cons.injEq] at ea
    apply h2
    have hx : x = 32 := ea.1.symm
    rw [hx] at hxy
    split at hxy
    · rw [← hxy]; rfl
    · rcases hxy with h | h | h
      · rw [← h]; rfl
      · omega
      · omega

example : applyRules 100 (demo true true [⟨bytes "the", bytes "THE", [32], [32]⟩]) (bytes " the cat") = .ok (bytes " THE cat", [1]) := by decide +kernel

/-- A line that begins with the source of a rule with a left context: the bytes before the buffer are read. -/
theorem left_context_witness : rfilter (bytes ";;\n[the] => [THE] / [ ] __ [ ]\n") (bytes "the cat\n") = .oob := by decide +kernel

/-- A NUL at the start of a line: the byte before the buffer is read. -/
theorem nul_witness : rfilter (bytes ";;\n[a] => [b]\n") [97, 10, 0, 10] = .oob := by decide +kernel

end Verif.Rfilter
