import Verif.ScliteArgs.Spec
/-!
# Lemmas on the command line of sclite
-/
set_option autoImplicit false
namespace Verif.ScliteArgs

/-- The rest begins with an option or is empty. -/
def Fresh (rest : List Str) : Prop := ∀ a ∈ rest.head?, dash a = true

theorem plain_append (ws rest : List Str) (h : ∀ w ∈ ws, Word w) (hr : Fresh rest) :
    plain (ws ++ rest) = ws ∧ fromDash (ws ++ rest) = rest := by
  unfold plain fromDash
  induction ws with
  | nil =>
    cases rest with
    | nil => exact ⟨rfl, rfl⟩
    | cons a r =>
      have : dash a = true := hr a rfl
      simp [this]
  | cons w ws ih =>
    have hw : dash w = false := h w List.mem_cons_self
    obtain ⟨i1, i2⟩ := ih fun x hx => h x (List.mem_cons_of_mem _ hx)
    simp [hw, i1, i2]

theorem fresh_typedAll (os : List Opt) : Fresh (typedAll os) := by
  cases os with
  | nil => intro a h; cases h
  | cons o os =>
    intro a h
    have : a = ['-', o.letter] := by
      have h : some ['-', o.letter] = some a := h
      cases h; rfl
    rw [this]
    rfl

/-- One option is read as it is typed. -/
theorem step_typed (env : Env) (s : Args) (o : Opt) (h : o.Ok env) (rest : List Str) (hr : Fresh rest)
    (hh : o.isHyp = true → s.hyps.length < 40) :
    step env s ['-', o.letter] (o.values ++ rest) = .ok (o.apply env s, rest) := by
  have hd : ∀ a r, rest = a :: r → dash a = true := fun a r e => hr a (by rw [e]; rfl)
  cases o with
  | ref f fmt =>
    obtain ⟨h1, h2⟩ := h
    have h1 : dash f = false := h1
    cases fmt with
    | none =>
      cases rest with
      | nil => simp [step, Opt.letter, Opt.values, Opt.apply, h1]
      | cons a r => simp [step, Opt.letter, Opt.values, Opt.apply, h1, hd a r rfl]
    | some b =>
      have hb : dash b = false := h2 b rfl
      simp [step, Opt.letter, Opt.values, Opt.apply, h1, hb]
  | hyp f x =>
    obtain ⟨h1, h2⟩ := h
    have h1 : dash f = false := h1
    have hlen : ¬ 40 ≤ s.hyps.length := by have := hh rfl; omega
    cases x with
    | none =>
      cases rest with
      | nil => simp [step, Opt.letter, Opt.values, Opt.apply, h1, hlen]
      | cons a r => simp [step, Opt.letter, Opt.values, Opt.apply, h1, hlen, hd a r rfl]
    | some b =>
      obtain ⟨b, t⟩ := b
      obtain ⟨h3, h4⟩ := h2 _ rfl
      have h3d : dash b = false := h3
      cases t with
      | none =>
        cases rest with
        | nil => simp [step, Opt.letter, Opt.values, Opt.apply, h1, hlen, h3d]
        | cons a r => simp [step, Opt.letter, Opt.values, Opt.apply, h1, hlen, h3d, hd a r rfl]
      | some t =>
        have h5 : dash t = false := h4 t rfl
        simp [step, Opt.letter, Opt.values, Opt.apply, h1, hlen, h3d, h5]
  | enc n l =>
    obtain ⟨h1, h2, h3⟩ := h
    have h1 : dash n = false := h1
    obtain ⟨x, hx⟩ := Option.isSome_iff_exists.1 h2
    cases l with
    | none =>
      cases rest with
      | nil => simp [step, Opt.letter, Opt.values, Opt.apply, h1, hx]
      | cons a r => simp [step, Opt.letter, Opt.values, Opt.apply, h1, hx, hd a r rfl]
    | some b =>
      obtain ⟨h4, h5⟩ := h3 b rfl
      have h4 : dash b = false := h4
      obtain ⟨y, hy⟩ := Option.isSome_iff_exists.1 h5
      simp [step, Opt.letter, Opt.values, Opt.apply, h1, hx, h4, hy]
  | chars a b =>
    have hw : ∀ w ∈ (Opt.chars a b).values, Word w := by cases a <;> cases b <;> decide
    obtain ⟨p1, p2⟩ := plain_append _ rest hw hr
    have : step env s ['-', (Opt.chars a b).letter] ((Opt.chars a b).values ++ rest) =
        (match charWords { s with chars := true, noAscii := false, delHyphen := false } (plain ((Opt.chars a b).values ++ rest)) with
        | none => .error .usage
        | some s' => .ok (s', fromDash ((Opt.chars a b).values ++ rest))) := rfl
    rw [this, p1, p2]
    cases a <;> cases b <;> rfl
  | reduce a b =>
    have hw : ∀ w ∈ (Opt.reduce a b).values, Word w := by cases a <;> cases b <;> decide
    obtain ⟨p1, p2⟩ := plain_append _ rest hw hr
    have : step env s ['-', (Opt.reduce a b).letter] ((Opt.reduce a b).values ++ rest) =
        (match redWords { s with redRef := false, redHyp := false } (plain ((Opt.reduce a b).values ++ rest)) with
        | none => .error .usage
        | some s' => .ok (if s'.redRef = false ∧ s'.redHyp = false then { s' with redRef := true } else s',
            fromDash ((Opt.reduce a b).values ++ rest))) := rfl
    rw [this, p1, p2]
    cases a <;> cases b <;> rfl
  | infer a l t =>
    obtain ⟨h1, h2⟩ := h
    have h1 : dash l = false := h1
    cases t with
    | false =>
      cases rest with
      | nil => cases a <;> simp [step, Opt.letter, Opt.values, Opt.apply, h1, h2]
      | cons x r => cases a <;> simp [step, Opt.letter, Opt.values, Opt.apply, h1, h2, hd x r rfl]
    | true =>
      have hx : dash ['A', 'S', 'C', 'I', 'I', 'T', 'O', 'O'] = false := rfl
      cases a <;> simp [step, Opt.letter, Opt.values, Opt.apply, h1, h2, hx]
  | reports ws =>
    obtain ⟨h1, h2⟩ := h
    obtain ⟨p1, p2⟩ := plain_append ws rest h2 hr
    have : step env s ['-', (Opt.reports ws).letter] ((Opt.reports ws).values ++ rest) =
        (if ws ++ rest = [] then .error .usage
         else .ok ({ s with outputs := (plain (ws ++ rest)).foldl repWord s.outputs, outset := true }, fromDash (ws ++ rest))) := rfl
    rw [this, if_neg (by simp [h1]), p1, p2]
    rfl
  | confs ws =>
    obtain ⟨h1, h2⟩ := h
    obtain ⟨p1, p2⟩ := plain_append ws rest h2 hr
    have : step env s ['-', (Opt.confs ws).letter] ((Opt.confs ws).values ++ rest) =
        (if ws ++ rest = [] then .error .usage
         else .ok ({ s with conf := (plain (ws ++ rest)).foldl confWord s.conf, outset := true }, fromDash (ws ++ rest))) := rfl
    rw [this, if_neg (by simp [h1]), p1, p2]
    rfl
  | diff =>
    have h : env.diff = true := h
    have : step env s ['-', Opt.diff.letter] (Opt.diff.values ++ rest) =
      (if env.diff then .ok ({ s with useDiff := true }, rest) else .error .usage) := rfl
    rw [this, if_pos h]
    rfl
  | lm v =>
    have h : env.slm = true := h
    have : step env s ['-', (Opt.lm v).letter] ((Opt.lm v).values ++ rest) =
      (if env.slm then .ok ({ s with lm := some v }, rest) else .error .usage) := rfl
    rw [this, if_pos h]
    rfl
  | _ => rfl

theorem apply_hyps (env : Env) (o : Opt) (s : Args) : (o.apply env s).hyps.length =
    s.hyps.length + (if o.isHyp = true then 1 else 0) := by
  cases o <;> simp [Opt.apply, Opt.isHyp]

theorem typed_length (os : List Opt) : os.length ≤ (typedAll os).length := by
  induction os with
  | nil => exact Nat.le_refl _
  | cons o os ih =>
    have e : typedAll (o :: os) = o.typed ++ typedAll os := rfl
    rw [e, List.length_append]
    have : 1 ≤ o.typed.length := by unfold Opt.typed; simp
    simp only [List.length_cons]
    omega

/-- The command line is read as it is typed. -/
theorem parse_typed (env : Env) (os : List Opt) (h : ∀ o ∈ os, o.Ok env) : ∀ (n : Nat) (s : Args), os.length ≤ n →
    s.hyps.length + hypCount os ≤ 40 → parse env n s (typedAll os) = .ok (os.foldl (fun s o => o.apply env s) s) := by
  induction os with
  | nil => intro n s _ _; cases n <;> rfl
  | cons o os ih =>
    intro n s hn hh
    obtain ⟨m, rfl⟩ : ∃ m, n = m + 1 := ⟨n - 1, by simp only [List.length_cons] at hn; omega⟩
    have e : typedAll (o :: os) = ['-', o.letter] :: (o.values ++ typedAll os) := rfl
    have hcnt : hypCount (o :: os) = hypCount os + (if o.isHyp = true then 1 else 0) := by
      unfold hypCount
      rw [List.countP_cons]
    rw [hcnt] at hh
    rw [e]
    show (if dash ['-', o.letter] then _ else _) = _
    rw [if_pos (show dash ['-', o.letter] = true from rfl), step_typed env s o (h o List.mem_cons_self) (typedAll os) (fresh_typedAll os) (by
      intro hx
      rw [if_pos hx] at hh
      omega)]
    show parse env m (o.apply env s) (typedAll os) = _
    rw [ih (fun x hx => h x (List.mem_cons_of_mem _ hx)) m (o.apply env s) (by simp only [List.length_cons] at hn; omega) (by
      rw [apply_hyps]; omega)]
    rfl

/-! ## Order -/

/-- Options with different letters can change places. -/
theorem apply_comm (env : Env) (a b : Opt) (h : a.letter ≠ b.letter) (s : Args) : a.apply env (b.apply env s) = b.apply env (a.apply env s) := by
  cases a <;> cases b <;> first | rfl | exact absurd rfl h

theorem foldl_front (env : Env) (o : Opt) (l : List Opt) (h : ∀ x ∈ l, x.letter ≠ o.letter) : ∀ (s : Args),
    l.foldl (fun s o => o.apply env s) (o.apply env s) = o.apply env (l.foldl (fun s o => o.apply env s) s) := by
  induction l with
  | nil => intro s; rfl
  | cons x l ih =>
    intro s
    rw [List.foldl_cons, apply_comm env x o (h x List.mem_cons_self), ih (fun y hy => h y (List.mem_cons_of_mem _ hy)), List.foldl_cons]

theorem split_first (o : Opt) : ∀ l : List Opt, (∃ t, l.filter (fun x => x.letter = o.letter) = o :: t) →
    ∃ a b, l = a ++ o :: b ∧ ∀ x ∈ a, x.letter ≠ o.letter := by
  intro l
  induction l with
  | nil => rintro ⟨t, h⟩; cases h
  | cons x l ih =>
    rintro ⟨t, h⟩
    by_cases hx : x.letter = o.letter
    · rw [List.filter_cons_of_pos (by simpa using hx)] at h
      injection h with h1 h2
      subst h1
      exact ⟨[], l, rfl, fun y hy => (by cases hy)⟩
    · rw [List.filter_cons_of_neg (by simpa using hx)] at h
      obtain ⟨a, b, rfl, h2⟩ := ih ⟨t, h⟩
      refine ⟨x :: a, b, rfl, ?_⟩
      intro y hy
      rcases List.mem_cons.1 hy with rfl | hy
      · exact hx
      · exact h2 y hy

/-- Only the order of options with the same letter counts. -/
theorem foldl_order (env : Env) (l : List Opt) : ∀ (m : List Opt), (∀ c : Char, l.filter (fun o => o.letter = c) = m.filter (fun o => o.letter = c)) →
    ∀ s : Args, l.foldl (fun s o => o.apply env s) s = m.foldl (fun s o => o.apply env s) s := by
  induction l with
  | nil =>
    intro m h s
    cases m with
    | nil => rfl
    | cons o m => have := h o.letter; rw [List.filter_cons_of_pos (by simp)] at this; cases this
  | cons o l ih =>
    intro m h s
    obtain ⟨a, b, rfl, ha⟩ := split_first o m ⟨l.filter (fun x => x.letter = o.letter), by
      rw [← h o.letter, List.filter_cons_of_pos (by simp)]⟩
    have hab : ∀ c : Char, l.filter (fun o => o.letter = c) = (a ++ b).filter (fun o => o.letter = c) := by
      intro c
      have hc := h c
      rw [List.filter_append, List.filter_cons, List.filter_cons] at hc
      rw [List.filter_append]
      by_cases ho : o.letter = c
      · have ha0 : a.filter (fun o => o.letter = c) = [] := by
          rw [List.filter_eq_nil_iff]
          intro x hx
          have := ha x hx
          rw [ho] at this
          simpa using this
        rw [ha0] at hc ⊢
        rw [if_pos (by simpa using ho), if_pos (by simpa using ho), List.nil_append] at hc
        injection hc with _ hc
      · rw [if_neg (by simpa using ho), if_neg (by simpa using ho)] at hc
        exact hc
    rw [List.foldl_append, List.foldl_cons, List.foldl_cons, ih (a ++ b) hab, List.foldl_append, foldl_front env o a ha]

/-! ## Reports -/

theorem mem_flip {α : Type} [DecidableEq α] (l : List α) (hl : l.Nodup) (x y : α) :
    (flip l x).Nodup ∧ (y ∈ flip l x ↔ if y = x then x ∉ l else y ∈ l) := by
  unfold flip
  by_cases hx : x ∈ l
  · rw [if_pos hx]
    refine ⟨hl.erase x, ?_⟩
    rw [hl.mem_erase_iff]
    by_cases hy : y = x
    · simp [hy, hx]
    · simp [hy]
  · rw [if_neg hx]
    refine ⟨?_, ?_⟩
    · rw [List.nodup_append]
      refine ⟨hl, by simp, ?_⟩
      intro a ha b hb
      rw [List.mem_singleton.1 hb]
      intro e
      exact hx (e ▸ ha)
    · by_cases hy : y = x
      · simp [hy, hx]
      · simp [hy]

/-- What a word does to the set of reports. -/
theorem repWord_eq (l : List Rep) (w : Str) : repWord l w = if w = "none".toList then [] else
    if w = "all".toList then flip (flip (flip l .pra) .sum) .rsum else (covers w).foldl flip l := by
  by_cases h0 : w = "none".toList
  · subst h0; rfl
  by_cases h1 : w = "all".toList
  · subst h1; rfl
  by_cases h2 : w = "sum".toList
  · subst h2; rfl
  by_cases h3 : w = "wws".toList
  · subst h3; rfl
  by_cases h4 : w = "rsum".toList
  · subst h4; rfl
  by_cases h5 : w = "pralign".toList
  · subst h5; rfl
  by_cases h6 : w = "pra".toList
  · subst h6; rfl
  by_cases h7 : w = "prf".toList
  · subst h7; rfl
  by_cases h8 : w = "lur".toList
  · subst h8; rfl
  by_cases h9 : w = "stdout".toList
  · subst h9; rfl
  by_cases h10 : w = "sgml".toList
  · subst h10; rfl
  by_cases h11 : w = "nl.sgml".toList
  · subst h11; rfl
  by_cases h12 : w = "snt".toList
  · subst h12; rfl
  by_cases h13 : w = "spk".toList
  · subst h13; rfl
  by_cases h14 : w = "dtl".toList
  · subst h14; rfl
  simp only [repWord, covers, h0, h1, h2, h3, h4, h5, h6, h7, h8, h9, h10, h11, h12, h13, h14, if_false, or_self]
  rfl

theorem repWord_spec (l : List Rep) (hl : l.Nodup) (w : Str) (hw : w ≠ "none".toList) (r : Rep) :
    (repWord l w).Nodup ∧ (r ∈ repWord l w ↔ (r ∈ l ↔ (covers w).count r % 2 = 0)) := by
  rw [repWord_eq, if_neg hw]
  split
  · rename_i h
    have hc : covers w = [.sum, .rsum, .pra] := by rw [h]; decide
    obtain ⟨n1, _⟩ := mem_flip l hl .pra r
    obtain ⟨n2, _⟩ := mem_flip _ n1 .sum r
    obtain ⟨n3, m3⟩ := mem_flip _ n2 .rsum r
    refine ⟨n3, ?_⟩
    rw [hc, m3, (mem_flip _ n1 .sum r).2, (mem_flip _ n1 .sum .rsum).2, (mem_flip l hl .pra r).2, (mem_flip l hl .pra .sum).2,
      (mem_flip l hl .pra .rsum).2]
    cases r <;> simp [List.count_cons, List.count_nil]
  · have hlen : covers w = [] ∨ ∃ x, covers w = [x] := by
      rename_i hall
      have hs : ∀ (c : Prop) [Decidable c] (x : Rep) (l : List Rep), (l = [] ∨ ∃ y, l = [y]) →
          ((if c then [x] else l) = [] ∨ ∃ y, (if c then [x] else l) = [y]) := by
        intro c _ x l h
        by_cases hc : c
        · rw [if_pos hc]; exact Or.inr ⟨x, rfl⟩
        · rw [if_neg hc]; exact h
      unfold covers
      rw [if_neg hall]
      repeat' apply hs
      exact Or.inl rfl
    rcases hlen with h | ⟨x, h⟩
    · rw [h]; exact ⟨hl, by simp⟩
    · rw [h]
      show (flip l x).Nodup ∧ (r ∈ flip l x ↔ _)
      obtain ⟨n1, m1⟩ := mem_flip l hl x r
      refine ⟨n1, ?_⟩
      rw [m1]
      by_cases hx : r = x
      · subst hx; simp
      · rw [if_neg hx, List.count_cons_of_ne (fun e => hx e.symm)]; simp

/-- The reports asked for by a list of words: those named an odd number of times after the last `none`. -/
theorem reports_spec (ws : List Str) (r : Rep) : (ws.foldl repWord []).Nodup ∧ (r ∈ ws.foldl repWord [] ↔ named r ws % 2 = 1) := by
  rw [show ws = ws.reverse.reverse by simp]
  generalize ws.reverse = vs
  induction vs with
  | nil => exact ⟨by simp, by simp [named]⟩
  | cons w vs ih =>
    rw [List.reverse_cons, List.foldl_append]
    show (repWord (vs.reverse.foldl repWord []) w).Nodup ∧ (r ∈ repWord (vs.reverse.foldl repWord []) w ↔ _)
    have hn : named r (vs.reverse ++ [w]) = if w = "none".toList then 0 else (covers w).count r + named r vs.reverse := by
      unfold named
      rw [List.reverse_append, List.reverse_reverse, List.reverse_singleton, List.singleton_append, List.takeWhile_cons]
      by_cases hw : w = "none".toList
      · simp [hw]
      · rw [if_pos (by simpa using hw), if_neg hw, List.flatMap_cons, List.count_append]
    by_cases hw : w = "none".toList
    · rw [hn, if_pos hw, hw]
      exact ⟨by simp [repWord], by simp [repWord]⟩
    · obtain ⟨h1, h2⟩ := repWord_spec _ ih.1 w hw r
      refine ⟨h1, ?_⟩
      rw [h2, ih.2, hn, if_neg hw]
      omega

theorem confWord_spec (l : List Conf) (hl : l.Nodup) (w : Str) (hw : w ≠ "none".toList) (c : Conf) :
    (confWord l w).Nodup ∧ (c ∈ confWord l w ↔ (c ∈ l ↔ (coversConf w).count c % 2 = 0)) := by
  have key : ∀ x : Conf, (flip l x).Nodup ∧ (c ∈ flip l x ↔ (c ∈ l ↔ [x].count c % 2 = 0)) := by
    intro x
    obtain ⟨n1, m1⟩ := mem_flip l hl x c
    refine ⟨n1, ?_⟩
    rw [m1]
    by_cases hx : c = x
    · subst hx; simp
    · rw [if_neg hx, List.count_cons_of_ne (fun e => hx e.symm)]; simp
  unfold confWord coversConf
  by_cases h1 : w = "det".toList
  · rw [if_pos h1, if_pos h1]; exact key _
  rw [if_neg h1, if_neg h1]
  by_cases h2 : w = "bhist".toList
  · rw [if_pos h2, if_pos h2]; exact key _
  rw [if_neg h2, if_neg h2]
  by_cases h3 : w = "sbhist".toList
  · rw [if_pos h3, if_pos h3]; exact key _
  rw [if_neg h3, if_neg h3]
  by_cases h4 : w = "hist".toList
  · rw [if_pos h4, if_pos h4]; exact key _
  rw [if_neg h4, if_neg h4, if_neg hw]
  exact ⟨hl, by simp⟩

theorem confs_spec (ws : List Str) (c : Conf) : (ws.foldl confWord []).Nodup ∧ (c ∈ ws.foldl confWord [] ↔ namedConf c ws % 2 = 1) := by
  rw [show ws = ws.reverse.reverse by simp]
  generalize ws.reverse = vs
  induction vs with
  | nil => exact ⟨by simp, by simp [namedConf]⟩
  | cons w vs ih =>
    rw [List.reverse_cons, List.foldl_append]
    show (confWord (vs.reverse.foldl confWord []) w).Nodup ∧ (c ∈ confWord (vs.reverse.foldl confWord []) w ↔ _)
    have hn : namedConf c (vs.reverse ++ [w]) = if w = "none".toList then 0 else (coversConf w).count c + namedConf c vs.reverse := by
      unfold namedConf
      rw [List.reverse_append, List.reverse_reverse, List.reverse_singleton, List.singleton_append, List.takeWhile_cons]
      by_cases hw : w = "none".toList
      · simp [hw]
      · rw [if_pos (by simpa using hw), if_neg hw, List.flatMap_cons, List.count_append]
    by_cases hw : w = "none".toList
    · rw [hn, if_pos hw, hw]
      exact ⟨by simp [confWord], by simp [confWord]⟩
    · obtain ⟨h1, h2⟩ := confWord_spec _ ih.1 w hw c
      refine ⟨h1, ?_⟩
      rw [h2, ih.2, hn, if_neg hw]
      omega

/-! ## Names -/

theorem find_name (w : Str) (l : List String) : (l.find? (sameName w)).map String.toList =
    if w.map Char.toLower ∈ l.map String.toList then some (w.map Char.toLower) else none := by
  induction l with
  | nil => rfl
  | cons x l ih =>
    rw [List.find?_cons]
    by_cases h : w.map Char.toLower = x.toList
    · have : sameName w x = true := by unfold sameName; rw [h]; simp
      rw [this]
      simp [h]
    · have : sameName w x = false := by unfold sameName; simpa using h
      rw [this]
      dsimp only
      rw [ih]
      simp only [List.map_cons, List.mem_cons, h, false_or]

/-! ## The checks -/

theorem checkFiles_ok (env : Env) (d a : Args) (h : checkFiles env d = .ok a) :
    HasInput d ∧ (d.hyps ≠ [] → FilesOk env d) ∧ a = if d.hyps = [] then d else { d with rfmt := some (refFmt d) } := by
  unfold checkFiles at h
  split at h
  · cases h
  rename_i hin
  cases hr : d.ref with
  | none =>
    cases hh : d.hyps with
    | cons x xs => rw [hr, hh] at h; cases h
    | nil =>
      rw [hr, hh] at h
      injection h with h
      subst h
      refine ⟨⟨by simp [hr, hh], ?_⟩, fun e => absurd rfl e, by simp⟩
      left
      cases hp : d.pipeIn with
      | true => rfl
      | false => exact absurd ⟨by simp [hp], by simp [hr]⟩ hin
  | some r =>
    cases hh : d.hyps with
    | nil => rw [hr, hh] at h; cases h
    | cons x xs =>
      rw [hr, hh] at h
      dsimp only at h
      by_cases c1 : env.file r = false
      · rw [if_pos c1] at h; cases h
      rw [if_neg c1] at h
      by_cases c2 : (x :: xs).any (fun x => !env.file x.file) = true
      · rw [if_pos c2] at h; cases h
      rw [if_neg c2] at h
      by_cases c3 : d.rfmt.getD "trn".toList ∉ rfmts
      · rw [if_pos c3] at h; cases h
      rw [if_neg c3] at h
      by_cases c4 : (x :: xs).any (fun x => decide (x.fmt ∉ hfmts)) = true
      · rw [if_pos c4] at h; cases h
      rw [if_neg c4] at h
      by_cases c5 : d.id = none ∧ (d.rfmt.getD "trn".toList = "trn".toList ∨ (x :: xs).any (fun x => decide (x.fmt = "trn".toList)) = true)
      · rw [if_pos c5] at h; cases h
      rw [if_neg c5] at h
      by_cases c6 : d.time = true ∧ (d.rfmt.getD "trn".toList ≠ "ctm".toList ∨ (x :: xs).any (fun x => decide (x.fmt ≠ "ctm".toList)) = true)
      · rw [if_pos c6] at h; cases h
      rw [if_neg c6] at h
      injection h with h
      subst h
      refine ⟨⟨by simp [hr, hh], Or.inr (by simp [hh])⟩, fun _ => ⟨?_, ?_, ?_, ?_, ?_, ?_⟩, by simp [refFmt]⟩
      · intro y hy; rw [hr] at hy; cases hy; simpa using c1
      · intro y hy
        rw [hh] at hy
        cases hf : env.file y.file with
        | true => rfl
        | false => exact absurd (List.any_eq_true.2 ⟨y, hy, by simp [hf]⟩) c2
      · exact Classical.not_not.1 c3
      · intro y hy
        rw [hh] at hy
        exact Classical.not_not.1 fun hf => c4 (List.any_eq_true.2 ⟨y, hy, decide_eq_true hf⟩)
      · intro hi
        refine ⟨fun e => c5 ⟨hi, Or.inl e⟩, fun y hy e => c5 ⟨hi, Or.inr (List.any_eq_true.2 ⟨y, hh ▸ hy, by simpa using e⟩)⟩⟩
      · intro ht
        refine ⟨Classical.not_not.1 fun e => c6 ⟨ht, Or.inl e⟩, fun y hy => Classical.not_not.1 fun e => c6 ⟨ht, Or.inr (List.any_eq_true.2 ⟨y, hh ▸ hy, by simpa using e⟩)⟩⟩

theorem checkRest_ok (d a b : Args) (ha : a = if d.hyps = [] then d else { d with rfmt := some (refFmt d) })
    (hx : d.hyps ≠ [] ∨ (d.redRef = false ∧ d.redHyp = false ∧ d.chars = false)) (h : checkRest a = .ok b) : OptionsOk d := by
  have hrf : ∀ x : Str, a.rfmt = some x → refFmt d = x := by
    intro x hxx
    by_cases hh : d.hyps = []
    · rw [if_pos hh] at ha; subst ha; simp [refFmt, hxx]
    · rw [if_neg hh] at ha; subst ha; exact Option.some.inj hxx
  have hsome : d.hyps ≠ [] → a.rfmt = some (refFmt d) := by
    intro hh; rw [if_neg hh] at ha; subst ha; rfl
  have e1 : a.id = d.id := by rw [ha]; split <;> rfl
  have e2 : a.redRef = d.redRef := by rw [ha]; split <;> rfl
  have e3 : a.redHyp = d.redHyp := by rw [ha]; split <;> rfl
  have e4 : a.hyps = d.hyps := by rw [ha]; split <;> rfl
  have e5 : a.useDiff = d.useDiff := by rw [ha]; split <;> rfl
  have e6 : a.chars = d.chars := by rw [ha]; split <;> rfl
  have e7 : a.wwl = d.wwl := by rw [ha]; split <;> rfl
  have e8 : a.lm = d.lm := by rw [ha]; split <;> rfl
  have e9 : a.time = d.time := by rw [ha]; split <;> rfl
  have e10 : a.algo1 = d.algo1 := by rw [ha]; split <;> rfl
  have e11 : a.algo2 = d.algo2 := by rw [ha]; split <;> rfl
  have e12 : a.outputs = d.outputs := by rw [ha]; split <;> rfl
  unfold checkRest at h
  rw [e1, e2, e3, e4, e5, e6, e7, e8, e9, e10, e11, e12] at h
  clear e1 e2 e3 e4 e5 e6 e7 e8 e9 e10 e11 e12
  split at h
  · cases h
  rename_i c1
  split at h
  · cases h
  rename_i c2
  split at h
  · cases h
  rename_i c3
  split at h
  · cases h
  rename_i c4
  split at h
  · cases h
  rename_i c5
  split at h
  · cases h
  rename_i c6
  split at h
  · cases h
  rename_i c7
  split at h
  · cases h
  rename_i c8
  split at h
  · cases h
  rename_i c9
  refine ⟨?_, ?_, ?_, ?_, ?_, ?_⟩
  · intro i hi
    rw [show d.id = some i from hi] at c1
    exact Classical.not_not.1 fun hn => c1 (decide_eq_true hn)
  · intro hr
    have hne : d.hyps ≠ [] := by
      rcases hx with hx | ⟨x1, x2, _⟩
      · exact hx
      · rcases hr with hr | hr
        · rw [x1] at hr; cases hr
        · rw [x2] at hr; cases hr
    refine ⟨?_, ?_, ?_⟩
    · exact Classical.not_not.1 fun e => c3 ⟨hr, Or.inl (by rw [hsome hne]; simpa using e)⟩
    · intro y hy
      exact Classical.not_not.1 fun e => c3 ⟨hr, Or.inr (Or.inl (List.any_eq_true.2 ⟨y, hy, by simpa using e⟩))⟩
    · cases hd : d.useDiff with
      | false => rfl
      | true => exact absurd ⟨hr, Or.inr (Or.inr hd)⟩ c3
  · intro hc
    have hne : d.hyps ≠ [] := by
      rcases hx with hx | ⟨_, _, x3⟩
      · exact hx
      · rw [x3] at hc; cases hc
    refine ⟨?_, fun e => c6 ⟨hc, by rw [hsome hne, e.1], e.2⟩⟩
    cases hd : d.useDiff with
    | false => rfl
    | true => exact absurd ⟨hc, hd⟩ c4
  · cases hw : d.wwl with
    | none => exact Or.inl rfl
    | some _ =>
      right
      cases hl : d.lm with
      | none => rfl
      | some _ => exact absurd ⟨by simp [hw], by simp [hl]⟩ c7
  · intro hw
    have hf : ∀ x : Bool, (x = true → d.time = true ∨ d.chars = true ∨ d.algo1 = true ∨ d.algo2 = true ∨ d.useDiff = true) → x = false := by
      intro x hxx
      cases x with
      | false => rfl
      | true => exact absurd ⟨hw, hxx rfl⟩ c8
    exact ⟨hf _ Or.inl, hf _ fun e => Or.inr (Or.inl e), hf _ fun e => Or.inr (Or.inr (Or.inl e)),
      hf _ fun e => Or.inr (Or.inr (Or.inr (Or.inl e))), hf _ fun e => Or.inr (Or.inr (Or.inr (Or.inr e)))⟩
  · intro ho
    cases hw : d.wwl with
    | some _ => exact Or.inl rfl
    | none =>
      right
      cases hl : d.lm with
      | some _ => rfl
      | none => exact absurd ⟨ho, hw, hl⟩ c9

theorem checks_accept (env : Env) (d : Args) (hx : d.hyps ≠ [] ∨ (d.redRef = false ∧ d.redHyp = false ∧ d.chars = false)) (h1 : HasInput d)
    (h2 : d.hyps ≠ [] → FilesOk env d) (h3 : OptionsOk d) : ∃ a b, checkFiles env d = .ok a ∧ checkRest a = .ok b := by
  have hf : checkFiles env d = .ok (if d.hyps = [] then d else { d with rfmt := some (refFmt d) }) := by
    unfold checkFiles
    cases hh : d.hyps with
    | nil =>
      have hr : d.ref = none := by
        cases hr : d.ref with
        | none => rfl
        | some r => exact absurd hh (h1.1.1 (by simp [hr]))
      have hp : d.pipeIn = true := by
        rcases h1.2 with h | h
        · exact h
        · exact absurd hh h
      rw [if_neg (by simp [hp]), hr]
      simp
    | cons x xs =>
      have hne : d.hyps ≠ [] := by rw [hh]; simp
      obtain ⟨r, hr⟩ := Option.isSome_iff_exists.1 (h1.1.2 hne)
      obtain ⟨f1, f2, f3, f4, f5, f6⟩ := h2 hne
      rw [hh] at f2 f4 f5 f6
      rw [if_neg (by simp [hr]), hr]
      dsimp only
      rw [if_neg (by rw [f1 r hr]; simp)]
      rw [if_neg (by
        intro e
        obtain ⟨y, hy, e⟩ := List.any_eq_true.1 e
        rw [f2 y hy] at e; cases e)]
      rw [if_neg (fun e => e f3)]
      rw [if_neg (by
        intro e
        obtain ⟨y, hy, e⟩ := List.any_eq_true.1 e
        exact of_decide_eq_true e (f4 y hy))]
      rw [if_neg (by
        rintro ⟨e0, e | e⟩
        · exact (f5 e0).1 e
        · obtain ⟨y, hy, e⟩ := List.any_eq_true.1 e
          exact (f5 e0).2 y hy (of_decide_eq_true e))]
      rw [if_neg (by
        rintro ⟨e0, e | e⟩
        · exact e (f6 e0).1
        · obtain ⟨y, hy, e⟩ := List.any_eq_true.1 e
          exact of_decide_eq_true e ((f6 e0).2 y hy))]
      rfl
  refine ⟨_, (if d.hyps = [] then d else { d with rfmt := some (refFmt d) }), hf, ?_⟩
  · generalize ha : (if d.hyps = [] then d else { d with rfmt := some (refFmt d) }) = a
    replace ha := ha.symm
    have hsome : d.hyps ≠ [] → a.rfmt = some (refFmt d) := by
      intro hh; rw [if_neg hh] at ha; subst ha; rfl
    have e1 : a.id = d.id := by rw [ha]; split <;> rfl
    have e2 : a.redRef = d.redRef := by rw [ha]; split <;> rfl
    have e3 : a.redHyp = d.redHyp := by rw [ha]; split <;> rfl
    have e4 : a.hyps = d.hyps := by rw [ha]; split <;> rfl
    have e5 : a.useDiff = d.useDiff := by rw [ha]; split <;> rfl
    have e6 : a.chars = d.chars := by rw [ha]; split <;> rfl
    have e7 : a.wwl = d.wwl := by rw [ha]; split <;> rfl
    have e8 : a.lm = d.lm := by rw [ha]; split <;> rfl
    have e9 : a.time = d.time := by rw [ha]; split <;> rfl
    have e10 : a.algo1 = d.algo1 := by rw [ha]; split <;> rfl
    have e11 : a.algo2 = d.algo2 := by rw [ha]; split <;> rfl
    have e12 : a.outputs = d.outputs := by rw [ha]; split <;> rfl
    obtain ⟨o1, o2, o3, o4, o5, o6⟩ := h3
    have hne : (d.redRef = true ∨ d.redHyp = true) ∨ d.chars = true → d.hyps ≠ [] := by
      intro h
      rcases hx with hx | ⟨x1, x2, x3⟩
      · exact hx
      · rcases h with (h | h) | h
        · rw [x1] at h; cases h
        · rw [x2] at h; cases h
        · rw [x3] at h; cases h
    unfold checkRest
    rw [e1, e2, e3, e4, e5, e6, e7, e8, e9, e10, e11, e12]
    rw [if_neg (by
      cases hid : d.id with
      | none => simp
      | some i => exact fun e => of_decide_eq_true e (o1 i hid))]
    rw [if_neg (by rintro ⟨e, e'⟩; rw [hsome (hne (Or.inl e))] at e'; cases e')]
    rw [if_neg (by
      rintro ⟨e, e'⟩
      obtain ⟨p1, p2, p3⟩ := o2 e
      rw [hsome (hne (Or.inl e)), p1] at e'
      rcases e' with e' | e' | e'
      · exact e' rfl
      · obtain ⟨y, hy, e'⟩ := List.any_eq_true.1 e'
        exact of_decide_eq_true e' (p2 y hy)
      · rw [p3] at e'; cases e')]
    rw [if_neg (by rintro ⟨e, e'⟩; rw [(o3 e).1] at e'; cases e')]
    rw [if_neg (by rintro ⟨e, e'⟩; rw [hsome (hne (Or.inr e))] at e'; cases e')]
    rw [if_neg (by
      rintro ⟨e, e', e''⟩
      rw [hsome (hne (Or.inr e))] at e'
      exact (o3 e).2 ⟨Option.some.inj e', e''⟩)]
    rw [if_neg (by
      rintro ⟨e, e'⟩
      rcases o4 with h | h
      · rw [h] at e; cases e
      · rw [h] at e'; cases e')]
    rw [if_neg (by
      rintro ⟨e, e'⟩
      obtain ⟨p1, p2, p3, p4, p5⟩ := o5 e
      rw [p1, p2, p3, p4, p5] at e'
      simp at e')]
    rw [if_neg (by
      rintro ⟨e, e1, e2⟩
      rcases o6 e with h | h
      · rw [e1] at h; cases h
      · rw [e2] at h; cases h)]

/-! ## Paths -/

theorem splitPath_slash (d b : Str) (h : '/' ∉ b) : splitPath (d ++ '/' :: b) = (d, b) := by
  have hrev : (d ++ '/' :: b).reverse = b.reverse ++ '/' :: d.reverse := by simp
  have htake : ∀ (l r : Str), '/' ∉ l → (l ++ '/' :: r).takeWhile (· ≠ '/') = l ∧ (l ++ '/' :: r).dropWhile (· ≠ '/') = '/' :: r := by
    intro l r hl
    induction l with
    | nil => simp
    | cons c l ih =>
      have hc : c ≠ '/' := fun e => hl (e ▸ List.mem_cons_self)
      obtain ⟨i1, i2⟩ := ih fun hm => hl (List.mem_cons_of_mem _ hm)
      constructor
      · rw [List.cons_append, List.takeWhile_cons, i1]; simp [hc]
      · rw [List.cons_append, List.dropWhile_cons, i2]; simp [hc]
  obtain ⟨t1, t2⟩ := htake b.reverse d.reverse (by simpa using h)
  unfold splitPath
  rw [if_pos (by simp), hrev, t1, t2]
  simp

theorem splitPath_plain (f : Str) (h : '/' ∉ f) : splitPath f = (['.'], f) := by
  unfold splitPath
  rw [if_neg h]

theorem split_last (f : Str) (h : '/' ∈ f) : ∃ d b, f = d ++ '/' :: b ∧ '/' ∉ b := by
  induction f with
  | nil => cases h
  | cons c f ih =>
    by_cases hf : '/' ∈ f
    · obtain ⟨d, b, rfl, hb⟩ := ih hf
      exact ⟨c :: d, b, rfl, hb⟩
    · rcases List.mem_cons.1 h with rfl | h
      · exact ⟨[], f, rfl, hf⟩
      · exact absurd h hf

/-! ## The main loop -/

theorem loop_piped {σ : Type} (s : Args) (title : σ → Str) (weighted : σ → Bool) (align : Hyp → Option σ) (ys : List σ) (total : Nat)
    (ht : ys.length ≤ total) : ∀ (m j : Nat) (k : Nat) (out : List (Event σ)), j + m = ys.length →
    loop s title weighted align ys.length total (m + k) j (fun i => ys[i]?) out =
      loop s title weighted align ys.length total k ys.length (fun i => ys[i]?)
        (out ++ expected s weighted ((ys.drop j).map fun y => (y, outRoot s.outDir s.outName (title y)))) := by
  intro m
  induction m with
  | zero =>
    intro j k out h
    have : j = ys.length := by omega
    subst this
    simp [expected]
  | succ m ih =>
    intro j k out h
    have hj : j < ys.length := by omega
    rw [show m + 1 + k = (m + k) + 1 by omega]
    have e : loop s title weighted align ys.length total (m + k + 1) j (fun i => ys[i]?) out =
        loop s title weighted align ys.length total (m + k) (j + 1) (fun i => ys[i]?)
          (out ++ reports s weighted ys[j] (outRoot s.outDir s.outName (title ys[j]))) := by
      show (if j < total then _ else _) = _
      rw [if_pos (by omega), if_neg (by omega)]
      dsimp only
      rw [List.getElem?_eq_getElem hj]
    rw [e, ih (j + 1) k _ (by omega), List.drop_eq_getElem_cons hj, List.map_cons]
    simp only [expected, List.flatMap_cons, List.append_assoc]

theorem loop_hyps {σ : Type} (s : Args) (title : σ → Str) (weighted : σ → Bool) (align : Hyp → Option σ) (hs : List Hyp) :
    ∀ (pre : List Hyp) (ys zs : List σ) (out : List (Event σ)), s.hyps = pre ++ hs → ys.length = pre.length →
    hs.map align = zs.map some → (∀ h ∈ hs, scorable (s.rfmt.getD []) h.fmt = true) →
    loop s title weighted align 0 s.hyps.length hs.length pre.length (fun i => ys[i]?) out =
      ((fun i => (ys ++ zs)[i]?), out ++ expected s weighted (zs.zip (hs.map fun h => outRoot s.outDir s.outName h.file)), none) := by
  induction hs with
  | nil =>
    intro pre ys zs out _ _ hz _
    have : zs = [] := by cases zs with | nil => rfl | cons z zs => cases hz
    subst this
    simp [loop, expected]
  | cons h hs ih =>
    intro pre ys zs out hp hy hz hsc
    cases zs with
    | nil => cases hz
    | cons z zs =>
      rw [List.map_cons, List.map_cons] at hz
      injection hz with hz1 hz2
      have hget : s.hyps[pre.length - 0]? = some h := by rw [hp]; simp
      have hfun : (fun i => if i = pre.length - 0 then some z else ys[i]?) = fun i => (ys ++ [z])[i]? := by
        funext i
        by_cases hi : i = pre.length
        · subst hi; simp [← hy]
        · rw [if_neg (by omega)]
          by_cases hl : i < ys.length
          · rw [List.getElem?_append_left hl]
          · rw [List.getElem?_eq_none (by omega), List.getElem?_eq_none (by simp; omega)]
      have e : loop s title weighted align 0 s.hyps.length (h :: hs).length pre.length (fun i => ys[i]?) out =
          loop s title weighted align 0 s.hyps.length hs.length (pre.length + 1) (fun i => (ys ++ [z])[i]?)
            (out ++ reports s weighted z (outRoot s.outDir s.outName h.file)) := by
        show (if pre.length < s.hyps.length then (if 0 ≤ pre.length then (match s.hyps[pre.length - 0]? with
          | none => _
          | some h => _) else _) else _) = _
        rw [if_pos (by rw [hp]; simp), if_pos (Nat.zero_le _), hget]
        dsimp only
        rw [if_pos (hsc h List.mem_cons_self), hz1]
        dsimp only
        rw [hfun]
        rw [if_pos (by omega)]
      rw [e]
      have := ih (pre ++ [h]) (ys ++ [z]) zs (out ++ reports s weighted z (outRoot s.outDir s.outName h.file)) (by rw [hp]; simp)
        (by simp [hy]) hz2 (fun x hx => hsc x (List.mem_cons_of_mem _ hx))
      rw [List.length_append, List.length_singleton] at this
      rw [this]
      simp [expected]

theorem pipeAll_spec {σ : Type} (ys : List σ) : ∀ (m j : Nat), j + m = ys.length → pipeAll (fun i => ys[i]?) (List.range' j m) = some (ys.drop j) := by
  intro m
  induction m with
  | zero => intro j h; rw [List.drop_eq_nil_of_le (by omega)]; rfl
  | succ m ih =>
    intro j h
    have hj : j < ys.length := by omega
    show (match ys[j]?, pipeAll (fun i => ys[i]?) (List.range' (j + 1) m) with
      | some y, some ys => some (y :: ys)
      | _, _ => none) = _
    rw [ih (j + 1) (by omega), List.getElem?_eq_getElem hj, List.drop_eq_getElem_cons hj]

theorem loop_all {σ : Type} (s : Args) (title : σ → Str) (weighted : σ → Bool) (align : Hyp → Option σ) (piped total : Nat) :
    ∀ (k nsc : Nat) (scor : Nat → Option σ) (out : List (Event σ)),
    ((loop s title weighted align piped total k nsc scor out).2.2 = none → ∀ (i : Nat) (x : Hyp), nsc ≤ i → i < nsc + k → i < total → piped ≤ i →
      s.hyps[i - piped]? = some x → scorable (s.rfmt.getD []) x.fmt = true ∧ (align x).isSome) ∧
    (loop s title weighted align piped total k nsc scor out).2.2 ≠ some (.exit 0) := by
  intro k
  induction k with
  | zero => intro nsc scor out; exact ⟨fun _ i x h1 h2 => by omega, fun h => by (cases h)⟩
  | succ k ih =>
    intro nsc scor out
    unfold loop
    by_cases ht : nsc < total
    · rw [if_pos ht]
      by_cases hp : piped ≤ nsc
      · rw [if_pos hp]
        cases hg : s.hyps[nsc - piped]? with
        | none => exact ⟨fun h => by (cases h), fun h => by (cases h)⟩
        | some h =>
          dsimp only
          by_cases hs : scorable (s.rfmt.getD []) h.fmt = true
          · rw [if_pos hs]
            cases hal : align h with
            | none => exact ⟨fun h => by (cases h), fun h => by (cases h)⟩
            | some y =>
              dsimp only
              cases hz : (if nsc = nsc - piped then some y else scor nsc) with
              | none => exact ⟨fun h => by (cases h), fun h => by (cases h)⟩
              | some z =>
                dsimp only
                obtain ⟨i1, i2⟩ := ih (nsc + 1) (fun i => if i = nsc - piped then some y else scor i)
                  (out ++ reports s weighted z (outRoot s.outDir s.outName h.file))
                refine ⟨fun hn i x h1 h2 h3 h4 h5 => ?_, i2⟩
                by_cases hi : i = nsc
                · subst hi
                  rw [hg] at h5
                  cases h5
                  exact ⟨hs, by rw [hal]; rfl⟩
                · exact i1 hn i x (by omega) (by omega) h3 h4 h5
          · rw [if_neg hs]
            exact ⟨fun h => by (cases h), fun h => by (cases h)⟩
      · rw [if_neg hp]
        cases hz : scor nsc with
        | none => exact ⟨fun h => by (cases h), fun h => by (cases h)⟩
        | some y =>
          dsimp only
          obtain ⟨i1, i2⟩ := ih (nsc + 1) scor (out ++ reports s weighted y (outRoot s.outDir s.outName (title y)))
          refine ⟨fun hn i x h1 h2 h3 h4 h5 => ?_, i2⟩
          by_cases hi : i = nsc
          · subst hi; exact absurd h4 hp
          · exact i1 hn i x (by omega) (by omega) h3 h4 h5
    · rw [if_neg ht]
      exact ⟨fun _ i x h1 h2 h3 => by omega, fun h => by (cases h)⟩

end Verif.ScliteArgs
