import Verif.RttmIn.Lexeme
/-!
# Segments of several words
-/
set_option autoImplicit false
namespace Verif.RttmIn
open Verif.CtmIn (Fields Word Out wordsFrom)
open Verif.StmIn (lower insert count under insert_under insert_keys insert_sorted count_eq under_mem under_none)

/-! ## Lines -/

/-- What a line says, in the model. -/
def evOf : Option Event → Ev → Prop
  | none, e => e = .none
  | some (.turn t), e => e = .turn t
  | some (.word _ _ k w), e => ∃ d cf, e = .word k w.text w.start d (some cf) ∧ w.stop = w.start + d ∧ Conf cf w.conf

theorem spk_line {ms : List Nat → Int} {l : List Nat} {o : Option Event} (h : SpkSays ms l o) : ∃ e, spkLine ms l = .ok e ∧ evOf o e := by
  have nc : ∀ {m : List Nat}, m <+: l → m.take 2 ≠ [59, 59] → 2 ≤ m.length → ¬ l.take 2 = [59, 59] := by
    intro m ⟨y, hy⟩ h1 h2 h3
    rw [← hy, List.take_append_of_le_length h2] at h3
    exact h1 h3
  have ns : txt "LEXEME" <+: l → ¬ l.take 7 = kwSpeaker := by
    rintro ⟨y, hy⟩ e
    rw [← hy] at e
    have : ((txt "LEXEME" ++ y).take 7).take 1 = kwSpeaker.take 1 := by rw [e]
    rw [List.take_take] at this
    exact absurd this (by rw [List.take_append_of_le_length (by decide)]; decide)
  cases h with
  | other h1 h2 =>
    refine ⟨.none, ?_, rfl⟩
    rw [spkLine]
    split
    · rfl
    · rw [if_neg (fun e => h2 (speaker_iff.1 e)), if_neg (fun e => h1 (lexeme_iff.1 e))]
  | turn y f c s d a b k more h1 h2 =>
    refine ⟨_, ?_, rfl⟩
    rw [spkLine, if_neg (nc h1 (by decide) (by decide)), if_pos (speaker_iff.2 h1), scanN_line h2]
    simp only [List.take_succ_cons]
  | kind y f c s d w t more h1 h2 h3 =>
    refine ⟨.none, ?_, rfl⟩
    rw [spkLine, if_neg (nc h1 (by decide) (by decide)), if_neg (ns h1), if_pos (lexeme_iff.2 h1), scanN_line h2]
    simp only [List.take_succ_cons]
    rw [if_neg (fun e => h3 ((kind_iff t).1 e))]
  | word y f c s d w t k cf more conf text h1 h2 h3 h4 h5 =>
    refine ⟨.word k (optWord t w) (ms s) (ms d) (some cf), ?_, ?_⟩
    · rw [spkLine, if_neg (nc h1 (by decide) (by decide)), if_neg (ns h1), if_pos (lexeme_iff.2 h1), scanN_line h2]
      simp only [List.take_succ_cons]
      rw [if_pos ((kind_iff t).2 h3)]
      rfl
    · have : optWord t w = text := by
        rw [optWord]
        rcases h5 with ⟨h, e⟩ | ⟨h, e⟩
        · rw [if_pos ((opt_iff t).2 h), e]; rfl
        · rw [if_neg (fun x => h ((opt_iff t).1 x)), e]
      rw [this]
      exact ⟨ms d, cf, rfl, rfl, h4⟩

/-! ## Turns and their words -/

theorem runs_nil {evs : List (Nat × Event)} (h : Runs evs []) : evs = [] := by cases h; rfl

theorem runs_turn {evs : List (Nat × Event)} {out : List (Nat × Turn × List Word)} (h : Runs evs out) (n : Nat) (t : Turn) :
    Runs (evs ++ [(n, .turn t)]) (out ++ [(n, t, [])]) := by
  induction h with
  | nil => exact Runs.cons n t [] [] [] [] rfl .nil
  | cons m u ws rest vs out h1 _ ih =>
    rw [List.cons_append, List.append_assoc]
    exact Runs.cons m u ws _ vs _ h1 ih

theorem runs_word {evs : List (Nat × Event)} {all : List (Nat × Turn × List Word)} (h : Runs evs all) {m : Nat} {t : Turn} {vs : List Word}
    {out : List (Nat × Turn × List Word)} (he : all = out ++ [(m, t, vs)]) {n : Nat} {e : Event} {w : Word} (hw : e.word? = some w) :
    Runs (evs ++ [(n, e)]) (out ++ [(m, t, vs ++ [w])]) := by
  induction h generalizing out with
  | nil => simp at he
  | cons a b ws rest us tl h1 h2 ih =>
    cases out with
    | nil =>
      rw [List.nil_append, List.cons.injEq] at he
      obtain ⟨e1, e2⟩ := he
      subst e2
      cases e1
      rw [runs_nil h2]
      have := Runs.cons m t (ws ++ [(n, e)]) [] (vs ++ [w]) [] (by simp [h1, hw]) .nil
      simpa using this
    | cons y out =>
      rw [List.cons_append, List.cons.injEq] at he
      obtain ⟨e1, e2⟩ := he
      subst e1
      have := Runs.cons a b ws _ us _ h1 (ih e2)
      simpa using this

theorem says_start (k : List Nat) : Says k [] [] := ⟨[], [], rfl, by simp, .nil⟩

theorem says_other {k : List Nat} {evs : List (Nat × Event)} {segs : List (Nat × Turn × List Word)} (h : Says k evs segs) {x : Nat × Event}
    (hx : x.2.spkr ≠ k) : Says k (evs ++ [x]) segs := by
  obtain ⟨pre, rest, h1, h2, h3⟩ := h
  refine ⟨pre, rest, ?_, h2, h3⟩
  rw [List.filter_append, h1]
  simp [hx]

theorem says_turn {k : List Nat} {evs : List (Nat × Event)} {segs : List (Nat × Turn × List Word)} (h : Says k evs segs) (n : Nat) (t : Turn)
    (hx : t.spkr = k) : Says k (evs ++ [(n, .turn t)]) (segs ++ [(n, t, [])]) := by
  obtain ⟨pre, rest, h1, h2, h3⟩ := h
  refine ⟨pre, rest ++ [(n, .turn t)], ?_, h2, runs_turn h3 n t⟩
  rw [List.filter_append, h1]
  simp [Event.spkr, hx]

theorem says_word {k : List Nat} {evs : List (Nat × Event)} {segs : List (Nat × Turn × List Word)} {m : Nat} {t : Turn} {vs : List Word}
    (h : Says k evs (segs ++ [(m, t, vs)])) {n : Nat} {e : Event} (hx : e.spkr = k) {w : Word} (hw : e.word? = some w) :
    Says k (evs ++ [(n, e)]) (segs ++ [(m, t, vs ++ [w])]) := by
  obtain ⟨pre, rest, h1, h2, h3⟩ := h
  refine ⟨pre, rest ++ [(n, e)], ?_, h2, runs_word h3 rfl hw⟩
  rw [List.filter_append, h1]
  simp [hx]

theorem says_drop {k : List Nat} {evs : List (Nat × Event)} (h : Says k evs []) {n : Nat} {e : Event} {w : Word} (hw : e.word? = some w) :
    Says k (evs ++ [(n, e)]) [] := by
  obtain ⟨pre, rest, h1, h2, h3⟩ := h
  rw [runs_nil h3, List.append_nil] at h1
  by_cases hx : e.spkr = k
  · refine ⟨pre ++ [(n, e)], [], ?_, ?_, .nil⟩
    · rw [List.filter_append, h1]
      simp [hx]
    · intro x hm
      rcases List.mem_append.1 hm with hm | hm
      · exact h2 x hm
      · rw [List.mem_singleton.1 hm]
        simp [hw]
  · exact ⟨pre, [], by rw [List.filter_append, h1]; simp [hx], h2, .nil⟩

theorem word_or_turn (e : Event) : (∃ t, e = .turn t) ∨ ∃ w, e.word? = some w := by
  cases e with
  | turn t => exact .inl ⟨t, rfl⟩
  | word f c k w => exact .inr ⟨w, rfl⟩

/-- Later lines only add words to the last turn, and turns. -/
theorem says_extend {k : List Nat} {evs : List (Nat × Event)} {segs : List (Nat × Turn × List Word)} {m : Nat} {t : Turn} {vs : List Word}
    (h : Says k evs (segs ++ [(m, t, vs)])) (more : List (Nat × Event)) :
    ∃ us out, Says k (evs ++ more) (segs ++ ((m, t, vs ++ us) :: out)) := by
  induction more generalizing evs segs m t vs with
  | nil => exact ⟨[], [], by simpa using h⟩
  | cons x more ih =>
    obtain ⟨n, e⟩ := x
    rw [show evs ++ (n, e) :: more = (evs ++ [(n, e)]) ++ more from by simp]
    by_cases hx : e.spkr = k
    · rcases word_or_turn e with ⟨u, rfl⟩ | ⟨w, hw⟩
      · obtain ⟨us, out, h1⟩ := ih (says_turn h n u hx)
        exact ⟨[], _, by simpa using h1⟩
      · obtain ⟨us, out, h1⟩ := ih (says_word h hx hw)
        exact ⟨[w] ++ us, out, by simpa using h1⟩
    · exact ih (says_other h (x := (n, e)) hx)

theorem split_words {ws rest ws' rest' : List (Nat × Event)} (h : ws ++ rest = ws' ++ rest') (h1 : ∀ x ∈ ws, x.2.word? ≠ none)
    (h1' : ∀ x ∈ ws', x.2.word? ≠ none) (h2 : ∀ x, rest.head? = some x → x.2.word? = none) (h2' : ∀ x, rest'.head? = some x → x.2.word? = none) :
    ws = ws' ∧ rest = rest' := by
  induction ws generalizing ws' with
  | nil =>
    cases ws' with
    | nil => exact ⟨rfl, h⟩
    | cons y ws' =>
      rw [List.nil_append] at h
      exact absurd (h2 y (by rw [h]; rfl)) (h1' y (by simp))
  | cons x ws ih =>
    cases ws' with
    | nil =>
      rw [List.nil_append] at h
      exact absurd (h2' x (by rw [← h]; rfl)) (h1 x (by simp))
    | cons y ws' =>
      rw [List.cons_append, List.cons_append, List.cons.injEq] at h
      obtain ⟨e1, e2⟩ := ih h.2 (fun x hx => h1 x (by simp [hx])) (fun x hx => h1' x (by simp [hx]))
      rw [h.1, e1]
      exact ⟨rfl, e2⟩

theorem runs_head {evs : List (Nat × Event)} {out : List (Nat × Turn × List Word)} (h : Runs evs out) :
    ∀ x, evs.head? = some x → x.2.word? = none := by
  cases h with
  | nil => intro x h; cases h
  | cons n t ws rest vs out _ _ => intro x h; cases h; rfl

theorem map_words {ws : List (Nat × Event)} {vs : List Word} (h : ws.map (fun x => x.2.word?) = vs.map some) : ∀ x ∈ ws, x.2.word? ≠ none := by
  intro x hx e
  have : x.2.word? ∈ ws.map (fun x => x.2.word?) := List.mem_map.2 ⟨x, hx, rfl⟩
  rw [h, e] at this
  obtain ⟨v, _, hv⟩ := List.mem_map.1 this
  cases hv

theorem runs_unique {evs : List (Nat × Event)} {a b : List (Nat × Turn × List Word)} (ha : Runs evs a) (hb : Runs evs b) : a = b := by
  induction ha generalizing b with
  | nil =>
    generalize hn : ([] : List (Nat × Event)) = evs at hb
    cases hb with
    | nil => rfl
    | cons => cases hn
  | cons n t ws rest vs out h1 h2 ih =>
    generalize hn : (n, Event.turn t) :: (ws ++ rest) = evs at hb
    cases hb with
    | nil => cases hn
    | cons n' t' ws' rest' vs' out' h1' h2' =>
      rw [List.cons.injEq] at hn
      obtain ⟨e1, e2⟩ := hn
      cases e1
      obtain ⟨e3, e4⟩ := split_words e2 (map_words h1) (map_words h1') (runs_head h2) (runs_head h2')
      subst e3
      subst e4
      have : vs = vs' := by
        rw [h1] at h1'
        exact List.map_inj_right (fun _ _ h => Option.some.inj h) |>.1 h1'
      rw [this, ih h2']

theorem says_unique {k : List Nat} {evs : List (Nat × Event)} {a b : List (Nat × Turn × List Word)} (ha : Says k evs a) (hb : Says k evs b) :
    a = b := by
  obtain ⟨p, r, h1, h2, h3⟩ := ha
  obtain ⟨p', r', h1', h2', h3'⟩ := hb
  rw [h1] at h1'
  obtain ⟨_, e⟩ := split_words h1' h2 h2' (runs_head h3) (runs_head h3')
  subst e
  exact runs_unique h3 h3'

/-! ## The state -/

theorem modLast_none {k : List Nat} (f : SSeg → Out SSeg) {m : List (List Nat × List SSeg)} (h : under k m = []) : modLast k f m = .ok none := by
  induction m with
  | nil => rfl
  | cons p m ih =>
    obtain ⟨k', xs⟩ := p
    rw [under] at h
    rw [modLast]
    by_cases e : k = k'
    · rw [if_pos e] at h
      rw [if_pos e, h]
      rfl
    · rw [if_neg e] at h
      rw [if_neg e, ih h]

theorem modLast_ok {k : List Nat} {f : SSeg → Out SSeg} {m : List (List Nat × List SSeg)} {a : List SSeg} {s s' : SSeg} (h : under k m = a ++ [s])
    (hf : f s = .ok s') : ∃ m', modLast k f m = .ok (some m') ∧ m'.map Prod.fst = m.map Prod.fst ∧
      ∀ k', under k' m' = if k' = k then a ++ [s'] else under k' m := by
  induction m with
  | nil => simp [under] at h
  | cons p m ih =>
    obtain ⟨k₁, xs⟩ := p
    rw [under] at h
    rw [modLast]
    by_cases e : k = k₁
    · rw [if_pos e] at h
      rw [if_pos e, h, List.getLast?_concat]
      dsimp only
      rw [hf]
      refine ⟨_, rfl, rfl, fun k' => ?_⟩
      rw [List.dropLast_concat, under, under, e]
      split <;> rfl
    · rw [if_neg e] at h
      obtain ⟨m', h1, h2, h3⟩ := ih h
      rw [if_neg e, h1]
      refine ⟨_, rfl, by rw [List.map_cons, List.map_cons, h2], fun k' => ?_⟩
      rw [under, under, h3]
      by_cases e' : k' = k₁
      · rw [if_pos e', if_pos e', if_neg (fun x => e (x.symm.trans e'))]
      · rw [if_neg e', if_neg e']

theorem modLast_fatal {k : List Nat} {f : SSeg → Out SSeg} {m : List (List Nat × List SSeg)} {a : List SSeg} {s : SSeg} (h : under k m = a ++ [s])
    (hf : f s = .fatal) : modLast k f m = .fatal := by
  induction m with
  | nil => simp [under] at h
  | cons p m ih =>
    obtain ⟨k₁, xs⟩ := p
    rw [under] at h
    rw [modLast]
    by_cases e : k = k₁
    · rw [if_pos e] at h
      rw [if_pos e, h, List.getLast?_concat]
      dsimp only
      rw [hf]
    · rw [if_neg e] at h
      rw [if_neg e, ih h]

/-- The line, the turn and the words of a segment. -/
def view (s : SSeg) : Nat × Turn × List Word := (s.line, s.turn, s.toks)

/-- The state after the lines that say `evs`. -/
structure SInv (n : Nat) (evs : List (Nat × Event)) (st : SSt) : Prop where
  line : st.lineNum = n
  sorted : (st.res.map Prod.fst).Pairwise (· < ·)
  keys : ∀ k, k ∈ st.res.map Prod.fst ↔ ∃ n t, (n, Event.turn t) ∈ evs ∧ t.spkr = k
  says : ∀ k, Says k evs ((under k st.res).map view)
  nums : ∀ k, (under k st.res).map (·.num) = List.range (under k st.res).length
  first : ∀ k s, s ∈ under k st.res → ∀ w, s.toks.head? = some w → fitsFirst s.turn w = true

theorem sinv_start : SInv 0 [] ⟨[], 0⟩ := by
  constructor
  · rfl
  · simp
  · simp
  · intro k; exact says_start k
  · simp [under]
  · simp [under]

theorem sinv_skip {n : Nat} {evs : List (Nat × Event)} {st : SSt} (h : SInv n evs st) : SInv (n + 1) evs { st with lineNum := st.lineNum + 1 } :=
  ⟨by rw [h.line], h.sorted, h.keys, h.says, h.nums, h.first⟩

theorem sinv_turn {n : Nat} {evs : List (Nat × Event)} {st : SSt} (h : SInv n evs st) (t : Turn) :
    SInv (n + 1) (evs ++ [(n, .turn t)]) ⟨insert t.spkr ⟨t, st.lineNum, count t.spkr st.res, []⟩ st.res, st.lineNum + 1⟩ := by
  have hU := insert_under t.spkr (⟨t, st.lineNum, count t.spkr st.res, []⟩ : SSeg) st.res h.sorted
  constructor
  · show st.lineNum + 1 = _; rw [h.line]
  · exact insert_sorted _ _ _ h.sorted
  · intro k
    show k ∈ (insert _ _ _).map Prod.fst ↔ _
    rw [insert_keys, h.keys]
    constructor
    · rintro (e | ⟨m, u, hm, e⟩)
      · exact ⟨n, t, by simp, e.symm⟩
      · exact ⟨m, u, by simp [hm], e⟩
    · rintro ⟨m, u, hm, e⟩
      rcases List.mem_append.1 hm with hm | hm
      · exact .inr ⟨m, u, hm, e⟩
      · cases List.mem_singleton.1 hm
        exact .inl e.symm
  · intro k
    show Says k _ ((under k (insert _ _ _)).map view)
    rw [hU]
    by_cases e : k = t.spkr
    · rw [if_pos e, List.map_append, ← e]
      have := says_turn (h.says k) n t e.symm
      rw [show [(⟨t, st.lineNum, count k st.res, []⟩ : SSeg)].map view = [(n, t, [])] from by rw [h.line]; rfl]
      exact this
    · rw [if_neg e]
      exact says_other (h.says k) (fun x => e x.symm)
  · intro k
    show (under k (insert _ _ _)).map _ = List.range (under k (insert _ _ _)).length
    rw [hU]
    by_cases e : k = t.spkr
    · subst e
      rw [if_pos rfl, List.map_append, h.nums, List.length_append]
      rw [show [(_ : SSeg)].length = 1 from rfl, List.range_succ]
      simp only [List.map_cons, List.map_nil]
      rw [count_eq]
    · rw [if_neg e, h.nums]
  · intro k s hs
    have hs' : s ∈ under k (insert t.spkr (⟨t, st.lineNum, count t.spkr st.res, []⟩ : SSeg) st.res) := hs
    rw [hU] at hs'
    by_cases e : k = t.spkr
    · rw [if_pos e] at hs'
      rcases List.mem_append.1 hs' with hm | hm
      · exact h.first _ s hm
      · rw [List.mem_singleton.1 hm]
        intro w hw
        cases hw
    · rw [if_neg e] at hs'
      exact h.first _ s hs'

theorem fitsFirst_iff (t : Turn) (w : Word) : fitsFirst t w = true ↔ (w.start = -1 ∨ t.start ≤ w.start) := by
  unfold fitsFirst
  simp only [Bool.not_eq_true', Bool.and_eq_false_iff, decide_eq_false_iff_not]
  omega

theorem fitsLast_iff (t : Turn) (w : Word) : fitsLast t w = true ↔ (w.stop = -1 ∨ w.stop ≤ t.stop) := by
  unfold fitsLast
  simp only [Bool.not_eq_true', Bool.and_eq_false_iff, decide_eq_false_iff_not]
  omega

theorem fits_view (s : SSeg) : Fits (view s) ↔ (∀ w, s.toks.head? = some w → fitsFirst s.turn w = true) ∧ endFits s = true := by
  unfold Fits endFits view
  refine and_congr ?_ ?_
  · simp only [fitsFirst_iff]
  · dsimp only
    cases s.toks.getLast? with
    | none => simp
    | some w => simp [fitsLast_iff]

theorem step_word {n : Nat} {evs : List (Nat × Event)} {st : SSt} (h : SInv n evs st) {ms : List Nat → Int} {l : List Nat}
    {f c k : List Nat} {w : Word} (hl : SpkSays ms l (some (.word f c k w))) (ht : Tellable (n, .word f c k w)) :
    (∃ st', spkStep ms st l = .ok st' ∧ SInv (n + 1) (evs ++ [(n, .word f c k w)]) st') ∨
      (spkStep ms st l = .fatal ∧ ∃ segs m t, Says k (evs ++ [(n, .word f c k w)]) (segs ++ [(m, t, [w])]) ∧ fitsFirst t w = false) := by
  obtain ⟨e, h1, d, cf, rfl, h2, h3⟩ := spk_line hl
  have hw : (⟨w.start, w.start + d, w.text, if cf = noConf then none else some cf⟩ : Word) = w := by
    rw [← h2, ← conf_eq h3]
  rw [spkStep, h1]
  dsimp only
  rcases List.eq_nil_or_concat (under k st.res) with e | ⟨a, s, e⟩
  · rw [modLast_none _ e]
    dsimp only
    have hm : ¬ longMessage k st.lineNum = true := by
      unfold Tellable at ht
      rw [longMessage, h.line]
      simp only [decide_eq_true_eq]
      have : k.length + (Nat.toDigits 10 n).length < 217 := ht
      omega
    rw [if_neg hm]
    refine .inl ⟨_, rfl, by show st.lineNum + 1 = _; rw [h.line], h.sorted, ?_, ?_, h.nums, h.first⟩
    · intro k'
      rw [h.keys]
      constructor
      · rintro ⟨m, t, hm, e⟩
        exact ⟨m, t, by simp [hm], e⟩
      · rintro ⟨m, t, hm, e⟩
        rcases List.mem_append.1 hm with hm | hm
        · exact ⟨m, t, hm, e⟩
        · cases List.mem_singleton.1 hm
    · intro k'
      by_cases ek : k = k'
      · subst ek
        have := h.says k
        rw [e] at this ⊢
        exact says_drop this rfl
      · exact says_other (h.says k') ek
  · rw [List.concat_eq_append] at e
    have hs := h.says k
    rw [e, List.map_append] at hs
    have hs' := says_word (n := n) (e := .word f c k w) (w := w) (vs := s.toks) (m := s.line) (t := s.turn) hs rfl rfl
    have good : ∀ s', addTok w.text w.start d (some cf) s = .ok s' → view s' = (s.line, s.turn, s.toks ++ [w]) → s'.num = s.num →
        (∀ v, s'.toks.head? = some v → fitsFirst s'.turn v = true) →
        ∃ st', (match modLast k (addTok w.text w.start d (some cf)) st.res with
          | .ok (some m) => Out.ok (⟨m, st.lineNum + 1⟩ : SSt)
          | .ok none => if longMessage k st.lineNum then .undef else .ok { st with lineNum := st.lineNum + 1 }
          | .fatal => .fatal
          | .undef => .undef) = .ok st' ∧ SInv (n + 1) (evs ++ [(n, .word f c k w)]) st' := by
      intro s' g1 g2 g3 g4
      obtain ⟨m', q1, q2, q3⟩ := modLast_ok e g1
      rw [q1]
      refine ⟨_, rfl, by show st.lineNum + 1 = _; rw [h.line], ?_, ?_, ?_, ?_, ?_⟩
      · show (m'.map Prod.fst).Pairwise _
        rw [q2]; exact h.sorted
      · intro k'
        show k' ∈ m'.map Prod.fst ↔ _
        rw [q2, h.keys]
        constructor
        · rintro ⟨m, t, hm, e⟩
          exact ⟨m, t, by simp [hm], e⟩
        · rintro ⟨m, t, hm, e⟩
          rcases List.mem_append.1 hm with hm | hm
          · exact ⟨m, t, hm, e⟩
          · cases List.mem_singleton.1 hm
      · intro k'
        show Says k' _ ((under k' m').map view)
        rw [q3]
        by_cases ek : k' = k
        · subst ek
          rw [if_pos rfl, List.map_append, List.map_cons, g2]
          exact hs'
        · rw [if_neg ek]
          exact says_other (h.says k') (fun x => ek x.symm)
      · intro k'
        show (under k' m').map _ = List.range (under k' m').length
        rw [q3]
        by_cases ek : k' = k
        · subst ek
          have := h.nums k'
          rw [e] at this
          rw [if_pos rfl, List.length_append, List.map_append, List.map_cons, g3]
          rw [List.length_append, List.map_append, List.map_cons] at this
          exact this
        · rw [if_neg ek]
          exact h.nums k'
      · intro k' x hx
        have hx' : x ∈ under k' m' := hx
        rw [q3] at hx'
        by_cases ek : k' = k
        · rw [if_pos ek] at hx'
          rcases List.mem_append.1 hx' with hx' | hx'
          · exact h.first k x (by rw [e]; simp [hx'])
          · rw [List.mem_singleton.1 hx']
            exact g4
        · rw [if_neg ek] at hx'
          exact h.first k' x hx'
    have ha : addTok w.text w.start d (some cf) s = if s.toks = [] then (if fitsFirst s.turn w then .ok { s with toks := [w] } else .fatal)
        else .ok { s with toks := s.toks ++ [w] } := by
      rw [addTok, hw]
    by_cases et : s.toks = []
    · rw [if_pos et] at ha
      by_cases ef : fitsFirst s.turn w = true
      · rw [if_pos ef] at ha
        refine .inl (good _ ha ?_ rfl ?_)
        · show (s.line, s.turn, [w]) = _
          rw [et]; rfl
        · intro v hv
          cases hv
          exact ef
      · rw [if_neg ef] at ha
        refine .inr ⟨?_, a.map view, s.line, s.turn, ?_, by simpa using ef⟩
        · rw [modLast_fatal e ha]
        · rw [et] at hs'
          exact hs'
    · rw [if_neg et] at ha
      refine .inl (good _ ha rfl rfl ?_)
      intro v hv
      refine h.first k s (by rw [e]; simp) v ?_
      show s.toks.head? = some v
      obtain ⟨y, ys, hy⟩ := List.exists_cons_of_ne_nil et
      rw [hy] at hv ⊢
      exact hv

theorem spkRun_inv {ms : List Nat → Int} {n : Nat} {lines : List (List Nat)} {evs qs : List (Nat × Event)} (h : SpkFile ms n lines evs) {st : SSt}
    (hi : SInv n qs st) (ht : ∀ x ∈ evs, Tellable x) :
    (∃ st', spkRun ms st lines = .ok st' ∧ SInv (n + lines.length) (qs ++ evs) st') ∨
      (spkRun ms st lines = .fatal ∧ ∃ k segs x, Says k (qs ++ evs) segs ∧ x ∈ segs ∧ ¬ Fits x) := by
  induction h generalizing st qs with
  | nil n => exact .inl ⟨st, rfl, by simpa using hi⟩
  | skip n l ls evs h1 h2 ih =>
    obtain ⟨e, he, h3⟩ := spk_line h1
    rw [show e = Ev.none from h3] at he
    rw [spkRun, spkStep, he, List.length_cons, show n + (ls.length + 1) = n + 1 + ls.length from by omega]
    exact ih (sinv_skip hi) ht
  | event n l e ls evs h1 h2 ih =>
    rw [List.length_cons, show n + (ls.length + 1) = n + 1 + ls.length from by omega,
      show qs ++ (n, e) :: evs = (qs ++ [(n, e)]) ++ evs from by simp]
    cases e with
    | turn t =>
      obtain ⟨e, he, h3⟩ := spk_line h1
      rw [show e = Ev.turn t from h3] at he
      rw [spkRun, spkStep, he]
      exact ih (sinv_turn hi t) (fun x hx => ht x (by simp [hx]))
    | word f c k w =>
      rcases step_word hi h1 (ht _ (by simp)) with ⟨st', e1, e2⟩ | ⟨e1, segs, m, t, e2, e3⟩
      · rw [spkRun, e1]
        exact ih e2 (fun x hx => ht x (by simp [hx]))
      · rw [spkRun, e1]
        obtain ⟨us, out, e4⟩ := says_extend e2 evs
        refine .inr ⟨rfl, k, _, (m, t, [w] ++ us), e4, List.mem_append_right _ (List.mem_cons_self ..), ?_⟩
        intro hf
        have := hf.1 w rfl
        rw [(fitsFirst_iff t w).2 this] at e3
        cases e3

theorem mem_under {k : List Nat} {s : SSeg} {m : List (List Nat × List SSeg)} (h : s ∈ under k m) : ∃ xs, (k, xs) ∈ m ∧ s ∈ xs := by
  induction m with
  | nil => cases h
  | cons p m ih =>
    obtain ⟨k', xs⟩ := p
    rw [under] at h
    by_cases e : k = k'
    · rw [if_pos e] at h
      exact ⟨xs, by rw [e]; simp, h⟩
    · rw [if_neg e] at h
      obtain ⟨ys, h1, h2⟩ := ih h
      exact ⟨ys, by simp [h1], h2⟩

theorem spkLoad_cases {ms : List Nat → Int} {lines : List (List Nat)} {evs : List (Nat × Event)} (h : SpkFile ms 0 lines evs)
    (ht : ∀ x ∈ evs, Tellable x) :
    (∃ st, spkLoad ms lines = .ok st.res ∧ SInv lines.length evs st ∧ ∀ k segs, Says k evs segs → ∀ x ∈ segs, Fits x) ∨
      (spkLoad ms lines = .fatal ∧ ∃ k segs x, Says k evs segs ∧ x ∈ segs ∧ ¬ Fits x) := by
  rcases spkRun_inv h sinv_start ht with ⟨st, h1, h2⟩ | ⟨h1, h2⟩
  · rw [Nat.zero_add, List.nil_append] at h2
    by_cases ha : st.res.all (fun x => x.2.all endFits) = true
    · refine .inl ⟨st, ?_, h2, fun k segs hk x hx => ?_⟩
      · rw [spkLoad, h1]
        dsimp only
        rw [if_pos ha]
      · rw [says_unique hk (h2.says k)] at hx
        obtain ⟨s, hs, rfl⟩ := List.mem_map.1 hx
        rw [fits_view]
        refine ⟨h2.first k s hs, ?_⟩
        obtain ⟨xs, hm, hs'⟩ := mem_under hs
        have := List.all_eq_true.1 ha _ hm
        exact List.all_eq_true.1 this s hs'
    · refine .inr ⟨?_, ?_⟩
      · rw [spkLoad, h1]
        dsimp only
        rw [if_neg ha]
      · have : ∃ p ∈ st.res, ∃ s ∈ p.2, ¬ endFits s = true := by
          false_or_by_contra
          rename_i hn
          apply ha
          rw [List.all_eq_true]
          intro p hp
          rw [List.all_eq_true]
          intro s hs
          false_or_by_contra
          rename_i he
          exact hn ⟨p, hp, s, hs, he⟩
        obtain ⟨⟨k, xs⟩, hp, s, hs, he⟩ := this
        refine ⟨k, _, view s, h2.says k, ?_, fun hf => he ((fits_view s).1 hf).2⟩
        rw [under_mem h2.sorted hp]
        exact List.mem_map.2 ⟨s, hs, rfl⟩
  · rw [List.nil_append] at h2
    refine .inr ⟨?_, h2⟩
    rw [spkLoad, h1]

end Verif.RttmIn
