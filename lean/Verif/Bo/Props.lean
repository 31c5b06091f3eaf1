import Verif.Bo.Lemmas
/-!
# Theorems on probabilities by backing off
-/
set_option autoImplicit false
namespace Verif.Bo

/-! ## C315: probabilities -/

/-- In a model whose tables fit together the probability of an n-gram is the one by backing off, and the case is the code of the steps. The program ends
only if the probability of an end of the n-gram is above one. Missing: memory behind the tables that has one of the words or another place. -/
theorem backoff_partial (lm : Lm) (hF : Fits lm) (w : Nat) (ws : List Nat) (hp : lm.past 0 = (lm.words 1).length) (hb : ∀ k, lm.beyond k ∉ w :: ws)
    (hv : ∀ x ∈ w :: ws, x ≤ lm.vocab) :
    (∀ p b, prob lm (w :: ws) = some (p, b) → ∃ s, Katz lm (w :: ws) p s ∧ s.length ≤ ws.length ∧ b = code ws.length s ∧ p ≤ 0) ∧
      (prob lm (w :: ws) = none → ∃ g p s, g <:+ w :: ws ∧ Katz lm g p s ∧ 0 < p) := by
  induction ws generalizing w with
  | nil =>
    rw [prob]
    unfold check
    by_cases h : 0 < lm.probs 0 w
    · rw [if_pos (by simpa using h)]
      exact ⟨fun _ _ e => (by cases e), fun _ => ⟨[w], _, [], List.suffix_refl _, .one w, h⟩⟩
    · rw [if_neg (by simpa using h)]
      refine ⟨fun p b e => ?_, fun e => by cases e⟩
      injection e with e
      injection e with e1 e2
      subst e1
      subst e2
      exact ⟨[], .one w, Nat.zero_le _, rfl, by omega⟩
  | cons v ws ih =>
    obtain ⟨i1, i2⟩ := ih v (fun k hk => hb k (List.mem_cons_of_mem _ hk)) (fun x hx => hv x (List.mem_cons_of_mem _ hx))
    have hcl : Clean lm (w :: v :: ws) := ⟨hp, hb, hv⟩
    have hall := chain_spec hF hcl (ws.length + 1) (Nat.le_refl _)
    have hctx := chain_spec hF hcl ws.length (Nat.le_succ _)
    have htake : (v :: ws).take (ws.length + 1) = v :: ws := List.take_length (l := v :: ws)
    have hdrop : w :: (v :: ws).take ws.length = (w :: v :: ws).dropLast := by
      rw [List.dropLast_cons_of_ne_nil (by simp), List.dropLast_eq_take]
      rfl
    rw [htake] at hall
    rw [hdrop] at hctx
    rw [prob]
    have hlen : (chain lm (w :: v :: ws)).length = ws.length + 1 + 1 ↔ ws.length + 1 + 1 ≤ (chain lm (w :: v :: ws)).length := by
      have : ∀ (l : List Nat) (k i : Nat), (walk lm k i l).length ≤ l.length := by
        intro l
        induction l with
        | nil => intro k i; exact Nat.le_refl _
        | cons a l ih =>
          intro k i
          rw [walk]
          split
          · exact Nat.zero_le _
          · have := ih (k + 1) ‹_›
            simpa using this
      have h2 : (chain lm (w :: v :: ws)).length ≤ ws.length + 1 + 1 := by
        rw [chain]
        split
        · have := this (v :: ws) 0 w
          simpa using this
        · exact Nat.zero_le _
      omega
    by_cases hfound : ws.length + 1 + 1 ≤ (chain lm (w :: v :: ws)).length
    · rw [if_pos (by simpa using hlen.2 hfound)]
      have hseen := hall.1 hfound
      generalize ((chain lm (w :: v :: ws))[ws.length + 1]?).getD 0 = j at hseen ⊢
      unfold check
      by_cases h : 0 < lm.probs (ws.length + 1) j
      · rw [if_pos (by simpa using h)]
        exact ⟨fun _ _ e => (by cases e), fun _ => ⟨_, _, [], List.suffix_refl _, .seen w v ws j hseen, h⟩⟩
      · rw [if_neg (by simpa using h)]
        refine ⟨fun p b e => ?_, fun e => by cases e⟩
        injection e with e
        injection e with e1 e2
        subst e1
        subst e2
        exact ⟨[], .seen w v ws j hseen, Nat.zero_le _, rfl, by omega⟩
    · have hnot : ∀ j, ¬ Seen lm (w :: v :: ws) j := fun j hj => hfound (hall.2 j hj)
      rw [if_neg (by simpa using fun e => hfound (hlen.1 e))]
      cases e0 : prob lm (v :: ws) with
      | none =>
        refine ⟨fun _ _ e => (by cases e), fun _ => ?_⟩
        obtain ⟨g, p, s, hg, hk, hpos⟩ := i2 e0
        exact ⟨g, p, s, List.IsSuffix.trans hg (List.suffix_cons w (v :: ws)), hk, hpos⟩
      | some r =>
        obtain ⟨p0, b0⟩ := r
        obtain ⟨s0, hk0, hs0, hb0, _⟩ := i1 p0 b0 e0
        dsimp only
        by_cases hc : ws.length + 1 ≤ (chain lm (w :: v :: ws)).length
        · rw [if_pos (by simpa using hc), Nat.add_sub_cancel]
          have hseen := hctx.1 hc
          generalize ((chain lm (w :: v :: ws))[ws.length]?).getD 0 = i at hseen ⊢
          have hk := Katz.back w v ws i p0 s0 hnot hseen hk0
          unfold check
          by_cases h : 0 < p0 + lm.alphas ws.length i
          · rw [if_pos (by simpa using h)]
            exact ⟨fun _ _ e => (by cases e), fun _ => ⟨_, _, _, List.suffix_refl _, hk, h⟩⟩
          · rw [if_neg (by simpa using h)]
            refine ⟨fun p b e => ?_, fun e => by cases e⟩
            injection e with e
            injection e with e1 e2
            subst e1
            subst e2
            refine ⟨_, hk, Nat.succ_le_succ hs0, ?_, by omega⟩
            rw [hb0, Nat.one_mul]
            rfl
        · rw [if_neg (by simpa using hc), Nat.add_sub_cancel]
          have hk := Katz.away w v ws p0 s0 hnot (fun i hi => hc (hctx.2 i hi)) hk0
          unfold check
          by_cases h : 0 < p0
          · rw [if_pos (by simpa using h)]
            exact ⟨fun _ _ e => (by cases e), fun _ => ⟨_, _, _, List.suffix_refl _, hk, h⟩⟩
          · rw [if_neg (by simpa using h)]
            refine ⟨fun p b e => ?_, fun e => by cases e⟩
            injection e with e
            injection e with e1 e2
            subst e1
            subst e2
            refine ⟨_, hk, Nat.succ_le_succ hs0, ?_, by omega⟩
            rw [hb0]
            rfl

theorem from_unique {lm : Lm} (hF : Fits lm) (ws : List Nat) (k i j j' : Nat) (h : From lm k i ws j) (h' : From lm k i ws j') : j = j' := by
  induction ws generalizing k i with
  | nil => exact h.trans h'.symm
  | cons w ws ih =>
    obtain ⟨m, hm, hr⟩ := h
    obtain ⟨m', hm', hr'⟩ := h'
    have := child_unique hF hm hm'
    subst this
    exact ih _ _ hr hr'

theorem seen_unique {lm : Lm} (hF : Fits lm) (g : List Nat) (j j' : Nat) (h : Seen lm g j) (h' : Seen lm g j') : j = j' := by
  cases g with
  | nil => cases h
  | cons w ws => exact from_unique hF ws 0 w j j' h.2 h'.2

/-- An n-gram has one probability by backing off, and one sequence of steps. -/
theorem katz_unique (lm : Lm) (hF : Fits lm) (g : List Nat) (p p' : Int) (s s' : List Step) (h : Katz lm g p s) (h' : Katz lm g p' s') : p = p' ∧ s = s' := by
  induction h generalizing p' s' with
  | one w =>
    cases h'
    exact ⟨rfl, rfl⟩
  | seen w v ws j hs =>
    cases h' with
    | seen _ _ _ j' hs' =>
      rw [seen_unique hF _ _ _ hs hs']
      exact ⟨rfl, rfl⟩
    | back _ _ _ _ _ _ hn => exact absurd hs (hn j)
    | away _ _ _ _ _ hn => exact absurd hs (hn j)
  | back w v ws i p s hn hc hk ih =>
    cases h' with
    | seen _ _ _ j' hs' => exact absurd hs' (hn j')
    | back _ _ _ i' p' s' hn' hc' hk' =>
      obtain ⟨e1, e2⟩ := ih _ _ hk'
      rw [seen_unique hF _ _ _ hc hc', e1, e2]
      exact ⟨rfl, rfl⟩
    | away _ _ _ _ _ _ hc' => exact absurd hc (hc' i)
  | away w v ws p s hn hc hk ih =>
    cases h' with
    | seen _ _ _ j' hs' => exact absurd hs' (hn j')
    | back _ _ _ i' p' s' hn' hc' hk' => exact absurd hc' (hc i')
    | away _ _ _ p' s' hn' hc' hk' =>
      obtain ⟨e1, e2⟩ := ih _ _ hk'
      rw [e1, e2]
      exact ⟨rfl, rfl⟩

/-- A model of the words 0 and 1, with the bigrams 0 1 and 1 0 and the trigram 0 1 1; behind the table of trigrams is `x`. -/
def small (x : Nat) : Lm where
  vocab := 1
  words := fun k => if k = 1 then [1, 0] else if k = 2 then [1] else []
  beyond := fun k => if k = 2 then x else 2
  starts := fun k => if k = 0 then [0, 1] else if k = 1 then [0, 1] else if k = 2 then [0] else []
  past := fun k => if k = 0 then 2 else 0
  probs := fun k j => -10 * ((k : Int) + 1) - (j : Int)
  alphas := fun k j => -100 * ((k : Int) + 1) - (j : Int)

/-- With zero behind the table of trigrams the last bigram is found with the word 0 after it, although there is no such trigram. -/
theorem backoff_counterexample : prob (small 0) [1, 0, 0] = some ((small 0).probs 2 1, 0) ∧ ∀ j, ¬ Seen (small 0) [1, 0, 0] j := by
  refine ⟨by decide +kernel, ?_⟩
  rintro j ⟨_, m, ⟨_, _, h1⟩, m', ⟨_, _, h2⟩, _⟩
  have h3 : [1][m']? = some 0 := h2
  cases m' with
  | zero => exact absurd h3 (by decide)
  | succ m' => cases h3

theorem small_fits (x : Nat) : Fits (small x) where
  length := by
    intro k
    match k with
    | 0 => rfl
    | 1 => rfl
    | 2 => rfl
    | k + 3 => rfl
  range := by
    intro k i s h
    match k, i with
    | 0, 0 => injection h with h; subst h; exact (by decide : (0 : Nat) ≤ 1 ∧ 1 ≤ 2)
    | 0, 1 => injection h with h; subst h; exact (by decide : (1 : Nat) ≤ 2 ∧ 2 ≤ 2)
    | 0, i + 2 => cases h
    | 1, 0 => injection h with h; subst h; exact (by decide : (0 : Nat) ≤ 1 ∧ 1 ≤ 1)
    | 1, 1 => injection h with h; subst h; exact (by decide : (1 : Nat) ≤ 1 ∧ 1 ≤ 1)
    | 1, i + 2 => cases h
    | 2, 0 => injection h with h; subst h; exact (by decide : (0 : Nat) ≤ 0 ∧ 0 ≤ 0)
    | 2, i + 1 => cases h
    | k + 3, i => cases h
  order := by
    intro k i w w' j j' h h' hj
    obtain ⟨⟨s, hs, hsj⟩, h2, h3⟩ := h
    obtain ⟨_, h2', h3'⟩ := h'
    match k, i with
    | 0, 0 =>
      have : j' < 1 := h2'
      omega
    | 0, 1 =>
      have : j' < 2 := h2'
      injection hs with hs
      omega
    | 0, i + 2 => cases hs
    | 1, 0 =>
      have : j' < 1 := h2'
      omega
    | 1, 1 =>
      have : j' < 1 := h2'
      omega
    | 1, i + 2 => cases hs
    | 2, 0 => cases h3'
    | 2, i + 1 => cases hs
    | k + 3, i => cases hs

example : Fits (small 2) ∧ (small 2).past 0 = ((small 2).words 1).length ∧ prob (small 2) [0, 1, 1] = some (-30, 0) ∧
    prob (small 2) [1, 0, 0] = some (-10 - 100 - 201, 5) ∧ prob (small 2) [0, 0, 1] = some (-20, 8) :=
  ⟨small_fits 2, by decide +kernel, by decide +kernel, by decide +kernel, by decide +kernel⟩

/-! ## C316: the steps as they are written -/

theorem code_lt (c : Nat) (s : List Step) (h : s.length ≤ c) : code c s < 4 ^ c := by
  induction s generalizing c with
  | nil => exact Nat.pow_pos (by decide)
  | cons x s ih =>
    cases c with
    | zero => simp at h
    | succ c =>
      have := ih c (by simpa using h)
      rw [Nat.pow_succ]
      cases x
      · show code c s + 4 ^ c < _
        omega
      · show code c s + 2 * 4 ^ c < _
        omega

/-- From the code of the steps the steps are written: the length of each n-gram, a dash for a weight, a cross where the context is not in the model, and the
length of the one found. The shift by a negative number, which is not defined, is done whenever this is longer than one word. -/
theorem decode_render (c : Nat) (s : List Step) (h : s.length ≤ c) : decode c (code c s) = (render c s, decide (s.length < c)) := by
  induction s generalizing c with
  | nil =>
    cases c with
    | zero => rfl
    | succ c =>
      unfold decode code
      simp [render]
  | cons x s ih =>
    cases c with
    | zero => simp at h
    | succ c =>
      have hs : s.length ≤ c := by simpa using h
      have hlt := code_lt c s hs
      have hpos : 0 < 4 ^ c := Nat.pow_pos (by decide)
      have hi := ih c hs
      unfold decode
      dsimp only
      cases x
      · have e : code (c + 1) (.dash :: s) = code c s + 4 ^ c := rfl
        have hd : (code c s + 4 ^ c) / 4 ^ c = 1 := by
          rw [Nat.add_div_right _ hpos, Nat.div_eq_of_lt hlt]
        have hm : code c s + 4 ^ c - 1 * 4 ^ c = code c s := by omega
        rw [e, hd, if_pos rfl, hm, hi]
        simp [render]
      · have e : code (c + 1) (.cross :: s) = code c s + 2 * 4 ^ c := rfl
        have hd : (code c s + 2 * 4 ^ c) / 4 ^ c = 2 := by
          rw [Nat.add_mul_div_right _ _ hpos, Nat.div_eq_of_lt hlt]
        have hm : code c s + 2 * 4 ^ c - 2 * 4 ^ c = code c s := by omega
        rw [e, hd, if_neg (by decide), if_pos rfl, hm, hi]
        simp [render]

/-- What is written tells the steps. -/
theorem render_unique (c : Nat) (s s' : List Step) (h : render c s = render c s') : s = s' := by
  induction s generalizing c s' with
  | nil =>
    cases s' with
    | nil => rfl
    | cons y s' => cases y <;> simp [render] at h
  | cons x s ih =>
    cases s' with
    | nil => cases x <;> simp [render] at h
    | cons y s' =>
      cases x <;> cases y <;> simp [render] at h
      · rw [ih _ _ h]
      · rw [ih _ _ h]

/-- For every n-gram that is found the shift is not defined, so the claim for defined executions holds for single words only. -/
theorem decode_shift : ¬ ∀ (c : Nat) (s : List Step), s.length ≤ c → (decode c (code c s)).2 = false := by
  intro h
  exact absurd (h 2 [] (by decide)) (by decide)

example : decode 2 (code 2 [.dash, .cross]) = ([.num 3, .dash, .num 2, .cross, .num 1], false) ∧ decode 2 (code 2 [.cross]) = ([.num 3, .cross, .num 2], true) := by
  decide +kernel

/-! ## C317: forced backing off -/

/-- The words of the context from `m` on that are not in the list are passed over. -/
theorem recent_skip {fb : Nat → Option Bool} (ctx : List Nat) (m d : Nat) (h : ∀ i, m ≤ i → i < m + d → fb ((ctx[i]?).getD 0) = none) :
    recent fb ctx (m + d) = recent fb ctx m := by
  induction d with
  | zero => rfl
  | succ d ih =>
    rw [← Nat.add_assoc, recent, h (m + d) (by omega) (by omega)]
    exact ih (fun i h1 h2 => h i h1 (by omega))

theorem range_map (ctx : List Nat) (m n : Nat) (h : m + n = ctx.length) (f : Nat → Nat) (hf : ∀ i, f i = (ctx[i + m]?).getD 0) :
    (List.range n).map f = ctx.drop m := by
  apply List.ext_getElem
  · simp; omega
  · intro i h1 h2
    have : i < n := by simpa using h1
    rw [List.getElem_map, List.getElem_range, List.getElem_drop, hf, List.getElem?_eq_getElem (by omega)]
    simp [Nat.add_comm]

/-- The context that counts is what comes after the last word in the list, with that word if it is in the list as inclusive; all of it if there is none. -/
theorem forced (fb : Nat → Option Bool) (pre post : List Nat) (w : Nat) (inc : Bool) (hw : fb w = some inc) (hpost : ∀ x ∈ post, fb x = none) :
    used fb (pre ++ w :: post) = (if inc then w :: post else post) := by
  have hlen : (pre ++ w :: post).length = pre.length + 1 + post.length := by simp; omega
  have hr : recent fb (pre ++ w :: post) (pre ++ w :: post).length = some (pre.length, inc) := by
    rw [hlen, recent_skip]
    · rw [recent, List.getElem?_append_right (Nat.le_refl _), Nat.sub_self]
      show (match fb w with | some inc => some (pre.length, inc) | none => _) = _
      rw [hw]
    · intro i h1 h2
      rw [List.getElem?_append_right (by omega)]
      have e : i - pre.length = (i - pre.length - 1) + 1 := by omega
      rw [e, List.getElem?_cons_succ, List.getElem?_eq_getElem (by omega)]
      exact hpost _ (List.getElem_mem _)
  unfold used
  rw [hr]
  cases inc
  · dsimp only
    rw [range_map (pre ++ w :: post) (pre.length + 1) _ (by omega) _ (fun i => by rw [Nat.add_assoc])]
    simp
  · dsimp only
    rw [range_map (pre ++ w :: post) pre.length _ (by omega) _ (fun i => rfl)]
    simp

theorem forced_none (fb : Nat → Option Bool) (ctx : List Nat) (h : ∀ x ∈ ctx, fb x = none) : used fb ctx = ctx := by
  have hr : recent fb ctx ctx.length = none := by
    have := recent_skip (fb := fb) ctx 0 ctx.length (fun i _ h2 => by
      rw [List.getElem?_eq_getElem (by omega)]
      exact h _ (List.getElem_mem _))
    rw [Nat.zero_add] at this
    exact this
  unfold used
  rw [hr]
  dsimp only
  exact range_map ctx 0 _ (by omega) _ (fun i => rfl)

example : used (fun w => if w = 7 then some false else if w = 8 then some true else none) [8, 1, 7, 2, 3] = [2, 3] ∧
    used (fun w => if w = 7 then some false else if w = 8 then some true else none) [7, 1, 8, 2, 3] = [8, 2, 3] := by decide +kernel

end Verif.Bo
