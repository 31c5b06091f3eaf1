import Verif.Acomp.Lemmas
/-!
# Lemmas on the splitting of text, the lexicon and the table of expansions
-/
set_option autoImplicit false
namespace Verif.Acomp

/-! ## Words and texts -/

theorem isWs_iff (c : Nat) : isWs c = true ↔ Ws c := by
  simp only [isWs, Bool.or_eq_true, beq_iff_eq, Bool.and_eq_true, decide_eq_true_eq, Ws]

theorem word_ws {w : Text} (h : IsWord w) : ∀ c ∈ w, isWs c = false := by
  intro c hc
  cases e : isWs c
  · rfl
  · exact absurd ((isWs_iff c).1 e) (h.2 c hc)

theorem parts_other {p : Nat → Bool} {c : Nat} {cs : Text} (h : p c = false) :
    parts p (c :: cs) = match parts p cs with
      | [] => [[c]]
      | w :: ws => (c :: w) :: ws := by
  rw [parts.eq_def]
  simp only [h, Bool.false_eq_true, if_false]
  cases parts p cs <;> rfl

theorem parts_word {w : Text} (h : ∀ c ∈ w, isWs c = false) : parts isWs w = [w] := by
  induction w with
  | nil => rfl
  | cons c w ih =>
    rw [parts_other (h c (by simp)), ih (fun x hx => h x (by simp [hx]))]

theorem parts_sp {w t : Text} {c : Nat} (h : ∀ c ∈ w, isWs c = false) (hc : isWs c = false) :
    parts isWs (w ++ 32 :: c :: t) = w :: parts isWs (c :: t) := by
  induction w with
  | nil =>
    rw [List.nil_append, parts]
    simp only [show isWs 32 = true from rfl, if_true, hc, Bool.false_eq_true, if_false]
  | cons a w ih =>
    rw [List.cons_append, parts_other (h a (by simp)), ih (fun x hx => h x (by simp [hx]))]

theorem dropEnd_words {ws : List Text} (h : ∀ w ∈ ws, w ≠ []) : dropEnd ws = ws := by
  induction ws with
  | nil => rfl
  | cons w ws ih =>
    rw [dropEnd, ih (fun x hx => h x (by simp [hx]))]
    cases ws with
    | nil => simp [h w (by simp)]
    | cons v vs => rfl

theorem join_head {w : Text} {ws : List Text} : ∃ t, join (w :: ws) = w ++ t := by
  cases ws with
  | nil => exact ⟨[], by simp [join]⟩
  | cons v ws => exact ⟨32 :: join (v :: ws), rfl⟩

theorem parts_join {ws : List Text} (hn : ws ≠ []) (h : ∀ w ∈ ws, IsWord w) : parts isWs (join ws) = ws := by
  induction ws with
  | nil => exact absurd rfl hn
  | cons w ws ih =>
    cases ws with
    | nil => exact parts_word (word_ws (h w (by simp)))
    | cons v vs =>
      have hv := h v (by simp)
      obtain ⟨t, ht⟩ := @join_head v vs
      obtain ⟨c, u, rfl⟩ : ∃ c u, v = c :: u := by
        cases v with
        | nil => exact absurd rfl hv.1
        | cons c u => exact ⟨c, u, rfl⟩
      have := ih (by simp) (fun x hx => h x (by simp at hx ⊢; exact .inr hx))
      rw [join, ht] at *
      rw [List.cons_append, parts_sp (word_ws (h w (by simp))) (word_ws hv c (by simp))]
      rw [List.cons_append] at this
      rw [this]

theorem split_join {ws : List Text} (h : ∀ w ∈ ws, IsWord w) : split (join ws) = ws := by
  by_cases hn : ws = []
  · subst hn; rfl
  · rw [split, parts_join hn h, dropEnd_words (fun w hw => (h w hw).1)]

theorem split_word {w : Text} (h : IsWord w) : split w = [w] :=
  split_join (ws := [w]) (by simpa using h)

theorem up_ws (c : Nat) : Ws (up c) ↔ Ws c := by
  unfold up Ws
  split
  · omega
  · split <;> omega

theorem up_word {w : Text} (h : IsWord w) : IsWord (w.map up) := by
  refine ⟨by simpa using h.1, fun c hc => ?_⟩
  obtain ⟨a, ha, rfl⟩ := List.mem_map.1 hc
  rw [up_ws]
  exact h.2 a ha

theorem up_id {w : Text} (h : Caps w) : w.map up = w := by
  induction w with
  | nil => rfl
  | cons c w ih =>
    have := h c (by simp)
    rw [List.map_cons, ih (fun x hx => h x (by simp [hx]))]
    simp [up, this]

/-! ## Chains -/

theorem chain_words {o : Opts} {d : Dict} (hm : 1 ≤ o.min) {w : Text} {ps : List Text} (h : Ch o d w ps) (hw : IsWord w) :
    ps ≠ [] ∧ ∀ p ∈ ps, IsWord p := by
  induction h with
  | one w _ => exact ⟨by simp, by simpa using hw⟩
  | cons p l r ps _ _ h3 _ h5 _ ih =>
    have hr : IsWord r := ⟨List.length_pos_iff.1 (by omega), fun c hc => hw.2 c (by simp [hc])⟩
    refine ⟨by simp, fun q hq => ?_⟩
    rcases List.mem_cons.1 hq with rfl | hq
    · exact ⟨List.length_pos_iff.1 (by omega), fun c hc => hw.2 c (by simp [hc])⟩
    · exact (ih hr).2 q hq

theorem expansions_spec {o : Opts} {d : Dict} (hm : 1 ≤ o.min) {t : Text} (hc : Caps t) :
    (∃ p ps, Ch o d t (p :: ps) ∧ expansions o d t = some [p :: ps] ∧ ∀ q qs, Ch o d t (q :: qs) → q.length ≤ p.length) ∨
      ((∀ ps, ¬ Ch o d t ps) ∧ expansions o d t = some []) := by
  unfold expansions
  rcases isCompound_spec (d := d) hm (t.length + 1) [] t [] (by omega) hc with ⟨p, ps, h1, h2, h3⟩ | ⟨h1, h2⟩
  · exact .inl ⟨p, ps, h1, by rw [h2]; rfl, h3⟩
  · exact .inr ⟨h1, by rw [h2]; rfl⟩

theorem fragLoop_spec {o : Opts} {d : Dict} (hm : 1 ≤ o.min) {t : Text} (hc : Caps t) (i : Nat) :
    (∃ j p ps, o.min ≤ j ∧ j ≤ i ∧ Ch o d (t.take j) (p :: ps) ∧ fragLoop o d t i = some [p :: ps ++ [t.drop j]]) ∨
      fragLoop o d t i = some [] := by
  induction i with
  | zero => exact .inr (by simp [fragLoop]; omega)
  | succ i ih =>
    rw [fragLoop]
    by_cases h : i + 1 < o.min
    · exact .inr (by simp [h])
    · simp only [h, if_false]
      rcases expansions_spec (d := d) hm (caps_take hc (i + 1)) with ⟨p, ps, h1, h2, _⟩ | ⟨_, h2⟩
      · exact .inl ⟨i + 1, p, ps, by omega, Nat.le_refl _, h1, by rw [h2]; rfl⟩
      · rw [h2]
        dsimp only
        rcases ih with ⟨j, p, ps, g1, g2, g3, g4⟩ | g
        · exact .inl ⟨j, p, ps, g1, by omega, g3, g4⟩
        · exact .inr g

theorem search_spec {o : Opts} {d : Dict} (hm : 1 ≤ o.min) {t : Text} (hc : Caps t) :
    ∃ es, search o d t = some es ∧ es.length ≤ 1 := by
  unfold search
  split
  · split
    · rcases fragLoop_spec (d := d) hm hc (t.length - 2) with ⟨_, _, _, _, _, _, h⟩ | h
      · exact ⟨_, h, by simp⟩
      · exact ⟨_, h, by simp⟩
    · exact ⟨_, rfl, by simp⟩
  · rcases expansions_spec (d := d) hm hc with ⟨_, _, _, h, _⟩ | ⟨_, h⟩
    · exact ⟨_, h, by simp⟩
    · exact ⟨_, h, by simp⟩

/-! ## Searches that look at the same -/

theorem tryAt_congr {o o' : Opts} {d d' : Dict} {r r' : List Text → Text → List (List Text) → Found} {val : Text} (hc : Caps val)
    (hm : o.min = o'.min) (hi : o.inserts = o'.inserts) (hl : ∀ x, x ∈ d.lex ↔ x ∈ d'.lex)
    (hr : ∀ h v c, Caps v → r h v c = r' h v c) (hist : List Text) (i : Nat) (comps : List (List Text)) :
    tryAt r o d hist val i comps = tryAt r' o' d' hist val i comps := by
  rw [tryAt_eq _ _ _ _ _ _ _ hc, tryAt_eq _ _ _ _ _ _ _ hc, ← hm, ← hi]
  have hcd := caps_drop hc i
  rw [hr _ _ _ hcd]
  by_cases h : val.take i ∈ d.lex
  · simp only [h, (hl _).1 h, if_true]
    split
    · rfl
    · rfl
    · split
      · rfl
      · rename_i v hv
        have : skip (val.drop i) = some v := by
          cases e : o.inserts <;> rw [e] at hv
          · cases hv
          · exact hv
        obtain ⟨l, _, _, g⟩ := (skip_iff hcd v).1 this
        rw [hr _ v _ (caps_of_subset hcd (fun c hc => by rw [g]; exact List.mem_append_right _ hc))]
  · rw [if_neg h, if_neg (fun g => h ((hl _).2 g))]

theorem loop_congr {o o' : Opts} {d d' : Dict} {r r' : List Text → Text → List (List Text) → Found} {val : Text} (hc : Caps val)
    (hm : o.min = o'.min) (hi : o.inserts = o'.inserts) (hl : ∀ x, x ∈ d.lex ↔ x ∈ d'.lex)
    (hr : ∀ h v c, Caps v → r h v c = r' h v c) (hist : List Text) (i : Nat) (comps : List (List Text)) :
    loop r o d hist val i comps = loop r' o' d' hist val i comps := by
  induction i generalizing comps with
  | zero => rw [loop, loop, tryAt_congr hc hm hi hl hr, hm]
  | succ i ih =>
    rw [loop, loop, tryAt_congr hc hm hi hl hr, hm]
    split
    · rfl
    · split
      · exact ih _
      · rfl

theorem isCompound_congr {o o' : Opts} {d d' : Dict} (hm : o.min = o'.min) (hi : o.inserts = o'.inserts)
    (hl : ∀ x, x ∈ d.lex ↔ x ∈ d'.lex) (hk : d.maxLen = d'.maxLen) (f : Nat) (hist : List Text) (val : Text) (comps : List (List Text))
    (hc : Caps val) : isCompound o d f hist val comps = isCompound o' d' f hist val comps := by
  induction f generalizing hist val comps with
  | zero => rfl
  | succ f ih =>
    rw [isCompound, isCompound, hk, loop_congr hc hm hi hl (fun h v c hv => ih h v c hv)]
    have : d.lex.contains val = d'.lex.contains val := by
      rw [Bool.eq_iff_iff, List.contains_iff_mem, List.contains_iff_mem, hl]
    rw [this]

theorem expansions_congr {o o' : Opts} {d d' : Dict} (hm : o.min = o'.min) (hi : o.inserts = o'.inserts)
    (hl : ∀ x, x ∈ d.lex ↔ x ∈ d'.lex) (hk : d.maxLen = d'.maxLen) (t : Text) (hc : Caps t) : expansions o d t = expansions o' d' t := by
  rw [expansions, expansions, isCompound_congr hm hi hl hk _ _ _ _ hc]

theorem search_congr {o o' : Opts} {d d' : Dict} (hm : o.min = o'.min) (hi : o.inserts = o'.inserts) (hf : o.frag = o'.frag)
    (hl : ∀ x, x ∈ d.lex ↔ x ∈ d'.lex) (hk : d.maxLen = d'.maxLen) (t : Text) (hc : Caps t) : search o d t = search o' d' t := by
  have fr : ∀ i, fragLoop o d t i = fragLoop o' d' t i := by
    intro i
    induction i with
    | zero => rw [fragLoop, fragLoop, hm, expansions_congr hm hi hl hk _ (caps_take hc 0)]
    | succ i ih => rw [fragLoop, fragLoop, hm, expansions_congr hm hi hl hk _ (caps_take hc (i + 1)), ih]
  rw [search, search, hf, fr, expansions_congr hm hi hl hk _ hc]

/-! ## The lexicon -/

/-- The words an entry lists. -/
def adds (w : Text) : List Text := if w.any isDash then split (join (parts isDash w)) else [w]

/-- The words an entry lists that count for the greatest length. -/
def counts (w : Text) : List Text := if w.any isDash then split (join (parts isDash w)) else []

theorem foldl_parts (xs : List Text) (d : Dict) :
    let d' := xs.foldl (fun d sw => { d with lex := sw :: d.lex, maxLen := if d.maxLen < sw.length then sw.length else d.maxLen }) d
    (∀ x, x ∈ d'.lex ↔ x ∈ d.lex ∨ x ∈ xs) ∧ (∀ k, d'.maxLen ≤ k ↔ d.maxLen ≤ k ∧ ∀ x ∈ xs, x.length ≤ k) := by
  induction xs generalizing d with
  | nil => exact ⟨fun x => by simp, fun k => by simp⟩
  | cons y ys ih =>
    obtain ⟨h1, h2⟩ := ih { d with lex := y :: d.lex, maxLen := if d.maxLen < y.length then y.length else d.maxLen }
    refine ⟨fun x => ?_, fun k => ?_⟩
    · rw [List.foldl_cons, h1 x]
      simp only [List.mem_cons]
      exact ⟨fun h => by rcases h with (h | h) | h <;> simp [h], fun h => by rcases h with h | h | h <;> simp [h]⟩
    · rw [List.foldl_cons, h2 k]
      simp only [List.mem_cons, forall_eq_or_imp]
      constructor
      · rintro ⟨h, g⟩
        refine ⟨?_, ?_, g⟩ <;> (split at h <;> omega)
      · rintro ⟨h, h', g⟩
        exact ⟨by split <;> assumption, g⟩

theorem addWord_spec (d : Dict) (w : Text) :
    (∀ x, x ∈ (addWord d w).lex ↔ x ∈ d.lex ∨ x ∈ adds w) ∧
      (∀ k, (addWord d w).maxLen ≤ k ↔ d.maxLen ≤ k ∧ ∀ x ∈ counts w, x.length ≤ k) := by
  unfold addWord adds counts
  by_cases h : w.any isDash = true
  · obtain ⟨h1, h2⟩ := foldl_parts (split (join (parts isDash w))) d
    simp only [h, if_true]
    split
    · exact ⟨h1, h2⟩
    · exact ⟨h1, h2⟩
  · simp only [h]
    refine ⟨fun x => ?_, fun k => by simp⟩
    simp only [Bool.false_eq_true, if_false, List.mem_cons, List.not_mem_nil, or_false]
    exact Or.comm

theorem load_fold (ws : List Text) (d : Dict) :
    (∀ x, x ∈ (ws.foldl addWord d).lex ↔ x ∈ d.lex ∨ ∃ w ∈ ws, x ∈ adds w) ∧
      (∀ k, (ws.foldl addWord d).maxLen ≤ k ↔ d.maxLen ≤ k ∧ ∀ w ∈ ws, ∀ x ∈ counts w, x.length ≤ k) := by
  induction ws generalizing d with
  | nil => exact ⟨fun x => by simp, fun k => by simp⟩
  | cons w ws ih =>
    obtain ⟨h1, h2⟩ := ih (addWord d w)
    obtain ⟨g1, g2⟩ := addWord_spec d w
    refine ⟨fun x => ?_, fun k => ?_⟩
    · rw [List.foldl_cons, h1, g1]
      simp only [List.mem_cons, exists_eq_or_imp, or_assoc]
    · rw [List.foldl_cons, h2, g2]
      simp only [List.mem_cons, forall_eq_or_imp, and_assoc]

theorem load_lex (ws : List Text) (x : Text) : x ∈ (load ws).lex ↔ ∃ w ∈ ws, x ∈ adds (w.map up) := by
  unfold load
  rw [(load_fold _ _).1]
  simp only [List.not_mem_nil, false_or, List.mem_map]
  exact ⟨fun ⟨_, ⟨a, h, e⟩, g⟩ => ⟨a, h, e ▸ g⟩, fun ⟨a, h, g⟩ => ⟨_, ⟨a, h, rfl⟩, g⟩⟩

theorem load_max (ws : List Text) (k : Nat) : (load ws).maxLen ≤ k ↔ ∀ w ∈ ws, ∀ x ∈ counts (w.map up), x.length ≤ k := by
  unfold load
  rw [(load_fold _ _).2]
  simp

theorem up_dash (c : Nat) : isDash (up c) = isDash c := by
  have : (up c = 45 ↔ c = 45) ∧ (up c = 95 ↔ c = 95) := by
    unfold up
    split
    · omega
    · split <;> omega
  rw [Bool.eq_iff_iff]
  simp only [isDash, Bool.or_eq_true, beq_iff_eq, this]

theorem isParen_false {w : Text} (h : w.head? ≠ some 40) : isParen w = false := by
  unfold isParen
  rw [beq_false_of_ne h]
  simp

theorem endsDash_false {w : Text} (h : w.getLast? ≠ some 45) : endsDash w = false := beq_false_of_ne h

/-! ## The table of expansions -/

/-- A table that has nothing but what would be found without it. -/
def Same (o : Opts) (d0 d : Dict) : Prop :=
  d.lex = d0.lex ∧ d.maxLen = d0.maxLen ∧
    ∀ t, Caps t → d.get t = d0.get t ∨ (d0.get t = [] ∧ ∃ es, search o d0 t = some es ∧ d.get t = render t es)

theorem get_cons (d : Dict) (t u : Text) (x : Text) :
    Dict.get { d with comp := (t, x) :: d.comp } u = if t = u then x else d.get u := by
  unfold Dict.get
  rw [List.find?_cons]
  by_cases h : t = u
  · simp [h]
  · simp only [beq_false_of_ne h, h, if_false]

theorem compLU_same {o : Opts} {d0 d : Dict} (h : Same o d0 d) {t : Text} (hc : Caps t) :
    (compLU o d t = none ∧ compLU o d0 t = none) ∨
      ∃ s d1 d2, compLU o d t = some (s, d1) ∧ compLU o d0 t = some (s, d2) ∧ Same o d0 d1 := by
  obtain ⟨h1, h2, h3⟩ := h
  have hs : search o d t = search o d0 t := search_congr rfl rfl rfl (fun x => by rw [h1]) h2 t hc
  unfold compLU
  by_cases g : d.get t = []
  · have g0 : d0.get t = [] := by
      rcases h3 t hc with e | ⟨e, _⟩
      · rw [← e]; exact g
      · exact e
    simp only [g, g0, ne_eq, not_true_eq_false, if_false, hs]
    cases e : search o d0 t with
    | none => exact .inl ⟨rfl, rfl⟩
    | some es =>
      refine .inr ⟨_, _, _, rfl, rfl, h1, h2, fun u hu => ?_⟩
      rw [get_cons]
      by_cases htu : t = u
      · subst htu
        rw [if_pos rfl]
        exact .inr ⟨g0, es, e, rfl⟩
      · rw [if_neg htu]
        exact h3 u hu
  · simp only [ne_eq, g, not_false_eq_true, if_true]
    rcases h3 t hc with e | ⟨e, es, h4, h5⟩
    · refine .inr ⟨d.get t, d, d0, rfl, ?_, h1, h2, h3⟩
      rw [← e]
      simp [g]
    · refine .inr ⟨d.get t, d, { d0 with comp := (t, render t es) :: d0.comp }, rfl, ?_, h1, h2, h3⟩
      rw [h4, h5]
      simp only [e, not_true_eq_false, if_false, Option.map_some]

theorem wordLU_same {o : Opts} {d0 d : Dict} (h : Same o d0 d) {w : Text} (hc : Caps w) :
    (wordLU o d w = none ∧ wordLU o d0 w = none) ∨
      ∃ s d1 d2, wordLU o d w = some (s, d1) ∧ wordLU o d0 w = some (s, d2) ∧ Same o d0 d1 := by
  have hv : Caps ((w.drop 1).dropLast) := caps_of_subset hc fun c hc => List.mem_of_mem_drop (List.dropLast_subset _ hc)
  unfold wordLU
  dsimp only
  split
  · rcases compLU_same h hv with ⟨h1, h2⟩ | ⟨s, d1, d2, h1, h2, h3⟩
    · rw [h1, h2]
      exact .inl ⟨rfl, rfl⟩
    · rw [h1, h2]
      dsimp only
      right
      split
      · exact ⟨_, _, _, rfl, rfl, h3⟩
      · exact ⟨_, _, _, rfl, rfl, h3⟩
  · rcases compLU_same h hc with ⟨h1, h2⟩ | ⟨s, d1, d2, h1, h2, h3⟩
    · simp [h1, h2]
    · rw [h1, h2]
      exact .inr ⟨_, _, _, rfl, rfl, h3⟩

theorem same_refl (o : Opts) (d : Dict) : Same o d d := ⟨rfl, rfl, fun _ _ => .inl rfl⟩

theorem wordsLU_same {o : Opts} {d0 : Dict} (ws : List Text) {d e : Dict} (h : Same o d0 d) (he : Same o d0 e) (hc : ∀ w ∈ ws, Caps w) :
    (wordsLU o d ws = none ∧ wordsLU o e ws = none) ∨
      ∃ s d1 d2, wordsLU o d ws = some (s, d1) ∧ wordsLU o e ws = some (s, d2) ∧ Same o d0 d1 := by
  induction ws generalizing d e with
  | nil => exact .inr ⟨[], d, e, rfl, rfl, h⟩
  | cons w ws ih =>
    rw [wordsLU, wordsLU]
    rcases wordLU_same h (hc w (by simp)) with ⟨h1, h2⟩ | ⟨s, d1, d2, h1, h2, h3⟩ <;>
      rcases wordLU_same he (hc w (by simp)) with ⟨g1, g2⟩ | ⟨s', e1, e2, g1, g2, g3⟩
    · simp [h1, g1]
    · rw [h2] at g2; cases g2
    · rw [h2] at g2; cases g2
    · rw [h2] at g2
      cases g2
      rw [h1, g1]
      dsimp only
      rcases ih h3 g3 (fun x hx => hc x (by simp [hx])) with ⟨k1, k2⟩ | ⟨y, f1, f2, k1, k2, k3⟩
      · simp [k1, k2]
      · rw [k1, k2]
        exact .inr ⟨_, _, _, rfl, rfl, k3⟩

theorem mem_parts {p : Nat → Bool} {s w : Text} (h : w ∈ parts p s) : ∀ c ∈ w, c ∈ s := by
  fun_induction parts p s generalizing w with
  | case1 => simp at h; simp [h]
  | case2 => simp at h; simp [h]
  | case3 c hc d t hd ih => exact fun x hx => List.mem_cons_of_mem _ (ih h x hx)
  | case4 c hc d t hd ih =>
    rcases List.mem_cons.1 h with rfl | h
    · simp
    · exact fun x hx => List.mem_cons_of_mem _ (ih h x hx)
  | case5 c cs hc e ih => simp at h; simp [h]
  | case6 c cs hc v vs e ih =>
    rw [e] at ih
    rcases List.mem_cons.1 h with rfl | h
    · intro x hx
      rcases List.mem_cons.1 hx with rfl | hx
      · simp
      · exact List.mem_cons_of_mem _ (ih (by simp) x hx)
    · exact fun x hx => List.mem_cons_of_mem _ (ih (by simp [h]) x hx)

theorem mem_dropEnd {ws : List Text} {w : Text} (h : w ∈ dropEnd ws) : w ∈ ws := by
  induction ws with
  | nil => exact h
  | cons v vs ih =>
    rw [dropEnd] at h
    split at h
    · split at h
      · simp at h
      · simp at h; simp [h]
    · rename_i a as e
      rw [e] at ih
      rcases List.mem_cons.1 h with rfl | h
      · simp
      · exact List.mem_cons_of_mem _ (ih h)

theorem split_caps {s : Text} (h : Caps s) : ∀ w ∈ split s, Caps w :=
  fun _ hw => caps_of_subset h (mem_parts (mem_dropEnd hw))

theorem stringLU_same {o : Opts} {d0 d e : Dict} (h : Same o d0 d) (he : Same o d0 e) (s : Text) :
    (stringLU o d s = none ∧ stringLU o e s = none) ∨
      ∃ x d1 d2, stringLU o d s = some (x, d1) ∧ stringLU o e s = some (x, d2) ∧ Same o d0 d1 := by
  unfold stringLU
  rcases wordsLU_same (split (s.map up)) h he (split_caps (up_caps s)) with ⟨h1, h2⟩ | ⟨x, d1, d2, h1, h2, h3⟩
  · simp [h1, h2]
  · rw [h1, h2]
    exact .inr ⟨_, _, _, rfl, rfl, h3⟩

theorem lineLU_same {o : Opts} {d0 d e : Dict} (h : Same o d0 d) (he : Same o d0 e) (l : Text) :
    (lineLU o d l = none ∧ lineLU o e l = none) ∨
      ∃ x d1 d2, lineLU o d l = some (x, d1) ∧ lineLU o e l = some (x, d2) ∧ Same o d0 d1 := by
  unfold lineLU
  split
  · exact .inr ⟨_, _, _, rfl, rfl, h⟩
  · rcases stringLU_same h he l.dropLast with ⟨h1, h2⟩ | ⟨x, d1, d2, h1, h2, h3⟩
    · simp [h1, h2]
    · rw [h1, h2]
      exact .inr ⟨_, _, _, rfl, rfl, h3⟩

end Verif.Acomp
