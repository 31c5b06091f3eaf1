import Verif.ArabNorm.Lemmas
/-!
# What is proved of the filters for Arabic transcripts (C257 to C262)
-/
set_option autoImplicit false
namespace Verif.ArabNorm

/-! ## C257: initial alef -/

/-- For words separated by spaces, hamzaNorm gives the text of the same words with bare alef for an initial alef with madda or hamza. -/
theorem hamza_words_partial (ws : List Text) (hn : ws ≠ []) (h : ∀ w ∈ ws, 32 ∉ w) : hamza (joinW ws) = joinW (ws.map bareAlef) := by
  unfold hamza
  rw [joinW_blocks ws hn, alefs_blocks ws h, ← joinW_blocks _ (by simpa using hn)]
  simp [dropSpace]

/-- A word after a tab, or an optionally deletable word, is left alone. -/
theorem hamza_tab_paren :
    hamza [0x628, 9, 0x623, 0x628] = [0x628, 9, 0x623, 0x628] ∧ hamza [0x628, 32, 40, 0x623, 0x628, 41] = [0x628, 32, 40, 0x623, 0x628, 41] := by
  decide

example : hamza [0x623, 0x628, 32, 0x628, 0x623, 32, 32, 0x622] = [0x627, 0x628, 32, 0x628, 0x623, 32, 32, 0x627] := by decide

/-! ## C258: what hamzaNorm leaves alone -/

theorem bareAlef_nosp {w : Text} (h : 32 ∉ w) : 32 ∉ bareAlef w := by
  cases w with
  | nil => exact h
  | cons c w =>
    rw [bareAlef]
    split
    · intro hm
      rcases List.mem_cons.1 hm with e | hm
      · omega
      · exact h (by simp [hm])
    · exact h

theorem bareAlef_idem (w : Text) : bareAlef (bareAlef w) = bareAlef w := by
  cases w with
  | nil => rfl
  | cons c w =>
    by_cases h : c ∈ [0x622, 0x623, 0x625]
    · simp only [bareAlef, if_pos h]; rw [if_neg (by decide)]
    · simp only [bareAlef, if_neg h]

theorem alefs_getElem (t : Text) : (alefs t).length = t.length ∧
    ∀ i : Nat, (alefs t)[i]? = t[i]? ∨ ((∃ c ∈ [0x622, 0x623, 0x625, 0x627], t[i]? = some c) ∧ (alefs t)[i]? = some 0x627) := by
  fun_induction alefs t with
  | case1 => exact ⟨rfl, fun _ => Or.inl rfl⟩
  | case2 => exact ⟨rfl, fun _ => Or.inl rfl⟩
  | case3 c d l h ih =>
    simp only [Bool.and_eq_true, beq_iff_eq] at h
    refine ⟨by simp [ih.1], fun i => ?_⟩
    match i with
    | 0 => exact Or.inl (by simp [h.1])
    | 1 =>
      refine Or.inr ⟨⟨d, ?_, rfl⟩, rfl⟩
      have := h.2
      simp only [isAlef, Bool.or_eq_true, beq_iff_eq, or_assoc] at this
      simpa using this
    | i + 2 => simpa using ih.2 i
  | case4 c d l h ih =>
    refine ⟨by simp [ih.1], fun i => ?_⟩
    match i with
    | 0 => exact Or.inl rfl
    | i + 1 => simpa using ih.2 i

/-- The text keeps its length; every character is left as it is or was a form of alef and is bare alef now; and doing it again changes
nothing. -/
theorem hamza_frame (t : Text) :
    (hamza t).length = t.length ∧
    (∀ i : Nat, (hamza t)[i]? = t[i]? ∨ ((∃ c ∈ [0x622, 0x623, 0x625, 0x627], t[i]? = some c) ∧ (hamza t)[i]? = some 0x627)) ∧
    hamza (hamza t) = hamza t := by
  have h := alefs_getElem (32 :: t)
  have e : alefs (32 :: t) = 32 :: hamza t := by
    obtain ⟨ws, h1, h2, rfl⟩ := words_exist t
    rw [hamza_words_partial ws h1 h2, joinW_blocks ws h1, alefs_blocks ws h2, ← joinW_blocks _ (by simpa using h1)]
  rw [e] at h
  refine ⟨by simpa using h.1, fun i => ?_, ?_⟩
  · simpa using h.2 (i + 1)
  · obtain ⟨ws, h1, h2, rfl⟩ := words_exist t
    rw [hamza_words_partial ws h1 h2, hamza_words_partial _ (by simpa using h1), List.map_map]
    · congr 1
      apply List.map_congr_left
      intro w _
      exact bareAlef_idem w
    · intro w hw
      obtain ⟨v, hv, rfl⟩ := List.mem_map.1 hw
      exact bareAlef_nosp (h2 v hv)

/-! ## C259: final tanween -/

theorem tanween_words (ws : List Text) (z : Text) (h : ∀ w ∈ ws, 32 ∉ w) (hz : 32 ∉ z) :
    tanween false (joinW (ws ++ [z])) = joinW (ws.map (fun w => stripT (stripP w)) ++ [stripP (stripT z)]) := by
  unfold tanween
  have hp : ∀ w ∈ ws.map stripP, 32 ∉ w := by
    intro w hw
    obtain ⟨v, hv, rfl⟩ := List.mem_map.1 hw
    exact stripP_nosp (h v hv)
  have hz' := stripP_nosp (stripT_nosp hz)
  rw [joinW_blocks _ (by simp)]
  simp only [Bool.false_eq_true, if_false]
  rw [tanEnd_blocks, tanParEnd_blocks, tanPar_blocks ws _ h hz', tanSp_blocks _ _ hp hz', List.map_map,
    ← joinW_blocks _ (by simp)]
  simp [dropSpace, Function.comp_def]

theorem stripTP_cut (w : Text) : Cut w (stripT (stripP w)) := by
  by_cases h1 : ∃ v c, Tan c ∧ w = v ++ [c, 41]
  · obtain ⟨v, c, hc, rfl⟩ := h1
    rw [stripP_tan v hc, stripT_other]
    · exact Or.inr (Or.inl ⟨v, c, hc, rfl, rfl⟩)
    · rintro ⟨u, d, hd, e⟩
      have := (List.append_inj' e rfl).2
      injection this with h1
      exact (tan_ne_space hd).2 h1.symm
  · rw [stripP_other h1]
    by_cases h2 : ∃ v c, Tan c ∧ w = v ++ [c]
    · obtain ⟨v, c, hc, rfl⟩ := h2
      rw [stripT_tan v hc]
      exact Or.inl ⟨v, c, hc, rfl, rfl⟩
    · rw [stripT_other h2]
      refine Or.inr (Or.inr ⟨?_, rfl⟩)
      rintro ⟨v, c, hc, e | e⟩
      · exact h2 ⟨v, c, hc, e⟩
      · exact h1 ⟨v, c, hc, e⟩

theorem stripPT_cut (w : Text) (h : ¬ EndsTwice w) : Cut w (stripP (stripT w)) := by
  by_cases h2 : ∃ v c, Tan c ∧ w = v ++ [c]
  · obtain ⟨v, c, hc, rfl⟩ := h2
    rw [stripT_tan v hc, stripP_other]
    · exact Or.inl ⟨v, c, hc, rfl, rfl⟩
    · rintro ⟨u, d, hd, rfl⟩
      exact h ⟨u, d, c, hd, hc, Or.inr (Or.inr (by simp))⟩
  · rw [stripT_other h2]
    by_cases h1 : ∃ v c, Tan c ∧ w = v ++ [c, 41]
    · obtain ⟨v, c, hc, rfl⟩ := h1
      rw [stripP_tan v hc]
      exact Or.inr (Or.inl ⟨v, c, hc, rfl, rfl⟩)
    · rw [stripP_other h1]
      refine Or.inr (Or.inr ⟨?_, rfl⟩)
      rintro ⟨v, c, hc, e | e⟩
      · exact h2 ⟨v, c, hc, e⟩
      · exact h1 ⟨v, c, hc, e⟩

theorem cut_clean {w v : Text} (hc : Cut w v) (h : ¬ EndsTwice w) : ¬ EndsTan v := by
  rintro ⟨u, d, hd, e⟩
  rcases hc with ⟨x, c, hc, rfl, rfl⟩ | ⟨x, c, hc, rfl, rfl⟩ | ⟨hn, rfl⟩
  · rcases e with rfl | rfl
    · exact h ⟨u, d, c, hd, hc, Or.inl (by simp)⟩
    · exact h ⟨u, d, c, hd, hc, Or.inr (Or.inr (by simp))⟩
  · rcases e with e | e
    · have := (List.append_inj' e rfl).2
      injection this with h1
      exact (tan_ne_space hd).2 h1.symm
    · have e' : x ++ [41] = (u ++ [d]) ++ [41] := by rw [e]; simp
      obtain ⟨rfl, _⟩ := List.append_inj' e' rfl
      exact h ⟨u, d, c, hd, hc, Or.inr (Or.inl (by simp))⟩
  · exact hn ⟨u, d, hd, e⟩

/-- For words separated by spaces none of which ends with two tanween, tanweenFilt gives the text of the words without their final
tanween, and no word of it ends with one. -/
theorem tanween_final_partial (ws : List Text) (hn : ws ≠ []) (h : ∀ w ∈ ws, 32 ∉ w) (h2 : ∀ w ∈ ws, ¬ EndsTwice w) :
    ∃ vs, tanween false (joinW ws) = joinW vs ∧ vs.length = ws.length ∧ (∀ p ∈ ws.zip vs, Cut p.1 p.2) ∧ ∀ v ∈ vs, ¬ EndsTan v := by
  obtain ⟨us, z, rfl⟩ : ∃ us z, ws = us ++ [z] := ⟨_, _, (List.dropLast_concat_getLast hn).symm⟩
  have hz : z ∈ us ++ [z] := by simp
  refine ⟨us.map (fun w => stripT (stripP w)) ++ [stripP (stripT z)],
    tanween_words us z (fun w hw => h w (by simp [hw])) (h z hz), by simp, ?_, ?_⟩
  · intro p hp
    rw [List.zip_append (by simp)] at hp
    rcases List.mem_append.1 hp with hp | hp
    · rw [List.zip_map_right, List.mem_map] at hp
      obtain ⟨q, hq, rfl⟩ := hp
      have : q.1 = q.2 := by
        obtain ⟨i, hi, e⟩ := List.getElem_of_mem hq
        rw [← e]; simp
      show Cut q.1 (stripT (stripP q.2))
      rw [← this]
      exact stripTP_cut _
    · simp only [List.zip_cons_cons, List.zip_nil_left, List.mem_singleton] at hp
      subst hp
      exact stripPT_cut z (h2 z hz)
  · intro v hv
    rcases List.mem_append.1 hv with hv | hv
    · obtain ⟨w, hw, rfl⟩ := List.mem_map.1 hv
      exact cut_clean (stripTP_cut w) (h2 w (by simp [hw]))
    · rw [List.mem_singleton] at hv
      subst hv
      exact cut_clean (stripPT_cut z (h2 z hz)) (h2 z hz)

/-- Of two final tanween one is left, and so a second run changes the text again; before a tab none is removed. -/
theorem tanween_twice :
    tanween false [0x628, 0x64B, 0x64B, 32, 0x628] = [0x628, 0x64B, 32, 0x628] ∧
    tanween false [0x628, 0x64B, 32, 0x628] = [0x628, 32, 0x628] ∧
    tanween false [0x628, 0x64B, 9, 0x628] = [0x628, 0x64B, 9, 0x628] := by
  decide

example : tanween false [0x628, 0x64B, 0x628, 0x64C, 32, 40, 0x628, 0x64D, 41, 32, 0x628, 0x64B] =
    [0x628, 0x64B, 0x628, 32, 40, 0x628, 41, 32, 0x628] := by decide

/-! ## C260: all tanween -/

/-- With -a, the text is the input without its tanween. -/
theorem tanween_all (t : Text) :
    (∀ c ∈ tanween true t, ¬ Tan c) ∧ (tanween true t).Sublist t ∧ (∀ c, ¬ Tan c → (tanween true t).count c = t.count c) := by
  have e : tanween true t = t.filter (fun c => !isTan c) := by
    unfold tanween
    simp only [if_true]
    rw [List.filter_cons_of_pos (by decide)]
    simp [dropSpace]
  rw [e]
  refine ⟨fun c hc => ?_, List.filter_sublist, fun c hc => ?_⟩
  · have := (List.mem_filter.1 hc).2
    rw [← isTan_iff]
    simpa using this
  · rw [List.count_filter]
    rw [← isTan_iff] at hc
    simpa using hc

example : tanween true [0x628, 0x64B, 0x628, 0x64C, 0x64C, 32] = [0x628, 0x628, 32] := by decide

/-! ## C261: columns -/

theorem notComment {t : Text} (h : ¬ Comment t) : isComment t = false := by
  cases hc : isComment t
  · rfl
  · exact absurd ((isComment_iff t).1 hc) h

theorem lead_split {lead b : Text} (hl : ∀ c ∈ lead, Ws c) (hb : ∀ c ∈ b.head?, ¬ Ws c) :
    (lead ++ b).takeWhile isWs = lead ∧ (lead ++ b).dropWhile isWs = b :=
  takeWhile_pre (fun c hc => (isWs_iff c).2 (hl c hc)) (fun c hc => by have := hb c hc; rw [← isWs_iff] at this; simpa using this)

theorem glue_head {cs : List (Text × Text)} {r : Text} (hc : Cols cs) (hr : ∀ c ∈ r.head?, ¬ Ws c) : ∀ c ∈ (glue cs r).head?, ¬ Ws c := by
  cases cs with
  | nil => simpa [glue] using hr
  | cons q cs =>
    have hq := hc q (by simp)
    intro c hcm
    cases hq1 : q.1 with
    | nil => exact absurd hq1 hq.1
    | cons x w =>
      have : glue (q :: cs) r = x :: (w ++ q.2 ++ glue cs r) := by simp [glue, hq1]
      rw [this] at hcm
      simp only [List.head?_cons, Option.mem_some_iff] at hcm
      subst hcm
      exact hq.2.1 x (by simp [hq1])

theorem glue_length {cs : List (Text × Text)} {r : Text} (hc : Cols cs) : cs.length ≤ (glue cs r).length := by
  induction cs with
  | nil => simp
  | cons p cs ih =>
    have := ih (fun q hq => hc q (by simp [hq]))
    have hp := List.length_pos_iff.2 (hc p (by simp)).1
    have e : glue (p :: cs) r = p.1 ++ p.2 ++ glue cs r := by simp [glue]
    rw [e]
    simp only [List.length_append, List.length_cons]
    omega

theorem ctmLine_fields {norm : Text → Text} {lead : Text} {cs : List (Text × Text)} {r : Text} (hl : ∀ c ∈ lead, Ws c)
    (hc : Cols cs) (hr : ∀ c ∈ r.head?, ¬ Ws c) (hcom : ¬ Comment (lead ++ glue cs r)) :
    ctmLine norm (lead ++ glue cs r) = lead ++ (changeAt norm 8 (cs.flatMap (fun p => [p.1, p.2]) ++ fields ((glue cs r).length + 2 - cs.length) r)).flatten := by
  have hh := lead_split hl (glue_head hc hr)
  unfold ctmLine
  simp only [notComment hcom, Bool.false_eq_true, if_false]
  rw [hh.1, hh.2, fields_cols cs ((glue cs r).length + 1) r hc hr (by have := glue_length (r := r) hc; omega)]

/-- In a line of a CTM file the fifth column is changed and nothing else, white space included. -/
theorem ctmLine_fifth (norm : Text → Text) {lead w rest : Text} {cs : List (Text × Text)} (hl : ∀ c ∈ lead, Ws c)
    (hc : Cols cs) (h4 : cs.length = 4) (hw : w ≠ []) (hw' : ∀ c ∈ w, ¬ Ws c) (hrest : ∀ c ∈ rest.head?, Ws c)
    (hcom : ¬ Comment (lead ++ glue cs (w ++ rest))) :
    ctmLine norm (lead ++ glue cs (w ++ rest)) = lead ++ glue cs (norm w ++ rest) := by
  have hr : ∀ c ∈ (w ++ rest).head?, ¬ Ws c := by
    intro c hcm
    cases w with
    | nil => exact absurd rfl hw
    | cons x w => simp only [List.cons_append, List.head?_cons, Option.mem_some_iff] at hcm; subst hcm; exact hw' x (by simp)
  rw [ctmLine_fields hl hc hr hcom, changeAt_append norm _ _ 8 (by rw [flatMap_pair_length, h4])]
  have hlen := glue_length (cs := cs) (r := w ++ rest) hc
  obtain ⟨n, hn⟩ : ∃ n, (glue cs (w ++ rest)).length + 2 - cs.length = n + 2 := ⟨(glue cs (w ++ rest)).length - cs.length, by omega⟩
  rw [hn]
  have hf : ∃ l, fields (n + 2) (w ++ rest) = w :: l ∧ l.flatten = rest := by
    have h1 := takeWhile_pre (p := fun c => !isWs c) (a := w) (b := rest)
      (fun c hc => by have := hw' c hc; rw [← isWs_iff] at this; simpa using this)
      (fun c hcm => by simp [(isWs_iff c).2 (hrest c hcm)])
    rw [fields, h1.1, h1.2]
    cases rest with
    | nil => exact ⟨[], rfl, rfl⟩
    | cons d r =>
      refine ⟨_, rfl, ?_⟩
      rw [List.flatten_cons, fields_flatten, List.takeWhile_append_dropWhile]
  obtain ⟨l, hf1, hf2⟩ := hf
  rw [hf1]
  simp only [changeAt, List.flatten_append, List.flatten_cons, hf2, flatMap_pair_flatten, glue]

/-- A line of a CTM file with fewer than five columns, or a comment, is not changed. -/
theorem ctmLine_other {norm : Text → Text} (h0 : norm [] = []) {lead w : Text} {cs : List (Text × Text)} :
    (Comment lead → ctmLine norm lead = lead) ∧
    ((∀ c ∈ lead, Ws c) → Cols cs → (∀ c ∈ w, ¬ Ws c) → cs.length < 4 ∨ (cs.length = 4 ∧ w = []) → ctmLine norm (lead ++ glue cs w) = lead ++ glue cs w) := by
  refine ⟨fun h => by rw [ctmLine, if_pos ((isComment_iff _).2 h)], fun hl hc hw hlen => ?_⟩
  by_cases hcom : Comment (lead ++ glue cs w)
  · rw [ctmLine, if_pos ((isComment_iff _).2 hcom)]
  · have hr : ∀ c ∈ w.head?, ¬ Ws c := by
      intro c hcm
      cases w with
      | nil => simp at hcm
      | cons x w => simp only [List.head?_cons, Option.mem_some_iff] at hcm; subst hcm; exact hw x (by simp)
    rw [ctmLine_fields hl hc hr hcom, fields_word _ hw]
    rcases hlen with hlen | ⟨hlen, rfl⟩
    · rw [changeAt_short _ _ _ (by rw [List.length_append, flatMap_pair_length]; simp; omega)]
      simp [flatMap_pair_flatten, glue]
    · rw [changeAt_append norm _ _ 8 (by rw [flatMap_pair_length, hlen])]
      simp [changeAt, h0, flatMap_pair_flatten, glue]

theorem stmLine_fields {norm : Text → Text} {lead : Text} {cs : List (Text × Text)} {r : Text} (hl : ∀ c ∈ lead, Ws c)
    (hc : Cols cs) (h5 : cs.length = 5) (hr : ∀ c ∈ r.head?, ¬ Ws c) (hcom : ¬ Comment (lead ++ glue cs r)) :
    stmLine norm (lead ++ glue cs r) = lead ++ glue cs (stmRest norm (fields 2 r)) := by
  have hh := lead_split hl (glue_head hc hr)
  have hlen : (cs.flatMap (fun p => [p.1, p.2])).length = 10 := by rw [flatMap_pair_length, h5]
  unfold stmLine
  simp only [notComment hcom, Bool.false_eq_true, if_false]
  rw [hh.1, hh.2, fields_cols cs 6 r hc hr (by omega), h5, List.take_left' hlen, List.drop_left' hlen, flatMap_pair_flatten]
  rfl

/-- In a line of an STM file the text after the label is changed and nothing else; without a label, all that follows the fifth column. -/
theorem stmLine_text (norm : Text → Text) {lead lab s txt : Text} {cs : List (Text × Text)} (hl : ∀ c ∈ lead, Ws c)
    (hc : Cols cs) (h5 : cs.length = 5) (hw : lab ≠ []) (hw' : ∀ c ∈ lab, ¬ Ws c) (hs : s ≠ []) (hs' : ∀ c ∈ s, Ws c) (ht : ∀ c ∈ txt.head?, ¬ Ws c)
    (hcom : ¬ Comment (lead ++ glue cs (lab ++ s ++ txt))) :
    (Label lab → stmLine norm (lead ++ glue cs (lab ++ s ++ txt)) = lead ++ glue cs (lab ++ s ++ norm txt)) ∧
    (¬ Label lab → stmLine norm (lead ++ glue cs (lab ++ s ++ txt)) = lead ++ glue cs (norm (lab ++ s ++ txt))) := by
  have hr : ∀ c ∈ (lab ++ s ++ txt).head?, ¬ Ws c := by
    intro c hcm
    cases lab with
    | nil => exact absurd rfl hw
    | cons x w => simp only [List.cons_append, List.head?_cons, Option.mem_some_iff] at hcm; subst hcm; exact hw' x (by simp)
  rw [stmLine_fields hl hc h5 hr hcom, fields_step 0 hw' hs hs' ht]
  constructor
  · intro hlab; simp only [fields, stmRest, if_pos ((isLabel_iff lab).2 hlab)]
  · intro hlab; simp only [fields, stmRest, if_neg (fun e => hlab ((isLabel_iff lab).1 e))]

/-- A record whose text is one word, and one with a label only. -/
theorem stmLine_word {norm : Text → Text} (h0 : norm [] = []) {lead w : Text} {cs : List (Text × Text)} (hl : ∀ c ∈ lead, Ws c)
    (hc : Cols cs) (h5 : cs.length = 5) (hw' : ∀ c ∈ w, ¬ Ws c) (hcom : ¬ Comment (lead ++ glue cs w)) :
    (Label w → stmLine norm (lead ++ glue cs w) = lead ++ glue cs w) ∧ (¬ Label w → stmLine norm (lead ++ glue cs w) = lead ++ glue cs (norm w)) := by
  have hr : ∀ c ∈ w.head?, ¬ Ws c := by
    intro c hcm
    cases w with
    | nil => simp at hcm
    | cons x w => simp only [List.head?_cons, Option.mem_some_iff] at hcm; subst hcm; exact hw' x (by simp)
  rw [stmLine_fields hl hc h5 hr hcom, fields_word _ hw']
  constructor
  · intro hlab; simp only [stmRest, if_pos ((isLabel_iff w).2 hlab), h0, List.append_nil]
  · intro hlab; simp only [stmRest, if_neg (fun e => hlab ((isLabel_iff w).1 e))]

theorem stmLine_comment (norm : Text → Text) {t : Text} (h : Comment t) : stmLine norm t = t := by
  rw [stmLine, if_pos ((isComment_iff _).2 h)]

/-- Both filters leave an empty text empty, and without -i they treat lines as text. -/
theorem filters_default (t : Text) : hamza [] = [] ∧ tanween false [] = [] ∧ tanween true [] = [] ∧
    filterLine hamza none t = hamza t ∧ filterLine (tanween false) none t = tanween false t := by
  refine ⟨by decide, by decide, by decide, rfl, rfl⟩

example : ctmLine hamza [32, 97, 9, 49, 32, 48, 32, 49, 32, 0x623, 0x628, 32, 0x623] = [32, 97, 9, 49, 32, 48, 32, 49, 32, 0x627, 0x628, 32, 0x623] := by
  decide

example : stmLine hamza [97, 32, 49, 32, 98, 32, 48, 32, 49, 32, 60, 111, 62, 32, 32, 0x623, 32, 0x625] =
    [97, 32, 49, 32, 98, 32, 48, 32, 49, 32, 60, 111, 62, 32, 32, 0x627, 32, 0x627] := by decide

/-! ## C262: the default format of def_art -/

/-- With -i txt, def_art writes a line for every line. -/
theorem defArt_txt_partial (lu : Text → Text) (ctm stm : Text → List Text) (t : Text) : defArt lu ctm stm (some .txt) t = [lu t] := rfl

/-- Without -i, which the manual says means txt, def_art writes nothing at all. -/
theorem defArt_default_nothing (lu : Text → Text) (ctm stm : Text → List Text) (ls : List Text) : ls.flatMap (defArt lu ctm stm none) = [] := by
  induction ls with
  | nil => rfl
  | cons t ls ih => rw [List.flatMap_cons, ih]; rfl

end Verif.ArabNorm
