import Verif.ArabNorm.Spec
set_option autoImplicit false
namespace Verif.ArabNorm

/-! ## Words -/

/-- The words, each after a space. -/
def blocks (ws : List Text) : Text := (ws.map (fun w => 32 :: w)).flatten

theorem blocks_cons (w : Text) (ws : List Text) : blocks (w :: ws) = 32 :: (w ++ blocks ws) := by simp [blocks]

theorem blocks_nil : blocks [] = [] := rfl

theorem blocks_append (ws vs : List Text) : blocks (ws ++ vs) = blocks ws ++ blocks vs := by simp [blocks]

theorem joinW_blocks (ws : List Text) (h : ws ≠ []) : 32 :: joinW ws = blocks ws := by
  induction ws with
  | nil => exact absurd rfl h
  | cons w ws ih =>
    cases ws with
    | nil => simp [joinW, blocks]
    | cons v ws =>
      rw [joinW, blocks_cons, ih (by simp)]

theorem words_exist (t : Text) : ∃ ws, ws ≠ [] ∧ (∀ w ∈ ws, 32 ∉ w) ∧ t = joinW ws := by
  induction t with
  | nil => exact ⟨[[]], by simp, by simp, rfl⟩
  | cons c t ih =>
    obtain ⟨ws, h1, h2, h3⟩ := ih
    by_cases e : c = 32
    · refine ⟨[] :: ws, by simp, ?_, ?_⟩
      · intro w hw
        rcases List.mem_cons.1 hw with rfl | hw
        · simp
        · exact h2 w hw
      · subst e
        cases ws with
        | nil => exact absurd rfl h1
        | cons v ws => simp [joinW, h3]
    · cases ws with
      | nil => exact absurd rfl h1
      | cons w ws =>
        refine ⟨(c :: w) :: ws, by simp, ?_, ?_⟩
        · intro v hv
          rcases List.mem_cons.1 hv with rfl | hv
          · intro hm
            rcases List.mem_cons.1 hm with h | h
            · exact e h.symm
            · exact h2 w (by simp) h
          · exact h2 v (by simp [hv])
        · cases ws with
          | nil => simp [joinW, h3]
          | cons v ws => simp [joinW, h3]

/-! ## Alef -/

theorem alefs_cons {c : Nat} (h : c ≠ 32) (l : Text) : alefs (c :: l) = c :: alefs l := by
  cases l with
  | nil => rfl
  | cons d l => rw [alefs, if_neg]; simp [h]

theorem alefs_word {w : Text} (h : 32 ∉ w) (l : Text) : alefs (w ++ l) = w ++ alefs l := by
  induction w with
  | nil => rfl
  | cons c w ih =>
    rw [List.cons_append, alefs_cons (fun e => h (by simp [e])), ih (fun hm => h (by simp [hm]))]
    rfl

theorem isAlef_bare (d : Nat) (w : Text) : (if isAlef d then 0x627 :: w else d :: w) = bareAlef (d :: w) := by
  unfold isAlef bareAlef
  by_cases h1 : d = 0x622
  · simp [h1]
  · by_cases h2 : d = 0x623
    · simp [h2]
    · by_cases h3 : d = 0x625
      · simp [h3]
      · by_cases h4 : d = 0x627
        · simp [h4]
        · simp [h1, h2, h3, h4]

theorem alefs_blocks (ws : List Text) (h : ∀ w ∈ ws, 32 ∉ w) : alefs (blocks ws) = blocks (ws.map bareAlef) := by
  induction ws with
  | nil => rfl
  | cons w ws ih =>
    have ih' := ih (fun v hv => h v (by simp [hv]))
    rw [blocks_cons, List.map_cons, blocks_cons]
    cases w with
    | nil =>
      rw [List.nil_append]
      show _ = 32 :: ([] ++ _)
      cases ws with
      | nil => rfl
      | cons v ws =>
        rw [← ih', blocks_cons, alefs, if_neg (by decide)]
        rfl
    | cons d w =>
      have hw : 32 ∉ d :: w := h _ (by simp)
      have hw' : 32 ∉ w := fun hm => hw (by simp [hm])
      rw [List.cons_append, alefs]
      rw [← isAlef_bare]
      cases hd : isAlef d
      · rw [if_neg (by simp), ← List.cons_append, alefs_word hw, ih']; simp
      · rw [if_pos (by simp), alefs_word hw', ih']; simp

/-! ## Tanween -/

theorem isTan_iff (c : Nat) : isTan c = true ↔ Tan c := by simp [isTan, Tan, or_assoc]

theorem tan_ne_space {c : Nat} (h : Tan c) : c ≠ 32 ∧ c ≠ 41 := by
  simp only [Tan, List.mem_cons, List.not_mem_nil, or_false] at h; omega

theorem tanEnd_append (l w : Text) (h : w ≠ []) : tanEnd (l ++ w) = l ++ tanEnd w := by
  induction l with
  | nil => rfl
  | cons c l ih =>
    cases hl : l ++ w with
    | nil => simp at hl; exact absurd hl.2 h
    | cons d r => rw [List.cons_append, hl, tanEnd, ← hl, ih]; rfl

theorem tanEnd_tan (v : Text) {c : Nat} (h : Tan c) : tanEnd (v ++ [c]) = v := by
  rw [tanEnd_append v [c] (by simp), tanEnd, if_pos ((isTan_iff c).2 h), List.append_nil]

theorem tanEnd_other (v : Text) {c : Nat} (h : ¬ Tan c) : tanEnd (v ++ [c]) = v ++ [c] := by
  rw [tanEnd_append v [c] (by simp), tanEnd, if_neg (fun e => h ((isTan_iff c).1 e))]

theorem tanParEnd_append (l : Text) (c d : Nat) : tanParEnd (l ++ [c, d]) = l ++ tanParEnd [c, d] := by
  induction l with
  | nil => rfl
  | cons b l ih =>
    cases l with
    | nil => rfl
    | cons e l =>
      cases hl : l ++ [c, d] with
      | nil => simp at hl
      | cons f r =>
        have step : tanParEnd (b :: e :: f :: r) = b :: tanParEnd (e :: f :: r) := by rw [tanParEnd]
        have ih' : tanParEnd (e :: f :: r) = e :: l ++ tanParEnd [c, d] := by rw [← hl]; exact ih
        rw [List.cons_append, List.cons_append, hl, step, ih']; rfl

/-- A text that has no final tanween before a space. -/
theorem tanSp_last {l : Text} (h : 32 ∉ l) : tanSp l = l := by
  induction l with
  | nil => rfl
  | cons c l ih =>
    cases l with
    | nil => rfl
    | cons d l =>
      rw [tanSp, if_neg, ih (fun hm => h (by simp [hm]))]
      have : d ≠ 32 := fun e => h (by simp [e])
      simp [this]

theorem tanPar_last {l : Text} (h : 32 ∉ l) : tanPar l = l := by
  induction l with
  | nil => rfl
  | cons c l ih =>
    match l with
    | [] => rfl
    | [d] => rfl
    | d :: e :: l =>
      rw [tanPar, if_neg, ih (fun hm => h (by simp [hm]))]
      have : e ≠ 32 := fun he => h (by simp [he])
      simp [this]

/-- What `tanSp` does to a word before a space. -/
theorem tanSp_word (w : Text) (h : 32 ∉ w) (l : Text) :
    (∀ v c, Tan c → w = v ++ [c] → tanSp (w ++ 32 :: l) = v ++ tanSp (32 :: l)) ∧
    ((¬ ∃ v c, Tan c ∧ w = v ++ [c]) → tanSp (w ++ 32 :: l) = w ++ tanSp (32 :: l)) := by
  induction w with
  | nil =>
    refine ⟨fun v c _ e => ?_, fun _ => rfl⟩
    have := congrArg List.length e
    simp at this
  | cons b w ih =>
    have ih' := ih (fun hm => h (by simp [hm]))
    cases w with
    | nil =>
      constructor
      · intro v c hc e
        have : v = [] ∧ b = c := by
          cases v with
          | nil => simp at e; exact ⟨rfl, e⟩
          | cons x v => simp at e
        obtain ⟨rfl, rfl⟩ := this
        show tanSp (b :: 32 :: l) = _
        rw [tanSp, if_pos (by rw [(isTan_iff b).2 hc]; rfl)]
        cases l with
        | nil => rfl
        | cons d l => rw [List.nil_append, tanSp, if_neg (by simp [isTan])]
      · intro hn
        show tanSp (b :: 32 :: l) = _
        have : isTan b = false := by
          cases hb : isTan b
          · rfl
          · exact absurd ⟨[], b, (isTan_iff b).1 hb, rfl⟩ hn
        rw [tanSp, if_neg (by simp [this])]
        rfl
    | cons d w =>
      have hd : d ≠ 32 := fun e => h (by simp [e])
      have step : tanSp (b :: d :: w ++ 32 :: l) = b :: tanSp (d :: w ++ 32 :: l) := by
        show tanSp (b :: d :: (w ++ 32 :: l)) = _
        rw [tanSp, if_neg (by simp [hd])]
        rfl
      constructor
      · intro v c hc e
        cases v with
        | nil => simp at e
        | cons x v =>
          rw [List.cons_append] at e
          injection e with e1 e2
          subst e1
          rw [step, ih'.1 v c hc e2]; rfl
      · intro hn
        rw [step, ih'.2 (fun ⟨v, c, hc, e⟩ => hn ⟨b :: v, c, hc, by rw [e]; rfl⟩)]; rfl

/-- What `tanPar` does to a word before a space. -/
theorem tanPar_word (w : Text) (h : 32 ∉ w) (l : Text) :
    (∀ v c, Tan c → w = v ++ [c, 41] → tanPar (w ++ 32 :: l) = v ++ 41 :: tanPar (32 :: l)) ∧
    ((¬ ∃ v c, Tan c ∧ w = v ++ [c, 41]) → tanPar (w ++ 32 :: l) = w ++ tanPar (32 :: l)) := by
  have sp : ∀ m, tanPar (32 :: m) = 32 :: tanPar m := by
    intro m
    match m with
    | [] => rfl
    | [_] => rfl
    | _ :: _ :: _ => rw [tanPar, if_neg (by simp [isTan])]
  induction w with
  | nil =>
    refine ⟨fun v c _ e => ?_, fun _ => rfl⟩
    have := congrArg List.length e
    simp at this
  | cons b w ih =>
    have ih' := ih (fun hm => h (by simp [hm]))
    match w, h, ih' with
    | [], h, _ =>
      constructor
      · intro v c _ e
        have := congrArg List.length e
        simp at this
      · intro _
        show tanPar (b :: 32 :: l) = b :: tanPar (32 :: l)
        cases l with
        | nil => rfl
        | cons x l => rw [tanPar, if_neg (by simp)]
    | [d], h, ih' =>
      constructor
      · intro v c hc e
        have hv : v = [] ∧ b = c ∧ d = 41 := by
          cases v with
          | nil => simp at e; exact ⟨rfl, e.1, e.2⟩
          | cons x v => have := congrArg List.length e; simp at this
        obtain ⟨rfl, rfl, rfl⟩ := hv
        show tanPar (b :: 41 :: 32 :: l) = _
        rw [tanPar, if_pos (by rw [(isTan_iff b).2 hc]; rfl), sp]
        rfl
      · intro hn
        show tanPar (b :: d :: 32 :: l) = _
        have : ¬ (isTan b && d == 41 && (32 : Nat) == 32) = true := by
          intro hb
          simp only [Bool.and_eq_true, beq_iff_eq] at hb
          exact hn ⟨[], b, (isTan_iff b).1 hb.1.1, by rw [hb.1.2]; rfl⟩
        rw [tanPar, if_neg this]
        have e := ih'.2 (fun ⟨v, c, _, e⟩ => by have := congrArg List.length e; simp at this)
        show b :: tanPar (d :: 32 :: l) = _
        have e' : tanPar (d :: 32 :: l) = [d] ++ tanPar (32 :: l) := e
        rw [e']; rfl
    | d :: x :: w, h, ih' =>
      have hx : x ≠ 32 := fun e => h (by simp [e])
      have step : tanPar (b :: d :: x :: w ++ 32 :: l) = b :: tanPar (d :: x :: w ++ 32 :: l) := by
        show tanPar (b :: d :: x :: (w ++ 32 :: l)) = _
        rw [tanPar, if_neg (by simp [hx])]
        rfl
      constructor
      · intro v c hc e
        cases v with
        | nil => have := congrArg List.length e; simp at this
        | cons y v =>
          rw [List.cons_append] at e
          injection e with e1 e2
          subst e1
          rw [step, ih'.1 v c hc e2]; rfl
      · intro hn
        rw [step, ih'.2 (fun ⟨v, c, hc, e⟩ => hn ⟨b :: v, c, hc, by rw [e]; rfl⟩)]; rfl

/-- Without final tanween: the function on words. -/
def stripT (w : Text) : Text := match w.reverse with
  | [] => []
  | c :: r => if isTan c then r.reverse else w

/-- Without tanween before a final parenthesis. -/
def stripP (w : Text) : Text := match w.reverse with
  | d :: c :: r => if isTan c && d == 41 then r.reverse ++ [41] else w
  | _ => w

theorem stripT_tan (v : Text) {c : Nat} (h : Tan c) : stripT (v ++ [c]) = v := by
  simp [stripT, (isTan_iff c).2 h]

theorem stripT_other {w : Text} (h : ¬ ∃ v c, Tan c ∧ w = v ++ [c]) : stripT w = w := by
  unfold stripT
  split
  · rename_i e
    rw [List.reverse_eq_nil_iff] at e
    exact e.symm
  · rename_i c r e
    split
    · rename_i hc
      refine absurd ⟨r.reverse, c, (isTan_iff c).1 hc, ?_⟩ h
      rw [← List.reverse_reverse w, e, List.reverse_cons]
    · rfl

theorem stripP_tan (v : Text) {c : Nat} (h : Tan c) : stripP (v ++ [c, 41]) = v ++ [41] := by
  simp [stripP, (isTan_iff c).2 h]

theorem stripP_other {w : Text} (h : ¬ ∃ v c, Tan c ∧ w = v ++ [c, 41]) : stripP w = w := by
  unfold stripP
  split
  · rename_i d c r e
    split
    · rename_i hc
      simp only [Bool.and_eq_true, beq_iff_eq] at hc
      refine absurd ⟨r.reverse, c, (isTan_iff c).1 hc.1, ?_⟩ h
      rw [← List.reverse_reverse w, e, hc.2]
      simp
    · rfl
  · rfl

theorem stripT_nosp {w : Text} (h : 32 ∉ w) : 32 ∉ stripT w := by
  by_cases hx : ∃ v c, Tan c ∧ w = v ++ [c]
  · obtain ⟨v, c, hc, rfl⟩ := hx
    rw [stripT_tan v hc]
    exact fun hm => h (by simp [hm])
  · rw [stripT_other hx]; exact h

theorem stripP_nosp {w : Text} (h : 32 ∉ w) : 32 ∉ stripP w := by
  by_cases hx : ∃ v c, Tan c ∧ w = v ++ [c, 41]
  · obtain ⟨v, c, hc, rfl⟩ := hx
    rw [stripP_tan v hc]
    intro hm
    simp only [List.mem_append, List.mem_singleton] at hm
    rcases hm with hm | hm
    · exact h (by simp [hm])
    · omega
  · rw [stripP_other hx]; exact h

theorem tanSp_word' (w : Text) (h : 32 ∉ w) (l : Text) : tanSp (w ++ 32 :: l) = stripT w ++ tanSp (32 :: l) := by
  by_cases hx : ∃ v c, Tan c ∧ w = v ++ [c]
  · obtain ⟨v, c, hc, rfl⟩ := hx
    rw [(tanSp_word _ h l).1 v c hc rfl, stripT_tan v hc]
  · rw [(tanSp_word _ h l).2 hx, stripT_other hx]

theorem tanPar_word' (w : Text) (h : 32 ∉ w) (l : Text) : tanPar (w ++ 32 :: l) = stripP w ++ tanPar (32 :: l) := by
  by_cases hx : ∃ v c, Tan c ∧ w = v ++ [c, 41]
  · obtain ⟨v, c, hc, rfl⟩ := hx
    rw [(tanPar_word _ h l).1 v c hc rfl, stripP_tan v hc]; simp
  · rw [(tanPar_word _ h l).2 hx, stripP_other hx]

theorem tanSp_space (l : Text) : tanSp (32 :: l) = 32 :: tanSp l := by
  cases l with
  | nil => rfl
  | cons d l => rw [tanSp, if_neg (by simp [isTan])]

theorem tanPar_space (l : Text) : tanPar (32 :: l) = 32 :: tanPar l := by
  match l with
  | [] => rfl
  | [_] => rfl
  | _ :: _ :: _ => rw [tanPar, if_neg (by simp [isTan])]

theorem tanSp_blocks (ws : List Text) (z : Text) (h : ∀ w ∈ ws, 32 ∉ w) (hz : 32 ∉ z) :
    tanSp (blocks (ws ++ [z])) = blocks (ws.map stripT ++ [z]) := by
  induction ws with
  | nil =>
    show tanSp (blocks [z]) = blocks [z]
    rw [blocks_cons, blocks_nil, List.append_nil, tanSp_space, tanSp_last hz]
  | cons w ws ih =>
    have ih' := ih (fun v hv => h v (by simp [hv]))
    rw [List.cons_append, blocks_cons, tanSp_space, List.map_cons, List.cons_append, blocks_cons]
    congr 1
    rw [← ih']
    obtain ⟨l, hl⟩ : ∃ l, blocks (ws ++ [z]) = 32 :: l := by
      cases ws with
      | nil => exact ⟨_, blocks_cons z []⟩
      | cons v ws => exact ⟨_, blocks_cons v _⟩
    rw [hl]
    exact tanSp_word' w (h w (by simp)) l

theorem tanPar_blocks (ws : List Text) (z : Text) (h : ∀ w ∈ ws, 32 ∉ w) (hz : 32 ∉ z) :
    tanPar (blocks (ws ++ [z])) = blocks (ws.map stripP ++ [z]) := by
  induction ws with
  | nil =>
    show tanPar (blocks [z]) = blocks [z]
    rw [blocks_cons, blocks_nil, List.append_nil, tanPar_space, tanPar_last hz]
  | cons w ws ih =>
    have ih' := ih (fun v hv => h v (by simp [hv]))
    rw [List.cons_append, blocks_cons, tanPar_space, List.map_cons, List.cons_append, blocks_cons]
    congr 1
    rw [← ih']
    obtain ⟨l, hl⟩ : ∃ l, blocks (ws ++ [z]) = 32 :: l := by
      cases ws with
      | nil => exact ⟨_, blocks_cons z []⟩
      | cons v ws => exact ⟨_, blocks_cons v _⟩
    rw [hl]
    exact tanPar_word' w (h w (by simp)) l

theorem snoc_cases (w : Text) : w = [] ∨ ∃ v c, w = v ++ [c] := by
  cases w with
  | nil => exact Or.inl rfl
  | cons a l => exact Or.inr ⟨_, _, (List.dropLast_concat_getLast (List.cons_ne_nil a l)).symm⟩

theorem tanEnd_blocks (ws : List Text) (z : Text) : tanEnd (blocks (ws ++ [z])) = blocks (ws ++ [stripT z]) := by
  rw [blocks_append, blocks_append, blocks_cons, blocks_cons, blocks_nil, List.append_nil, List.append_nil]
  rcases snoc_cases z with rfl | ⟨v, c, rfl⟩
  · show tanEnd (blocks ws ++ [32]) = _
    rw [tanEnd_other _ (by simp [Tan])]; rfl
  · have e : blocks ws ++ 32 :: (v ++ [c]) = (blocks ws ++ 32 :: v) ++ [c] := by simp
    rw [e]
    by_cases hc : Tan c
    · rw [tanEnd_tan _ hc, stripT_tan v hc]
    · rw [tanEnd_other _ hc, stripT_other]
      · simp
      · rintro ⟨u, d, hd, e'⟩
        have := (List.append_inj' e' rfl).2
        injection this with h1
        exact hc (h1 ▸ hd)

theorem tanParEnd_blocks (ws : List Text) (z : Text) : tanParEnd (blocks (ws ++ [z])) = blocks (ws ++ [stripP z]) := by
  rw [blocks_append, blocks_append, blocks_cons, blocks_cons, blocks_nil, List.append_nil, List.append_nil]
  by_cases hx : ∃ v c, Tan c ∧ z = v ++ [c, 41]
  · obtain ⟨v, c, hc, rfl⟩ := hx
    rw [stripP_tan v hc]
    have e : blocks ws ++ 32 :: (v ++ [c, 41]) = (blocks ws ++ 32 :: v) ++ [c, 41] := by simp
    rw [e, tanParEnd_append]
    simp [tanParEnd, (isTan_iff c).2 hc]
  · rw [stripP_other hx]
    -- the last two characters of the whole text
    have key : ∀ (u : Text) (c d : Nat), ¬ (Tan c ∧ d = 41) → tanParEnd (u ++ [c, d]) = u ++ [c, d] := by
      intro u c d h
      rw [tanParEnd_append]
      have : ¬ (isTan c && d == 41) = true := by
        rw [Bool.and_eq_true, beq_iff_eq, isTan_iff]; exact h
      rw [tanParEnd, if_neg this]
    rcases snoc_cases z with rfl | ⟨v, d, rfl⟩
    · rcases snoc_cases (blocks ws) with e | ⟨v, c, e⟩
      · rw [e]; rfl
      · rw [e]
        have := key v c 32 (by simp)
        simpa using this
    · rcases snoc_cases v with rfl | ⟨u, c, rfl⟩
      · have := key (blocks ws) 32 d (by simp [Tan])
        simpa using this
      · have := key (blocks ws ++ 32 :: u) c d (fun ⟨h1, h2⟩ => hx ⟨u, c, h1, by rw [h2]; simp⟩)
        simpa using this

/-! ## Columns -/

theorem isWs_iff (c : Nat) : isWs c = true ↔ Ws c := by
  simp only [isWs, Ws, Bool.or_eq_true, beq_iff_eq, List.mem_cons, List.not_mem_nil, or_false]; omega

theorem takeWhile_pre {p : Nat → Bool} {a b : Text} (h : ∀ c ∈ a, p c = true) (hb : ∀ c ∈ b.head?, p c = false) :
    (a ++ b).takeWhile p = a ∧ (a ++ b).dropWhile p = b := by
  induction a with
  | nil =>
    cases b with
    | nil => exact ⟨rfl, rfl⟩
    | cons c b =>
      have := hb c (by simp)
      simp [this]
  | cons c a ih =>
    have := ih (fun d hd => h d (by simp [hd]))
    simp [h c (by simp), this.1, this.2]

theorem fields_step (n : Nat) {w s t : Text} (hw : ∀ c ∈ w, ¬ Ws c) (hs : s ≠ []) (hs' : ∀ c ∈ s, Ws c) (ht : ∀ c ∈ t.head?, ¬ Ws c) :
    fields (n + 2) (w ++ s ++ t) = w :: s :: fields (n + 1) t := by
  have h1 := takeWhile_pre (p := fun c => !isWs c) (a := w) (b := s ++ t)
    (fun c hc => by have := hw c hc; rw [← isWs_iff] at this; simpa using this)
    (fun c hc => by
      cases s with
      | nil => exact absurd rfl hs
      | cons d s =>
        simp only [List.cons_append, List.head?_cons, Option.mem_some_iff] at hc
        subst hc
        simp [(isWs_iff d).2 (hs' d (by simp))])
  have h2 := takeWhile_pre (p := isWs) (a := s) (b := t) (fun c hc => (isWs_iff c).2 (hs' c hc))
    (fun c hc => by have := ht c hc; rw [← isWs_iff] at this; simpa using this)
  rw [fields, List.append_assoc, h1.1, h1.2]
  cases hst : s ++ t with
  | nil => simp at hst; exact absurd hst.1 hs
  | cons d r =>
    simp only
    rw [← hst, h2.1, h2.2]

theorem fields_word (n : Nat) {w : Text} (hw : ∀ c ∈ w, ¬ Ws c) : fields n w = [w] := by
  match n with
  | 0 => rfl
  | 1 => rfl
  | n + 2 =>
    have h1 := takeWhile_pre (p := fun c => !isWs c) (a := w) (b := [])
      (fun c hc => by have := hw c hc; rw [← isWs_iff] at this; simpa using this) (by simp)
    rw [List.append_nil] at h1
    rw [fields, h1.1, h1.2]

theorem fields_flatten (n : Nat) : ∀ (t : Text), (fields n t).flatten = t := by
  induction n using Nat.strongRecOn with
  | _ n ih =>
    intro t
    match n with
    | 0 => simp [fields]
    | 1 => simp [fields]
    | n + 2 =>
      rw [fields]
      split
      · rename_i e
        have := List.takeWhile_append_dropWhile (p := fun c => !isWs c) (l := t)
        rw [e, List.append_nil] at this
        simpa using this
      · rename_i d r e
        rw [List.flatten_cons, List.flatten_cons, ih (n + 1) (by omega), List.takeWhile_append_dropWhile, List.takeWhile_append_dropWhile]

/-- The fields of a line that begins with columns. -/
theorem fields_cols (cs : List (Text × Text)) : ∀ (n : Nat) (r : Text), Cols cs → (∀ c ∈ r.head?, ¬ Ws c) → cs.length ≤ n →
    fields (n + 1) (glue cs r) = cs.flatMap (fun p => [p.1, p.2]) ++ fields (n + 1 - cs.length) r := by
  induction cs with
  | nil => intro n r _ _ _; simp [glue]
  | cons p cs ih =>
    intro n r hc hr hn
    have hp := hc p (by simp)
    simp only [List.length_cons] at hn
    obtain ⟨m, rfl⟩ : ∃ m, n = m + 1 := ⟨n - 1, by omega⟩
    have hc' : Cols cs := fun q hq => hc q (by simp [hq])
    have e : glue (p :: cs) r = p.1 ++ p.2 ++ glue cs r := by simp [glue]
    have hh : ∀ c ∈ (glue cs r).head?, ¬ Ws c := by
      cases cs with
      | nil => simpa [glue] using hr
      | cons q cs =>
        have hq := hc' q (by simp)
        intro c hcm
        cases hq1 : q.1 with
        | nil => exact absurd hq1 hq.1
        | cons x w =>
          have : glue (q :: cs) r = x :: (w ++ q.2 ++ glue cs r) := by simp [glue, hq1]
          rw [this] at hcm
          simp only [List.head?_cons, Option.mem_some_iff] at hcm
          subst hcm
          exact hq.2.1 x (by simp [hq1])
    rw [e, fields_step m hp.2.1 hp.2.2.1 hp.2.2.2 hh, ih m r hc' hr (by omega), List.flatMap_cons, List.length_cons]
    have : m + 1 + 1 - (cs.length + 1) = m + 1 - cs.length := by omega
    rw [this]
    simp

theorem isComment_iff (t : Text) : isComment t = true ↔ Comment t := by
  unfold isComment Comment
  split
  · simp [List.cons_prefix_cons]
  · simp [List.cons_prefix_cons]
  · rename_i h1 h2
    constructor
    · simp
    · rintro (⟨l, e⟩ | ⟨l, e⟩)
      · exact absurd e.symm (h1 l)
      · exact absurd e.symm (h2 l)

theorem isLabel_iff (t : Text) : isLabel t = true ↔ Label t := by
  unfold isLabel Label
  split
  · rename_i l
    rcases snoc_cases l with rfl | ⟨v, c, rfl⟩
    · simp
    · simp only [List.getLast?_append, List.getLast?_singleton, Option.some_or, Bool.and_eq_true, beq_iff_eq, Option.some.injEq,
        List.dropLast_concat, List.all_eq_true, bne_iff_ne, List.cons_append]
      constructor
      · rintro ⟨rfl, h⟩; exact ⟨v, rfl, h⟩
      · rintro ⟨u, e, h⟩
        injection e with _ e
        obtain ⟨rfl, e2⟩ := List.append_inj' e rfl
        injection e2 with e3
        exact ⟨e3, h⟩
  · rename_i h
    constructor
    · simp
    · rintro ⟨v, e, _⟩; exact absurd e (h _)

theorem changeAt_append (f : Text → Text) (a : List Text) : ∀ (b : List Text) (n : Nat), a.length = n → changeAt f n (a ++ b) = a ++ changeAt f 0 b := by
  induction a with
  | nil => intro b n h; subst h; rfl
  | cons x a ih => intro b n h; subst h; show x :: changeAt f _ (a ++ b) = _; rw [ih b _ rfl]; rfl

theorem changeAt_short (f : Text → Text) : ∀ (n : Nat) (l : List Text), l.length ≤ n → changeAt f n l = l := by
  intro n
  induction n with
  | zero => intro l h; rw [List.length_eq_zero_iff.1 (Nat.le_zero.1 h)]; rfl
  | succ n ih =>
    intro l h
    cases l with
    | nil => rfl
    | cons a l => rw [changeAt, ih l (by simpa using h)]

theorem flatMap_pair_flatten (cs : List (Text × Text)) : (cs.flatMap (fun p => [p.1, p.2])).flatten = (cs.map (fun p => p.1 ++ p.2)).flatten := by
  induction cs with
  | nil => rfl
  | cons p cs ih => simp [List.flatMap_cons, ih]

theorem flatMap_pair_length (cs : List (Text × Text)) : (cs.flatMap (fun p => [p.1, p.2])).length = 2 * cs.length := by
  induction cs with
  | nil => rfl
  | cons p cs ih => rw [List.flatMap_cons, List.length_append, ih]; simp; omega

end Verif.ArabNorm
