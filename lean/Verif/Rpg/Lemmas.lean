import Verif.Rpg.Sizes
/-!
# Lemmas on formats, the building of reports, and what a report depends on
-/
set_option autoImplicit false
namespace Verif.Rpg

/-! ### Formats -/

/-- The format of some columns: each letter with the separator after it, if there is one. -/
def render (cols : List Col) : List Char := cols.flatMap (fun k => if k.sep = ' ' then [k.just] else [k.just, k.sep])

/-- The columns that a format can ask for. -/
def Good (cols : List Col) : Prop := ∀ k ∈ cols, isLetter k.just = true ∧ (k.sep = ' ' ∨ k.sep = '|' ∨ k.sep = '=')

theorem render_cons (k : Col) (ks : List Col) : render (k :: ks) = (if k.sep = ' ' then [k.just] else [k.just, k.sep]) ++ render ks := by
  unfold render; rw [List.flatMap_cons]

theorem isLetter_ne {c : Char} (h : isLetter c = true) : c ≠ ':' ∧ c ≠ '|' ∧ c ≠ '=' := by
  refine ⟨?_, ?_, ?_⟩ <;> rintro rfl <;> exact absurd h (by decide)

/-- What can follow the columns of a format. -/
def NoSep (rest : List Char) : Prop := rest.head? ≠ some '|' ∧ rest.head? ≠ some '='

theorem noSep_render (ks : List Col) (hg : Good ks) (rest : List Char) (h : NoSep rest) : NoSep (render ks ++ rest) := by
  cases ks with
  | nil => exact h
  | cons k ks =>
    have := isLetter_ne (hg k (List.mem_cons_self ..)).1
    rw [render_cons]
    unfold NoSep
    split <;> simp [this.2.1, this.2.2]

theorem parseLoop_cols : ∀ (ks : List Col) (rest : List Char) (f : Nat) (acc : List Col) (n : Nat), Good ks → NoSep rest →
    (render ks ++ rest).length < f → ∃ f', rest.length < f' ∧ f' ≤ f ∧
    parseLoop f (render ks ++ rest) acc n = parseLoop f' rest (acc ++ ks) (n + eqs ks)
  | [], rest, f, acc, n, _, _, hf => ⟨f, hf, Nat.le_refl _, by simp [render, eqs]⟩
  | k :: ks, rest, f, acc, n, hg, hr, hf => by
    have hk := hg k (List.mem_cons_self ..)
    have hne := isLetter_ne hk.1
    have hg' : Good ks := fun x hx => hg x (List.mem_cons_of_mem _ hx)
    have hns := noSep_render ks hg' rest hr
    rw [render_cons] at hf ⊢
    cases f with
    | zero => exact absurd hf (by simp)
    | succ f =>
      rcases hk.2 with hs | hs | hs
      · rw [if_pos hs] at hf ⊢
        have e : parseLoop (f + 1) (k.just :: (render ks ++ rest)) acc n = parseLoop f (render ks ++ rest) (acc ++ [⟨k.just, ' '⟩]) n := by
          show (if _ then _ else if _ then (if _ then _ else if _ then _ else _) else _) = _
          rw [if_neg hne.1, if_pos hk.1, if_neg hns.1, if_neg hns.2]
        obtain ⟨f', a, b, c⟩ := parseLoop_cols ks rest f (acc ++ [⟨k.just, ' '⟩]) n hg' hr (by simp at hf ⊢; omega)
        refine ⟨f', a, by omega, ?_⟩
        show parseLoop (f + 1) (k.just :: (render ks ++ rest)) acc n = _
        rw [e, c, eqs_cons, if_neg (by rw [hs]; decide)]
        have : (⟨k.just, ' '⟩ : Col) = k := by rw [← hs]
        rw [this, List.append_assoc]; rfl
      · have hs' : k.sep ≠ ' ' := by rw [hs]; decide
        rw [if_neg hs'] at hf ⊢
        have e : parseLoop (f + 1) (k.just :: k.sep :: (render ks ++ rest)) acc n = parseLoop f (render ks ++ rest) (acc ++ [⟨k.just, '|'⟩]) n := by
          rw [hs]
          show (if _ then _ else if _ then (if _ then _ else if _ then _ else _) else _) = _
          rw [if_neg hne.1, if_pos hk.1, if_pos (by rfl)]; rfl
        obtain ⟨f', a, b, c⟩ := parseLoop_cols ks rest f (acc ++ [⟨k.just, '|'⟩]) n hg' hr (by simp at hf ⊢; omega)
        refine ⟨f', a, by omega, ?_⟩
        show parseLoop (f + 1) (k.just :: k.sep :: (render ks ++ rest)) acc n = _
        rw [e, c, eqs_cons, if_neg (by rw [hs]; decide)]
        have : (⟨k.just, '|'⟩ : Col) = k := by rw [← hs]
        rw [this, List.append_assoc]; rfl
      · have hs' : k.sep ≠ ' ' := by rw [hs]; decide
        rw [if_neg hs'] at hf ⊢
        have e : parseLoop (f + 1) (k.just :: k.sep :: (render ks ++ rest)) acc n = parseLoop f (render ks ++ rest) (acc ++ [⟨k.just, '='⟩]) (n + 1) := by
          rw [hs]
          show (if _ then _ else if _ then (if _ then _ else if _ then _ else _) else _) = _
          rw [if_neg hne.1, if_pos hk.1, if_neg (by simp), if_pos (by rfl)]; rfl
        obtain ⟨f', a, b, c⟩ := parseLoop_cols ks rest f (acc ++ [⟨k.just, '='⟩]) (n + 1) hg' hr (by simp at hf ⊢; omega)
        refine ⟨f', a, by omega, ?_⟩
        show parseLoop (f + 1) (k.just :: k.sep :: (render ks ++ rest)) acc n = _
        rw [e, c, eqs_cons, if_pos hs]
        have : (⟨k.just, '='⟩ : Col) = k := by rw [← hs]
        rw [this, List.append_assoc]
        have e2 : n + 1 + eqs ks = n + (eqs ks + 1) := by omega
        rw [e2]; rfl

theorem parseLoop_sound : ∀ (f : Nat) (p : List Char) (acc : List Col) (n : Nat) (cols : List Col) (m : Nat) (rest : List Char),
    parseLoop f p acc n = .ok (cols, m, rest) →
    ∃ cs, cols = acc ++ cs ∧ p = render cs ++ rest ∧ m = n + eqs cs ∧ Good cs ∧ (rest = [] ∨ rest.head? = some ':')
  | 0, _, _, _, _, _, _, h => by cases h
  | f + 1, [], acc, n, cols, m, rest, h => by
    have h' : (Except.ok (acc, n, []) : Except Stop (List Col × Nat × List Char)) = .ok (cols, m, rest) := h
    injection h' with h'
    injection h' with h1 h2
    injection h2 with h2 h3
    exact ⟨[], by rw [← h1]; simp, by rw [← h3]; rfl, h2.symm, fun k hk => by (cases hk), Or.inl h3.symm⟩
  | f + 1, c :: q, acc, n, cols, m, rest, h => by
    have h' : (if c = ':' then .ok (acc, n, c :: q)
      else if isLetter c then
        if q.head? = some '|' then parseLoop f q.tail (acc ++ [⟨c, '|'⟩]) n
        else if q.head? = some '=' then parseLoop f q.tail (acc ++ [⟨c, '='⟩]) (n + 1)
        else parseLoop f q (acc ++ [⟨c, ' '⟩]) n
      else if c = '|' ∨ c = '=' then .error .skewed
      else parseLoop f (c :: q) acc n) = Except.ok (ε := Stop) (cols, m, rest) := h
    split at h'
    · rename_i hc
      injection h' with h'
      injection h' with h1 h2
      injection h2 with h2 h3
      exact ⟨[], by rw [← h1]; simp, by rw [← h3]; rfl, h2.symm, fun k hk => by (cases hk), Or.inr (by rw [← h3, hc]; rfl)⟩
    · split at h'
      · rename_i hl
        have step : ∀ (sep : Char) (q' : List Char) (n' : Nat), (sep = ' ' ∨ sep = '|' ∨ sep = '=') →
            (c :: q = (if sep = ' ' then [c] else [c, sep]) ++ q') → n' = n + (if sep = '=' then 1 else 0) →
            parseLoop f q' (acc ++ [⟨c, sep⟩]) n' = .ok (cols, m, rest) →
            ∃ cs, cols = acc ++ cs ∧ c :: q = render cs ++ rest ∧ m = n + eqs cs ∧ Good cs ∧ (rest = [] ∨ rest.head? = some ':') := by
          intro sep q' n' hsep hq hn hp
          obtain ⟨cs, a1, a2, a3, a4, a5⟩ := parseLoop_sound f q' _ n' cols m rest hp
          refine ⟨⟨c, sep⟩ :: cs, by rw [a1]; simp, ?_, ?_, ?_, a5⟩
          · rw [render_cons, List.append_assoc, ← a2]; exact hq
          · rw [a3, hn, eqs_cons]; dsimp only; omega
          · intro k hk
            rcases List.mem_cons.mp hk with rfl | hk
            · exact ⟨hl, hsep⟩
            · exact a4 k hk
        split at h'
        · rename_i hq
          cases q with
          | nil => simp at hq
          | cons d q =>
            simp at hq; subst hq
            exact step '|' q n (by simp) rfl rfl h'
        · split at h'
          · rename_i hq
            cases q with
            | nil => simp at hq
            | cons d q =>
              simp at hq; subst hq
              exact step '=' q (n + 1) (by simp) rfl rfl h'
          · exact step ' ' q n (by simp) rfl rfl h'
      · split at h'
        · cases h'
        · exact parseLoop_sound f (c :: q) acc n cols m rest h'

theorem parseLoop_stuck (x : Char) (q : List Char) (hl : isLetter x = false) (h1 : x ≠ ':') (h2 : x ≠ '|') (h3 : x ≠ '=') :
    ∀ (f : Nat) (acc : List Col) (n : Nat), parseLoop f (x :: q) acc n = .error .hang
  | 0, _, _ => rfl
  | f + 1, acc, n => by
    show (if _ then _ else if _ then _ else if _ then _ else _) = _
    rw [if_neg h1, if_neg (by rw [hl]; decide), if_neg (by intro h; exact h.elim h2 h3)]
    exact parseLoop_stuck x q hl h1 h2 h3 f acc n

/-- What can come out of the parse when it does not succeed. -/
theorem parseLoop_error : ∀ (f : Nat) (p : List Char) (acc : List Col) (n : Nat) (e : Stop), p.length < f →
    parseLoop f p acc n = .error e →
    ∃ cs x q, Good cs ∧ p = render cs ++ x :: q ∧ isLetter x = false ∧ x ≠ ':' ∧
      ((e = .skewed ∧ (x = '|' ∨ x = '=')) ∨ (e = .hang ∧ x ≠ '|' ∧ x ≠ '='))
  | 0, _, _, _, _, hf, _ => absurd hf (by simp)
  | f + 1, [], _, _, _, _, h => by cases h
  | f + 1, c :: q, acc, n, e, hf, h => by
    have h' : (if c = ':' then .ok (acc, n, c :: q)
      else if isLetter c then
        if q.head? = some '|' then parseLoop f q.tail (acc ++ [⟨c, '|'⟩]) n
        else if q.head? = some '=' then parseLoop f q.tail (acc ++ [⟨c, '='⟩]) (n + 1)
        else parseLoop f q (acc ++ [⟨c, ' '⟩]) n
      else if c = '|' ∨ c = '=' then .error .skewed
      else parseLoop f (c :: q) acc n) = Except.error (α := List Col × Nat × List Char) e := h
    split at h'
    · cases h'
    · rename_i hc
      split at h'
      · rename_i hl
        have step : ∀ (sep : Char) (q' : List Char) (n' : Nat), (sep = ' ' ∨ sep = '|' ∨ sep = '=') →
            (c :: q = (if sep = ' ' then [c] else [c, sep]) ++ q') → q'.length < f →
            parseLoop f q' (acc ++ [⟨c, sep⟩]) n' = .error e →
            ∃ cs x r, Good cs ∧ c :: q = render cs ++ x :: r ∧ isLetter x = false ∧ x ≠ ':' ∧
              ((e = .skewed ∧ (x = '|' ∨ x = '=')) ∨ (e = .hang ∧ x ≠ '|' ∧ x ≠ '=')) := by
          intro sep q' n' hsep hq hlt hp
          obtain ⟨cs, x, r, a1, a2, a3⟩ := parseLoop_error f q' _ n' e hlt hp
          refine ⟨⟨c, sep⟩ :: cs, x, r, ?_, ?_, a3⟩
          · intro k hk
            rcases List.mem_cons.mp hk with rfl | hk
            · exact ⟨hl, hsep⟩
            · exact a1 k hk
          · rw [render_cons, List.append_assoc, ← a2]; exact hq
        simp only [List.length_cons] at hf
        split at h'
        · rename_i hq
          cases q with
          | nil => simp at hq
          | cons d q =>
            simp at hq; subst hq
            simp only [List.length_cons] at hf
            exact step '|' q n (by simp) rfl (by omega) h'
        · split at h'
          · rename_i hq
            cases q with
            | nil => simp at hq
            | cons d q =>
              simp at hq; subst hq
              simp only [List.length_cons] at hf
              exact step '=' q (n + 1) (by simp) rfl (by omega) h'
          · exact step ' ' q n (by simp) rfl (by omega) h'
      · rename_i hl
        have hl' : isLetter c = false := by simpa using hl
        split at h'
        · rename_i hx
          injection h' with h'
          exact ⟨[], c, q, fun k hk => by (cases hk), rfl, hl', hc, Or.inl ⟨h'.symm, hx⟩⟩
        · rename_i hx
          have hx1 : c ≠ '|' := fun hh => hx (Or.inl hh)
          have hx2 : c ≠ '=' := fun hh => hx (Or.inr hh)
          rw [parseLoop_stuck c q hl' hc hx1 hx2 f acc n] at h'
          injection h' with h'
          exact ⟨[], c, q, fun k hk => by (cases hk), rfl, hl', hc, Or.inr ⟨h'.symm, hx1, hx2⟩⟩

/-! ### The states that the calls lead to -/

/-- A state that is reached with the calls of the library. -/
inductive Built : State → Prop
  | start : Built init
  | erased (s : State) : Built s → Built (erase s)
  | sep (s : State) (chr : Char) (b : Bool) : Built s → Built (addSep s chr b)
  | row (s s' : State) (fmt : List Char) (vals : List (List Char)) : Built s → addRow s fmt vals = .ok s' → Built s'

/-- The columns of a definition are those of its format. -/
def Of (d : Def) : Prop := (∃ rest, d.fmt = render d.cols ++ rest ∧ (rest = [] ∨ rest.head? = some ':')) ∧ Good d.cols ∧ d.chars = eqs d.cols

theorem setJust_cases (s : State) (fmt : List Char) (s' : State) (j : Nat) (h : setJust s fmt = .ok (s', j)) :
    (s' = s ∧ ∃ d, s.defs[j]? = some d ∧ d.fmt = fmt) ∨
    (∃ d m, s' = { s with defs := s.defs ++ [d], maxCol := m } ∧ j = s.defs.length ∧ d.fmt = fmt ∧ Of d ∧ s.maxCol ≤ m ∧ (s.maxCol = 50 → 50 < d.cols.length → 60 < m)) := by
  have hgrow : ∀ (m n : Nat), m ≤ growTo m n := by
    intro m n
    induction n with
    | zero => exact Nat.le_refl m
    | succ n ih =>
      show m ≤ (if n ≥ growTo m n then _ else _)
      split <;> omega
  have h50 : ∀ n, n ≤ 50 → growTo 50 n = 50 := by
    intro n hn
    induction n with
    | zero => rfl
    | succ n ih =>
      show (if n ≥ growTo 50 n then _ else _) = _
      rw [ih (by omega), if_neg (by omega)]
  have h75 : ∀ n, 50 < n → 60 < growTo 50 n := by
    intro n hn
    induction n with
    | zero => omega
    | succ n ih =>
      by_cases h : 50 < n
      · have := ih h
        show 60 < (if n ≥ growTo 50 n then _ else _)
        split <;> omega
      · have : n = 50 := by omega
        subst this
        show 60 < (if 50 ≥ growTo 50 50 then _ else _)
        rw [h50 50 (by omega)]
        decide
  unfold setJust at h
  cases hf : s.defs.findIdx? (fun d => decide (d.fmt = fmt)) with
  | some i =>
    rw [hf] at h
    dsimp only at h
    injection h with h
    injection h with h1 h2
    left
    refine ⟨h1.symm, ?_⟩
    rw [List.findIdx?_eq_some_iff_getElem] at hf
    obtain ⟨hlt, hd, _⟩ := hf
    subst h2
    exact ⟨_, List.getElem?_eq_getElem hlt, of_decide_eq_true hd⟩
  | none =>
    rw [hf] at h
    dsimp only at h
    split at h
    · cases h
    · cases hp : parseLoop (fmt.length + 1) fmt [] 0 with
      | error e => rw [hp] at h; cases h
      | ok x =>
        obtain ⟨cols, k, rest⟩ := x
        rw [hp] at h
        dsimp only at h
        split at h
        · cases h
        · injection h with h
          injection h with h1 h2
          obtain ⟨cs, a1, a2, a3, a4, a5⟩ := parseLoop_sound _ _ _ _ _ _ _ hp
          simp only [List.nil_append] at a1
          subst a1
          right
          refine ⟨⟨fmt, cols, k⟩, _, h1.symm, h2.symm, rfl, ⟨⟨rest, a2, a5⟩, a4, by simpa using a3⟩, ?_, ?_⟩
          · have hm : s.maxCol ≤ (if s.defs.length = s.maxCol then s.maxCol * 3 / 2 else s.maxCol) := by split <;> omega
            exact Nat.le_trans hm (Nat.le_trans (hgrow _ _) (hgrow _ _))
          · intro e hc
            refine Nat.lt_of_lt_of_le ?_ (hgrow _ _)
            rw [e]
            split
            · exact Nat.lt_of_lt_of_le (by decide) (hgrow _ _)
            · exact h75 _ hc

theorem putVals_cells (r : Nat) : ∀ (cols : List Col) (c : Nat) (vals : List (List Char)) (cells cells' : Nat → Nat → List Char),
    putVals r c cols vals cells = .ok cells' →
    (∀ x y, y ≠ r ∨ x < c → cells' x y = cells x y) ∧
    ∀ (i : Nat) (k : Col), cols[i]? = some k → k.just ≠ 'a' → vals[own (cols.take i)]? = some (cells' (c + i) r)
  | [], c, vals, cells, cells', h => by
    have h' : (Except.ok cells : Except Stop _) = .ok cells' := h
    injection h' with h'
    subst h'
    exact ⟨fun _ _ _ => rfl, fun i k hk => by simp at hk⟩
  | k :: ks, c, vals, cells, cells', h => by
    have h' := h
    unfold putVals at h'
    by_cases hk : k.just = 'a'
    · rw [if_pos hk] at h'
      obtain ⟨i1, i2⟩ := putVals_cells r ks (c + 1) vals cells cells' h'
      refine ⟨fun x y hxy => i1 x y (hxy.elim Or.inl (fun h => Or.inr (by omega))), ?_⟩
      intro i k' hi hn
      cases i with
      | zero => simp at hi; subst hi; exact absurd hk hn
      | succ i =>
        have e : own ((k :: ks).take (i + 1)) = own (ks.take i) := by
          rw [List.take_succ_cons, own_cons, if_pos hk]; rfl
        rw [e, show c + (i + 1) = c + 1 + i from by omega]
        exact i2 i k' (by simpa using hi) hn
    · rw [if_neg hk] at h'
      cases vals with
      | nil => cases h'
      | cons v vs =>
        dsimp only at h'
        split at h'
        · cases h'
        · obtain ⟨i1, i2⟩ := putVals_cells r ks (c + 1) vs _ cells' h'
          refine ⟨?_, ?_⟩
          · intro x y hxy
            rw [i1 x y (hxy.elim Or.inl (fun h => Or.inr (by omega)))]
            rw [if_neg (by intro hh; rcases hxy with h | h <;> omega)]
          · intro i k' hi hn
            cases i with
            | zero =>
              have := i1 c r (Or.inr (by omega))
              rw [if_pos ⟨rfl, rfl⟩] at this
              show (v :: vs)[own []]? = some (cells' c r)
              rw [this]; rfl
            | succ i =>
              have e : own ((k :: ks).take (i + 1)) = own (ks.take i) + 1 := by
                rw [List.take_succ_cons, own_cons, if_neg hk]
              rw [e, show c + (i + 1) = c + 1 + i from by omega]
              exact i2 i k' (by simpa using hi) hn

theorem addRow_cases (s s' : State) (fmt : List Char) (vals : List (List Char)) (h : addRow s fmt vals = .ok s') :
    ∃ s1 j cells, setJust s fmt = .ok (s1, j) ∧ putVals s1.rows.length 0 (colsOf s1 j) vals s1.cells = .ok cells ∧
      s' = { s1 with cells := cells, rows := s1.rows ++ [j] } := by
  unfold addRow at h
  cases hj : setJust s fmt with
  | error e => rw [hj] at h; cases h
  | ok x =>
    obtain ⟨s1, j⟩ := x
    rw [hj] at h
    dsimp only at h
    cases hp : putVals s1.rows.length 0 (colsOf s1 j) vals s1.cells with
    | error e => rw [hp] at h; cases h
    | ok cells =>
      rw [hp] at h
      dsimp only at h
      injection h with h
      exact ⟨s1, j, cells, rfl, hp, h.symm⟩

theorem built_wf {s : State} (h : Built s) : (∀ j ∈ s.rows, j < s.defs.length) ∧ ∀ d ∈ s.defs, Of d := by
  induction h with
  | start => exact ⟨fun j h => by (cases h), fun d h => by (cases h)⟩
  | erased s _ _ => exact ⟨fun j h => by (cases h), fun d h => by (cases h)⟩
  | sep s chr b _ ih =>
    unfold addSep
    dsimp only
    split <;> exact ih
  | row s s' fmt vals _ ha ih =>
    obtain ⟨s1, j, cells, h1, h2, h3⟩ := addRow_cases s s' fmt vals ha
    subst h3
    rcases setJust_cases s fmt s1 j h1 with ⟨e, d, hd, _⟩ | ⟨d, m, e, hj, _, hof, _⟩
    · subst e
      refine ⟨?_, ih.2⟩
      intro x hx
      rcases List.mem_append.mp hx with hx | hx
      · exact ih.1 x hx
      · rw [List.mem_singleton] at hx; subst hx
        exact (List.getElem?_eq_some_iff.mp hd).1
    · subst e
      refine ⟨?_, ?_⟩
      · intro x hx
        show x < (s.defs ++ [d]).length
        rw [List.length_append, List.length_singleton]
        rcases List.mem_append.mp hx with hx | hx
        · have := ih.1 x hx; omega
        · rw [List.mem_singleton] at hx; subst hx; omega
      · intro x hx
        rcases List.mem_append.mp hx with hx | hx
        · exact ih.2 x hx
        · rw [List.mem_singleton] at hx; subst hx; exact hof

/-- What a row that was added looks like in the state. -/
theorem addRow_spec (s s' : State) (fmt : List Char) (vals : List (List Char)) (h : addRow s fmt vals = .ok s') :
    ∃ j d, s'.rows = s.rows ++ [j] ∧ s'.defs[j]? = some d ∧ d.fmt = fmt ∧ s'.before = s.before ∧ s'.after = s.after ∧
      s.defs <+: s'.defs ∧ (∀ x y, y ≠ s.rows.length → s'.cells x y = s.cells x y) ∧
      ∀ (c : Nat) (k : Col), d.cols[c]? = some k → k.just ≠ 'a' → vals[own (d.cols.take c)]? = some (s'.cells c s.rows.length) := by
  obtain ⟨s1, j, cells, h1, h2, h3⟩ := addRow_cases s s' fmt vals h
  subst h3
  rcases setJust_cases s fmt s1 j h1 with ⟨e, d, hd, hf⟩ | ⟨d, m, e, hj, hf, hof, _⟩
  · subst e
    obtain ⟨p1, p2⟩ := putVals_cells _ _ _ _ _ _ h2
    have hc : colsOf s1 j = d.cols := by unfold colsOf; rw [hd]; rfl
    rw [hc] at p2
    refine ⟨j, d, rfl, hd, hf, rfl, rfl, List.prefix_refl _, fun x y hy => p1 x y (Or.inl hy), ?_⟩
    intro c k hk hn
    have := p2 c k hk hn
    rw [Nat.zero_add] at this; exact this
  · subst e
    obtain ⟨p1, p2⟩ := putVals_cells _ _ _ _ _ _ h2
    have hd : (s.defs ++ [d])[j]? = some d := by rw [hj]; simp
    have hc : colsOf { s with defs := s.defs ++ [d], maxCol := m } j = d.cols := by unfold colsOf; dsimp only; rw [hd]; rfl
    rw [hc] at p2
    refine ⟨j, d, rfl, hd, hf, rfl, rfl, List.prefix_append _ _, fun x y hy => p1 x y (Or.inl hy), ?_⟩
    intro c k hk hn
    have := p2 c k hk hn
    rw [Nat.zero_add] at this; exact this

/-! ### Rounding -/

theorem exactRound_shares : Shares exactRound := by
  intro u n hu hn
  have hn' : (0 : Int) < 2 * n := by omega
  have hz : ((2 * (0 : Int)) - n).tdiv (2 * n) = 0 := by
    have e : (2 * (0 : Int)) - n = -(n : Int) := by omega
    rw [e, Int.neg_tdiv, Int.tdiv_eq_zero_of_lt (by omega) (by omega)]; rfl
  have e : ∀ k : Nat, exactRound u n k = (2 * (u * k) + n) / (2 * n) := by
    intro k
    have hk : 0 ≤ u * (k : Int) := Int.mul_nonneg hu (by omega)
    unfold exactRound
    by_cases h : u * (k : Int) > 0
    · rw [if_pos h, Int.tdiv_eq_ediv_of_nonneg (by omega)]
    · rw [if_neg h]
      have h0 : u * (k : Int) = 0 := by omega
      rw [h0, hz]
      have : (2 * (0 : Int) + n) / (2 * n) = 0 := Int.ediv_eq_zero_of_lt (by omega) (by omega)
      rw [this]
  refine ⟨?_, ?_, ?_⟩
  · rw [e]
    have : 2 * (u * (n : Int)) + n = n + u * (2 * n) := by
      rw [Int.mul_left_comm]; omega
    rw [this, Int.add_mul_ediv_right _ _ (by omega), Int.ediv_eq_zero_of_lt (by omega) (by omega)]; omega
  · intro k
    rw [e]
    have hk : 0 ≤ u * (k : Int) := Int.mul_nonneg hu (by omega)
    exact Int.ediv_nonneg (by omega) (by omega)
  · intro k k' hkk
    rw [e, e]
    apply Int.ediv_le_ediv hn'
    have : u * (k : Int) ≤ u * (k' : Int) := Int.mul_le_mul_of_nonneg_left (by omega) hu
    omega

/-! ### The parts between the `//` -/

theorem size_segments : ∀ (m : Nat) (t : List Char) (cur : Nat) (s : List Char) (ss : List (List Char)), t.length ≤ m →
    segments t = s :: ss → (∀ x ∈ ss, x.head? ≠ some ' ') →
    cur + s.length ≤ measure false 0 cur 0 t ∧ ∀ x ∈ ss, x.length ≤ measure false 0 cur 0 t
  | _, [], cur, s, ss, _, h, _ => by
    have h' : [([] : List Char)] = s :: ss := h
    injection h' with e1 e2
    subst e1; subst e2
    exact ⟨by simp [measure], fun x hx => by (cases hx)⟩
  | 0, c :: q, _, _, _, hm, _, _ => absurd hm (by simp)
  | m + 1, c :: q, cur, s, ss, hm, h, hb => by
    have e : measure false 0 cur 0 (c :: q) = (if atBreak (c :: q) then measure false (if (q.drop 1).head? = some ' ' then 2 else 1) 0 (max 0 cur) q
      else measure false 0 (cur + 1) 0 q) := by
      show (if _ then _ else _) = _
      rw [if_neg (by simp)]
    rw [e]
    by_cases hbr : atBreak (c :: q) = true
    · have ⟨r, hr⟩ : ∃ r, c :: q = '/' :: '/' :: r := by
        match q, hbr with
        | d :: r, hb =>
          simp [atBreak] at hb
          exact ⟨r, by rw [hb.1, hb.2]⟩
      rw [if_pos hbr]
      injection hr with e1 e2
      subst e1; subst e2
      have h' : [] :: segments r = s :: ss := h
      injection h' with e3 e4
      subst e3
      cases hs : segments r with
      | nil => exact absurd hs (segments_ne r)
      | cons s1 ss1 =>
        rw [hs] at e4
        subst e4
        have hnb : r.head? ≠ some ' ' := by
          intro hh
          cases r with
          | nil => simp at hh
          | cons d r =>
            simp at hh; subst hh
            have hf : atBreak (' ' :: r) = false := by cases r <;> simp [atBreak]
            obtain ⟨a, b, _, g2⟩ := segments_cons hf
            rw [hs] at g2
            injection g2 with g3 _
            exact hb s1 (List.mem_cons_self ..) (by rw [g3]; rfl)
        have hd : (('/' :: r).drop 1).head? = r.head? := rfl
        rw [hd, if_neg hnb]
        have e5 : measure false 1 0 (max 0 cur) ('/' :: r) = measure false 0 0 (max 0 cur) r := rfl
        rw [e5, measure_best]
        obtain ⟨i1, i2⟩ := size_segments m r 0 s1 ss1 (by simp at hm; omega) hs (fun x hx => hb x (List.mem_cons_of_mem _ hx))
        refine ⟨by simp; omega, ?_⟩
        intro x hx
        rcases List.mem_cons.mp hx with rfl | hx
        · omega
        · have := i2 x hx; omega
    · rw [if_neg hbr]
      obtain ⟨s1, ss1, g1, g2⟩ := segments_cons (c := c) (q := q) (by simpa using hbr)
      rw [g2] at h
      injection h with e1 e2
      subst e1; subst e2
      obtain ⟨i1, i2⟩ := size_segments m q (cur + 1) s1 ss1 (by simp at hm; omega) g1 hb
      exact ⟨by simp; omega, i2⟩

/-! ### What a report depends on -/

/-- Two reports with the same definitions, rows and separations, and the same texts in the columns of their rows. -/
structure Same (s t : State) : Prop where
  defs : s.defs = t.defs
  rows : s.rows = t.rows
  before : s.before = t.before
  after : s.after = t.after
  maxCol : s.maxCol = t.maxCol
  cells : ∀ (i j c : Nat), s.rows[i]? = some j → c < (colsOf s j).length → s.cells c i = t.cells c i

theorem pass1_congr (f g : Nat → List Char) (n : Nat) : ∀ (cols : List Col) (c : Nat) (T : Table),
    (∀ i, i < cols.length → f (c + i) = g (c + i)) → pass1Row f n c cols T = pass1Row g n c cols T
  | [], _, _, _ => rfl
  | k :: ks, c, T, h => by
    have h0 := h 0 (by simp)
    rw [Nat.add_zero] at h0
    show pass1Row f n (c + 1) ks (if _ then raise T n c (size k.just (f c)) else T) = pass1Row g n (c + 1) ks (if _ then raise T n c (size k.just (g c)) else T)
    rw [h0]
    exact pass1_congr f g n ks (c + 1) _ (fun i hi => by
      have := h (i + 1) (by simp; omega)
      rw [show c + (i + 1) = c + 1 + i from by omega] at this; exact this)

theorem pass2_congr (R : Round) (pad : Nat) (f g : Nat → List Char) (n : Nat) : ∀ (cols : List Col) (skip c : Nat) (T : Table),
    (∀ i, i < cols.length → f (c + i) = g (c + i)) → pass2Row R pad f n skip c cols T = pass2Row R pad g n skip c cols T
  | [], skip, _, _, _ => by cases skip <;> rfl
  | k :: ks, skip + 1, c, T, h => pass2_congr R pad f g n ks skip (c + 1) T (fun i hi => by
      have := h (i + 1) (by simp; omega)
      rw [show c + (i + 1) = c + 1 + i from by omega] at this; exact this)
  | k :: ks, 0, c, T, h => by
    have h0 := h 0 (by simp)
    rw [Nat.add_zero] at h0
    have h' : ∀ i, i < ks.length → f (c + 1 + i) = g (c + 1 + i) := fun i hi => by
      have := h (i + 1) (by simp; omega)
      rw [show c + (i + 1) = c + 1 + i from by omega] at this; exact this
    show (if span ks = 0 then pass2Row R pad f n 0 (c + 1) ks T
      else pass2Row R pad f n (span ks) (c + 1) ks
        (if (size k.just (f c) : Int) > spanSize T pad n c (span ks) then
          distribute R n (span ks + 1) (span ks) c (size k.just (f c) - spanSize T pad n c (span ks)) T else T)) =
      (if span ks = 0 then pass2Row R pad g n 0 (c + 1) ks T
      else pass2Row R pad g n (span ks) (c + 1) ks
        (if (size k.just (g c) : Int) > spanSize T pad n c (span ks) then
          distribute R n (span ks + 1) (span ks) c (size k.just (g c) - spanSize T pad n c (span ks)) T else T))
    rw [h0, pass2_congr R pad f g n ks 0 (c + 1) T h', pass2_congr R pad f g n ks (span ks) (c + 1) _ h']

theorem passRows_congr (F G : Nat → List Col → Table → Table) (s t : State) (hd : s.defs = t.defs) : ∀ (js : List Nat) (r : Nat) (T : Table),
    (∀ i j T, js[i]? = some j → F (r + i) (colsOf s j) T = G (r + i) (colsOf s j) T) → passRows F s r js T = passRows G t r js T
  | [], _, _, _ => rfl
  | j :: js, r, T, h => by
    have hc : colsOf t j = colsOf s j := by unfold colsOf; rw [hd]
    show passRows F s (r + 1) js (F r (colsOf s j) T) = passRows G t (r + 1) js (G r (colsOf t j) T)
    have h0 := h 0 j T rfl
    rw [Nat.add_zero] at h0
    rw [hc, h0]
    exact passRows_congr F G s t hd js (r + 1) _ (fun i j' T' hi => by
      have := h (i + 1) j' T' (by simpa using hi)
      rw [show r + (i + 1) = r + 1 + i from by omega] at this; exact this)

theorem sizes_congr (R : Round) (pad : Nat) (s t : State) (h : Same s t) : sizes R pad s = sizes R pad t := by
  unfold sizes
  rw [← h.rows]
  have h1 : passRows (fun r cols => pass1Row (fun c => s.cells c r) cols.length 0 cols) s 0 s.rows (fun _ _ => 0) =
      passRows (fun r cols => pass1Row (fun c => t.cells c r) cols.length 0 cols) t 0 s.rows (fun _ _ => 0) :=
    passRows_congr _ _ s t h.defs _ _ _ (fun i j T hi => pass1_congr _ _ _ _ _ _ (fun c hc => by
      rw [Nat.zero_add, Nat.zero_add]; exact h.cells i j c hi hc))
  rw [h1]
  exact passRows_congr _ _ s t h.defs _ _ _ (fun i j T hi => pass2_congr _ _ _ _ _ _ _ _ _ (fun c hc => by
      rw [Nat.zero_add, Nat.zero_add]; exact h.cells i j c hi hc))

theorem rowTexts_congr (f g : Nat → List Char) : ∀ (cols : List Col) (c : Nat), (∀ i, i < cols.length → f (c + i) = g (c + i)) →
    rowTexts f c cols = rowTexts g c cols
  | [], _, _ => rfl
  | k :: ks, c, h => by
    have h0 := h 0 (by simp)
    rw [Nat.add_zero] at h0
    show (if _ then _ else f c) :: rowTexts f (c + 1) ks = (if _ then _ else g c) :: rowTexts g (c + 1) ks
    rw [h0, rowTexts_congr f g ks (c + 1) (fun i hi => by
      have := h (i + 1) (by simp; omega)
      rw [show c + (i + 1) = c + 1 + i from by omega] at this; exact this)]

theorem dumpRows_congr (R : Round) (pad : Nat) (s t : State) (h : Same s t) (T : Table) (W : Int) : ∀ (js : List Nat) (r : Nat) (prev : List Col),
    (∀ i j, js[i]? = some j → s.rows[r + i]? = some j) → dumpRows R pad s T W r prev js = dumpRows R pad t T W r prev js
  | [], _, _, _ => rfl
  | j :: js, r, prev, hr => by
    have hj : s.rows[r]? = some j := hr 0 j rfl
    have hc : colsOf t j = colsOf s j := by unfold colsOf; rw [h.defs]
    have hrow : ∀ prev, dumpRow R pad s T W r prev ((s.defs[j]?).getD ⟨[], [], 0⟩) = dumpRow R pad t T W r prev ((t.defs[j]?).getD ⟨[], [], 0⟩) := by
      intro prev
      rw [← h.defs]
      have he : ((s.defs[j]?).getD ⟨[], [], 0⟩).cols = colsOf s j := by
        unfold colsOf
        cases s.defs[j]? <;> rfl
      unfold dumpRow
      dsimp only
      rw [he, rowTexts_congr (fun c => s.cells c r) (fun c => t.cells c r) (colsOf s j) 0 (fun i hi => by
        rw [Nat.zero_add]; exact h.cells r j i hj hi), h.before, h.after]
    show (match dumpRow R pad s T W r prev ((s.defs[j]?).getD ⟨[], [], 0⟩) with | .error e => _ | .ok ls => _) =
      (match dumpRow R pad t T W r prev ((t.defs[j]?).getD ⟨[], [], 0⟩) with | .error e => _ | .ok ls => _)
    rw [hrow prev, hc, dumpRows_congr R pad s t h T W js (r + 1) (colsOf s j) (fun i j' hi => by
      have := hr (i + 1) j' (by simpa using hi)
      rw [show r + (i + 1) = r + 1 + i from by omega] at this; exact this)]

theorem dump_congr (R : Round) (pad : Nat) (centred : Option Nat) (s t : State) (h : Same s t) : dump R pad centred s = dump R pad centred t := by
  unfold dump tooMany
  dsimp only
  rw [sizes_congr R pad s t h, ← h.defs, ← h.maxCol, ← h.rows,
    dumpRows_congr R pad s t h _ _ s.rows 0 [] (fun i j hi => by rw [Nat.zero_add]; exact hi)]

end Verif.Rpg
