import Verif.Rpg.Lemmas
/-!
# Lemmas on sequences of calls
-/
set_option autoImplicit false
namespace Verif.Rpg

/-- A call that adds something to the report. -/
inductive Op where
  | sep (chr : Char) (isBefore : Bool)
  | row (fmt : List Char) (vals : List (List Char))

/-- Some calls, one after the other. -/
def run : State → List Op → Except Stop State
  | s, [] => .ok s
  | s, .sep chr b :: ops => run (addSep s chr b) ops
  | s, .row fmt vals :: ops =>
    match addRow s fmt vals with
    | .error e => .error e
    | .ok s' => run s' ops

theorem built_run : ∀ (ops : List Op) (s s' : State), Built s → run s ops = .ok s' → Built s'
  | [], s, s', hb, h => by
    have h' : (Except.ok s : Except Stop State) = .ok s' := h
    injection h' with h'
    exact h' ▸ hb
  | .sep chr b :: ops, s, s', hb, h => built_run ops _ s' (.sep s chr b hb) h
  | .row fmt vals :: ops, s, s', hb, h => by
    have h' : (match addRow s fmt vals with | .error e => Except.error e | .ok s1 => run s1 ops) = .ok s' := h
    cases ha : addRow s fmt vals with
    | error e => rw [ha] at h'; cases h'
    | ok s1 => rw [ha] at h'; exact built_run ops s1 s' (.row s s1 fmt vals hb ha) h'

/-- Two states that agree on everything but on texts that no row has. -/
structure Alike (s t : State) : Prop where
  defs : s.defs = t.defs
  rows : s.rows = t.rows
  before : s.before = t.before
  after : s.after = t.after
  maxCol : s.maxCol = t.maxCol
  cells : ∀ (i j c : Nat) (k : Col), s.rows[i]? = some j → (colsOf s j)[c]? = some k → k.just ≠ 'a' → s.cells c i = t.cells c i

theorem setJust_alike (s t : State) (fmt : List Char) (s' : State) (j : Nat) (hd : s.defs = t.defs) (hm : s.maxCol = t.maxCol)
    (h : setJust s fmt = .ok (s', j)) :
    setJust t fmt = .ok ({ t with defs := s'.defs, maxCol := s'.maxCol }, j) ∧
      s' = { s with defs := s'.defs, maxCol := s'.maxCol } ∧ s.defs <+: s'.defs := by
  unfold setJust at h ⊢
  rw [← hd, ← hm]
  cases hf : s.defs.findIdx? (fun d => decide (d.fmt = fmt)) with
  | some i =>
    rw [hf] at h
    dsimp only at h ⊢
    injection h with h
    injection h with h1 h2
    subst h1; subst h2
    exact ⟨by rw [hd, hm], rfl, List.prefix_refl _⟩
  | none =>
    rw [hf] at h
    dsimp only at h ⊢
    split at h
    · cases h
    · rw [if_neg (by assumption)]
      cases hp : parseLoop (fmt.length + 1) fmt [] 0 with
      | error e => rw [hp] at h; cases h
      | ok x =>
        obtain ⟨cols, k, rest⟩ := x
        rw [hp] at h
        dsimp only at h ⊢
        split at h
        · cases h
        · rw [if_neg (by assumption)]
          injection h with h
          injection h with h1 h2
          subst h1; subst h2
          exact ⟨rfl, rfl, List.prefix_append _ _⟩

theorem putVals_any (r : Nat) : ∀ (cols : List Col) (c : Nat) (vals : List (List Char)) (cells cells' cells2 : Nat → Nat → List Char),
    putVals r c cols vals cells = .ok cells' → ∃ cells2', putVals r c cols vals cells2 = .ok cells2'
  | [], _, _, _, _, cells2, _ => ⟨cells2, by unfold putVals; rfl⟩
  | k :: ks, c, vals, cells, cells', cells2, h => by
    unfold putVals at h ⊢
    by_cases hk : k.just = 'a'
    · rw [if_pos hk] at h ⊢
      exact putVals_any r ks (c + 1) vals cells cells' cells2 h
    · rw [if_neg hk] at h ⊢
      cases vals with
      | nil => cases h
      | cons v vs =>
        dsimp only at h ⊢
        split at h
        · cases h
        · rw [if_neg (by assumption)]
          exact putVals_any r ks (c + 1) vs _ cells' _ h

theorem colsOf_prefix (s s' : State) (h : s.defs <+: s'.defs) (j : Nat) (hj : j < s.defs.length) : colsOf s' j = colsOf s j := by
  obtain ⟨l, hl⟩ := h
  unfold colsOf
  rw [← hl, List.getElem?_append_left hj]

theorem alike_row (s t : State) (fmt : List Char) (vals : List (List Char)) (s' : State) (hs : ∀ j ∈ s.rows, j < s.defs.length) (ha : Alike s t)
    (h : addRow s fmt vals = .ok s') : ∃ t', addRow t fmt vals = .ok t' ∧ Alike s' t' := by
  obtain ⟨s1, j, cells, h1, h2, h3⟩ := addRow_cases s s' fmt vals h
  obtain ⟨e1, e2, e3⟩ := setJust_alike s t fmt s1 j ha.defs ha.maxCol h1
  have er : s1.rows = s.rows := by rw [e2]
  have ec : s1.cells = s.cells := by rw [e2]
  have hc : colsOf { t with defs := s1.defs, maxCol := s1.maxCol } j = colsOf s1 j := rfl
  obtain ⟨cells2, h4⟩ := putVals_any s1.rows.length (colsOf s1 j) 0 vals _ _ t.cells h2
  rw [er, ec] at h2
  rw [er, ha.rows] at h4
  refine ⟨{ t with defs := s1.defs, maxCol := s1.maxCol, cells := cells2, rows := t.rows ++ [j] }, ?_, ?_⟩
  · unfold addRow
    rw [e1]
    dsimp only
    rw [hc, h4]
  · subst h3
    refine ⟨rfl, by rw [← ha.rows, ← er], ?_, ?_, rfl, ?_⟩
    · show s1.before = t.before
      rw [e2]; exact ha.before
    · show s1.after = t.after
      rw [e2]; exact ha.after
    · intro i j' c k hi hk hn
      show cells c i = cells2 c i
      have hi' : (s.rows ++ [j])[i]? = some j' := by rw [← er]; exact hi
      have hk' : (colsOf s1 j')[c]? = some k := hk
      obtain ⟨p1, p2⟩ := putVals_cells _ _ _ _ _ _ h2
      obtain ⟨q1, q2⟩ := putVals_cells _ _ _ _ _ _ h4
      by_cases hlt : i < s.rows.length
      · rw [List.getElem?_append_left hlt] at hi'
        have hj' := hs j' (List.mem_of_getElem? hi')
        rw [colsOf_prefix s s1 e3 j' hj'] at hk'
        rw [p1 c i (Or.inl (by omega)), q1 c i (Or.inl (by rw [← ha.rows]; omega))]
        exact ha.cells i j' c k hi' hk' hn
      · have hi2 := (List.getElem?_eq_some_iff.mp hi').1
        rw [List.length_append, List.length_singleton] at hi2
        have hieq : i = s.rows.length := by omega
        subst hieq
        rw [List.getElem?_append_right (Nat.le_refl _), Nat.sub_self] at hi'
        injection hi' with hi'
        subst hi'
        have a := p2 c k hk' hn
        have b := q2 c k hk' hn
        rw [Nat.zero_add] at a b
        rw [← ha.rows] at b
        rw [a] at b
        injection b

theorem alike_run : ∀ (ops : List Op) (s t s' : State), Built s → Alike s t → run s ops = .ok s' →
    ∃ t', run t ops = .ok t' ∧ Alike s' t'
  | [], s, t, s', _, ha, h => by
    have h' : (Except.ok s : Except Stop State) = .ok s' := h
    injection h' with h'
    subst h'
    exact ⟨t, rfl, ha⟩
  | .sep chr b :: ops, s, t, s', hb, ha, h => by
    refine alike_run ops _ (addSep t chr b) s' (.sep s chr b hb) ?_ h
    cases b with
    | true =>
      refine ⟨ha.defs, ha.rows, ?_, ha.after, ha.maxCol, ha.cells⟩
      show (fun x => if x = s.rows.length then s.before s.rows.length ++ [chr] else s.before x) =
        (fun x => if x = t.rows.length then t.before t.rows.length ++ [chr] else t.before x)
      rw [ha.before, ha.rows]
    | false =>
      refine ⟨ha.defs, ha.rows, ha.before, ?_, ha.maxCol, ha.cells⟩
      show (fun x => if x = s.rows.length then s.after s.rows.length ++ [chr] else s.after x) =
        (fun x => if x = t.rows.length then t.after t.rows.length ++ [chr] else t.after x)
      rw [ha.after, ha.rows]
  | .row fmt vals :: ops, s, t, s', hb, ha, h => by
    have h' : (match addRow s fmt vals with | .error e => Except.error e | .ok s1 => run s1 ops) = .ok s' := h
    cases hr : addRow s fmt vals with
    | error e => rw [hr] at h'; cases h'
    | ok s1 =>
      rw [hr] at h'
      obtain ⟨t1, g1, g2⟩ := alike_row s t fmt vals s1 (built_wf hb).1 ha hr
      obtain ⟨t', g3, g4⟩ := alike_run ops s1 t1 s' (.row s s1 fmt vals hb hr) g2 h'
      refine ⟨t', ?_, g4⟩
      show (match addRow t fmt vals with | .error e => Except.error e | .ok s1 => run s1 ops) = .ok t'
      rw [g1]; exact g3

theorem alike_same (s t : State) (h : Alike s t) (hn : ∀ d ∈ s.defs, ∀ k ∈ d.cols, k.just ≠ 'a') : Same s t := by
  refine ⟨h.defs, h.rows, h.before, h.after, h.maxCol, ?_⟩
  intro i j c hi hc
  have hk : (colsOf s j)[c]? = some (colsOf s j)[c] := List.getElem?_eq_getElem hc
  refine h.cells i j c _ hi hk ?_
  cases hd : s.defs[j]? with
  | none =>
    have e : colsOf s j = [] := by unfold colsOf; rw [hd]; rfl
    rw [e] at hc; simp at hc
  | some d =>
    have e : colsOf s j = d.cols := by unfold colsOf; rw [hd]; rfl
    exact hn d (List.mem_of_getElem? hd) _ (by rw [← e]; exact List.getElem_mem _)

/-! ### Rows given value by value -/

theorem putVals_more (r : Nat) (more : List (List Char)) : ∀ (cols : List Col) (c : Nat) (vals : List (List Char)) (cells cells' : Nat → Nat → List Char),
    putVals r c cols vals cells = .ok cells' → putVals r c cols (vals ++ more) cells = .ok cells'
  | [], _, _, _, _, h => by unfold putVals at h ⊢; exact h
  | k :: ks, c, vals, cells, cells', h => by
    unfold putVals at h ⊢
    by_cases hk : k.just = 'a'
    · rw [if_pos hk] at h ⊢
      exact putVals_more r more ks (c + 1) vals cells cells' h
    · rw [if_neg hk] at h ⊢
      cases vals with
      | nil => cases h
      | cons v vs =>
        rw [List.cons_append]
        dsimp only at h ⊢
        split at h
        · cases h
        · rw [if_neg (by assumption)]
          exact putVals_more r more ks (c + 1) vs _ cells' h

theorem addRow_more (s s' : State) (fmt : List Char) (vals more : List (List Char)) (h : addRow s fmt vals = .ok s') :
    addRow s fmt (vals ++ more) = .ok s' := by
  obtain ⟨s1, j, cells, h1, h2, h3⟩ := addRow_cases s s' fmt vals h
  unfold addRow
  rw [h1]
  dsimp only
  rw [putVals_more _ more _ _ _ _ _ h2]
  dsimp only
  rw [h3]

/-- Some values given one after the other. -/
def iterValues (s : State) : Iter → List (List Char) → Except Stop Iter
  | it, [] => .ok it
  | it, v :: vs =>
    match iterValue s it v with
    | .error e => .error e
    | .ok it' => iterValues s it' vs

theorem iterValues_ok (s : State) (hm : s.maxCol ≤ 60) : ∀ (vs : List (List Char)) (it : Iter), it.vals.length + vs.length ≤ 60 →
    (∀ v ∈ vs, v.length < 2000) → iterValues s it vs = .ok { it with vals := it.vals ++ vs }
  | [], it, _, _ => by rw [List.append_nil]; rfl
  | v :: vs, it, hl, hv => by
    have e : iterValue s it v = .ok { it with vals := it.vals ++ [v] } := by
      unfold iterValue setupFails
      have h1 := hv v (List.mem_cons_self ..)
      rw [if_neg (by simp; omega), if_neg (by simp at hl; omega), if_neg (by omega)]
    show (match iterValue s it v with | .error e => Except.error e | .ok it' => iterValues s it' vs) = _
    rw [e]
    dsimp only
    rw [iterValues_ok s hm vs _ (by simp at hl ⊢; omega) (fun x hx => hv x (List.mem_cons_of_mem _ hx))]
    simp

theorem addRow_maxCol (s s' : State) (fmt : List Char) (vals : List (List Char)) (h : addRow s fmt vals = .ok s') : s.maxCol ≤ s'.maxCol := by
  obtain ⟨s1, j, cells, h1, h2, h3⟩ := addRow_cases s s' fmt vals h
  subst h3
  rcases setJust_cases s fmt s1 j h1 with ⟨e, _⟩ | ⟨d, m, e, _, _, _, hm, _⟩
  · subst e; exact Nat.le_refl _
  · subst e; exact hm

theorem run_maxCol : ∀ (ops : List Op) (s s' : State), run s ops = .ok s' → s.maxCol ≤ s'.maxCol
  | [], s, s', h => by
    have h' : (Except.ok s : Except Stop State) = .ok s' := h
    injection h' with h'
    exact h' ▸ Nat.le_refl _
  | .sep chr b :: ops, s, s', h => by
    have := run_maxCol ops _ s' h
    have e : (addSep s chr b).maxCol = s.maxCol := by unfold addSep; dsimp only; split <;> rfl
    rw [e] at this; exact this
  | .row fmt vals :: ops, s, s', h => by
    have h' : (match addRow s fmt vals with | .error e => Except.error e | .ok s1 => run s1 ops) = .ok s' := h
    cases ha : addRow s fmt vals with
    | error e => rw [ha] at h'; cases h'
    | ok s1 =>
      rw [ha] at h'
      exact Nat.le_trans (addRow_maxCol s s1 fmt vals ha) (run_maxCol ops s1 s' h')

/-! ### The whole report -/

/-- A format whose rows are printed as they should be: it does not begin with `a`, it does not use `n`, and `=` stands only between two
columns with texts of their own. -/
structure Plain (cols : List Col) : Prop where
  first : ∃ k, cols.head? = some k ∧ k.just ≠ 'a'
  letters : ∀ k ∈ cols, k.just ≠ 'n'
  equal : EqOk cols

theorem regular_of {d : Def} (h : Of d) (hp : Plain d.cols) : Regular d :=
  ⟨hp.first, fun k hk => ⟨(h.2.1 k hk).1, hp.letters k hk⟩, hp.equal, h.2.2⟩

/-- The width of the report, with its edges but without what is put before the lines to centre it. -/
def reportWidth (R : Round) (pad : Nat) (s : State) : Int := width (sizes R pad s) pad s.defs

theorem dump_ok (R : Round) (hR : Shares R) (pad : Nat) (centred : Option Nat) (s : State) (hb : Built s) (hp : ∀ d ∈ s.defs, Plain d.cols)
    (hB : reportWidth R pad s ≤ 300) (hc : ∀ d ∈ s.defs, d.cols.length < s.maxCol) :
    ∃ (L : List (List (List Char))) (n : Nat), L.length = s.rows.length ∧
      dump R pad centred s = .ok (([edge ',' '.' (reportWidth R pad s)] ++ L.flatten ++ [edge '`' '\'' (reportWidth R pad s)]).map (fun l => blanks n ++ l)) ∧
      ∀ (i j : Nat) (d : Def) (ls : List (List Char)), s.rows[i]? = some j → s.defs[j]? = some d → L[i]? = some ls →
        RowOut s i d (reportWidth R pad s) (layout R pad s d) ls := by
  obtain ⟨w1, w2⟩ := built_wf hb
  obtain ⟨L, a, b, c⟩ := dumpRows_ok R hR pad s (fun d hd => regular_of (w2 d hd) (hp d hd)) w1 hB s.rows 0 [] (fun i j hi => by rw [Nat.zero_add]; exact hi)
  have hi : ∃ n, indent centred (reportWidth R pad s) = blanks n := by
    unfold indent
    cases centred with
    | none => exact ⟨0, rfl⟩
    | some p =>
      dsimp only
      split
      · exact ⟨_, rfl⟩
      · exact ⟨0, rfl⟩
  obtain ⟨n, hn⟩ := hi
  refine ⟨L, n, b, ?_, ?_⟩
  · unfold dump
    dsimp only
    have ht : tooMany s = false := by
      unfold tooMany
      rw [List.any_eq_false]
      intro d hd
      have := hc d hd
      simp; omega
    rw [ht, if_neg (by decide), a]
    dsimp only
    rw [← hn]; rfl
  · intro i j d ls h1 h2 h3
    have := c i j d ls h1 h2 h3
    rw [Nat.zero_add] at this; exact this

theorem width_pos (R : Round) (hR : Shares R) (pad : Nat) (s : State) (h : s.defs ≠ []) (hb : ∀ d ∈ s.defs, Plain d.cols) : 2 ≤ reportWidth R pad s := by
  cases hd : s.defs with
  | nil => exact absurd hd h
  | cons d ds =>
    have hm : d ∈ s.defs := by rw [hd]; exact List.mem_cons_self ..
    have h1 := width_ge (sizes R pad s) pad s.defs d hm
    have key : ∀ (cols : List Col) (c : Nat), 0 ≤ sumSizes (sizes R pad s d.cols.length) pad c cols := by
      intro cols
      induction cols with
      | nil => intro c; exact Int.le_refl 0
      | cons k ks ih =>
        intro c
        have a := sizes_nonneg R hR pad s d.cols.length c
        have b := ih (c + 1)
        show 0 ≤ sizes R pad s d.cols.length c + 2 * (pad : Int) + sumSizes _ pad (c + 1) ks
        omega
    have h2 := key d.cols 0
    obtain ⟨k, hk, _⟩ := (hb d hm).first
    have h3 : 0 < d.cols.length := by cases hcs : d.cols with
      | nil => rw [hcs] at hk; simp at hk
      | cons => simp
    unfold reportWidth
    unfold minWidth at h1
    omega

end Verif.Rpg
