import Verif.Rpg.Wrap
/-!
# Lemmas on the lines of a row
-/
set_option autoImplicit false
namespace Verif.Rpg

/-- Where a text stands in its field: blanks before and after it; a text to the left starts, a text to the right ends at a place that
does not depend on the text, and a centred text has at most two blanks more after it than before. -/
def Placed (j : Char) (cw tw : Int) (piece field : List Char) : Prop :=
  ∃ a b : Nat, field = List.replicate a ' ' ++ piece ++ List.replicate b ' ' ∧ (field.length : Int) = cw ∧
    ((j = 'l' ∨ j = 'L') → (a : Int) = (cw - tw) / 2) ∧ ((j = 'r' ∨ j = 'R') → (b : Int) = (cw - tw) - (cw - tw) / 2) ∧
    ((j = 'c' ∨ j = 'C') → a ≤ b ∧ b ≤ a + 2)

/-- What a cell has to satisfy to be printed. -/
def CellOk (k : Col) (g : Int × Int) (t : List Char) : Prop :=
  if k.just = 'a' then t = []
  else isLetter k.just = true ∧ k.just ≠ 'n' ∧ 0 ≤ g.2 ∧ g.2 < 300 ∧ g.2 ≤ g.1 ∧ g.1 - g.2 ≤ 300 ∧ (word t : Int) ≤ g.2

theorem cellOk_ne {k : Col} {g : Int × Int} {t : List Char} (hk : k.just ≠ 'a') (h : CellOk k g t) :
    isLetter k.just = true ∧ k.just ≠ 'n' ∧ 0 ≤ g.2 ∧ g.2 < 300 ∧ g.2 ≤ g.1 ∧ g.1 - g.2 ≤ 300 ∧ (word t : Int) ≤ g.2 := by
  unfold CellOk at h; rwa [if_neg hk] at h

theorem cellOk_a {k : Col} {g : Int × Int} {t : List Char} (hk : k.just = 'a') (h : CellOk k g t) : t = [] := by
  unfold CellOk at h; rwa [if_pos hk] at h

theorem cellOk_rest {k : Col} {g : Int × Int} {t r : List Char} (hk : k.just ≠ 'a') (h : CellOk k g t) (hw : word r ≤ word t) :
    CellOk k g r := by
  have := cellOk_ne hk h
  unfold CellOk; rw [if_neg hk]
  refine ⟨this.1, this.2.1, this.2.2.1, this.2.2.2.1, this.2.2.2.2.1, this.2.2.2.2.2.1, ?_⟩
  have := this.2.2.2.2.2.2
  omega

def RowOk : List Col → List (Int × Int) → List (List Char) → Prop
  | [], [], [] => True
  | k :: ks, g :: gs, t :: ts => CellOk k g t ∧ RowOk ks gs ts
  | _, _, _ => False

theorem letters (j : Char) (h : isLetter j = true) (hn : j ≠ 'n') (ha : j ≠ 'a') :
    j = 'c' ∨ j = 'C' ∨ j = 'r' ∨ j = 'R' ∨ j = 'l' ∨ j = 'L' := by
  have : j ∈ ['c', 'C', 'l', 'L', 'r', 'R', 'n', 'a'] := by simpa [isLetter] using h
  simp only [List.mem_cons, List.not_mem_nil, or_false] at this
  rcases this with h | h | h | h | h | h | h | h
  · exact Or.inl h
  · exact Or.inr (Or.inl h)
  · exact Or.inr (Or.inr (Or.inr (Or.inr (Or.inl h))))
  · exact Or.inr (Or.inr (Or.inr (Or.inr (Or.inr h))))
  · exact Or.inr (Or.inr (Or.inl h))
  · exact Or.inr (Or.inr (Or.inr (Or.inl h)))
  · exact absurd h hn
  · exact absurd h ha

theorem blanks_add (a b : Nat) : blanks a ++ blanks b = blanks (a + b) := by
  unfold blanks; rw [List.replicate_append_replicate]

theorem printCell_ok (k : Col) (g : Int × Int) (t : List Char) (hk : k.just ≠ 'a') (h : CellOk k g t) :
    ∃ field, printCell k.just g.1 g.2 t = .ok (field, (getNext g.2.toNat t).2) ∧
      Placed k.just g.1 g.2 (getNext g.2.toNat t).1 field ∧ Step g.2.toNat t (getNext g.2.toNat t).1 (getNext g.2.toNat t).2 := by
  obtain ⟨h0, h1, h2, h3, h4, h5, h6⟩ := cellOk_ne hk h
  obtain ⟨cw, tw⟩ := g
  simp only at *
  have hst := getNext_step tw.toNat t (by omega)
  have hchk : getNextChecked tw.toNat t = .ok (getNext tw.toNat t) := by
    unfold getNextChecked
    have a := (copy_spec tw.toNat t).2.1
    have b := hst.short
    rw [if_neg (by omega)]
  have hd : (cw - tw).tdiv 2 = (cw - tw) / 2 := Int.tdiv_eq_ediv_of_nonneg (by omega)
  have e : printCell k.just cw tw t = .ok (blanks ((cw - tw) / 2).toNat ++
      (if k.just = 'c' ∨ k.just = 'C' then padLeft tw.toNat (centre (getNext tw.toNat t).1 tw.toNat)
       else if k.just = 'r' ∨ k.just = 'R' then padLeft tw.toNat (getNext tw.toNat t).1
       else padRight tw.toNat (getNext tw.toNat t).1) ++ blanks ((cw - tw) - (cw - tw) / 2).toNat, (getNext tw.toNat t).2) := by
    unfold printCell
    rw [if_neg h1]
    dsimp only
    rw [hd, if_neg (by omega), hchk]
    dsimp only
    rw [if_neg (by omega)]
  refine ⟨_, e, ?_, hst⟩
  have hs := hst.short
  generalize (getNext tw.toNat t).1 = p at *
  generalize hm : (cw - tw) / 2 = m
  rcases letters k.just h0 h1 hk with hj | hj | hj | hj | hj | hj
  · rw [hj, if_pos (by decide)]
    refine ⟨m.toNat + (tw.toNat - p.length) / 2, (tw.toNat - (p.length + (tw.toNat - p.length) / 2)) + (cw - tw - m).toNat,
      ?_, ?_, fun h => absurd h (by decide), fun h => absurd h (by decide), fun _ => ?_⟩
    · unfold padLeft centre
      have : tw.toNat - (blanks ((tw.toNat - p.length) / 2) ++ p ++ blanks (tw.toNat - (p.length + (tw.toNat - p.length) / 2))).length = 0 := by
        simp [blanks]; omega
      rw [this]
      show _ = blanks _ ++ p ++ blanks _
      rw [← blanks_add, ← blanks_add]
      simp only [show blanks 0 = [] from rfl, List.nil_append, List.append_assoc]
    · simp [padLeft, centre, blanks]; omega
    · omega
  · rw [hj, if_pos (by decide)]
    refine ⟨m.toNat + (tw.toNat - p.length) / 2, (tw.toNat - (p.length + (tw.toNat - p.length) / 2)) + (cw - tw - m).toNat,
      ?_, ?_, fun h => absurd h (by decide), fun h => absurd h (by decide), fun _ => ?_⟩
    · unfold padLeft centre
      have : tw.toNat - (blanks ((tw.toNat - p.length) / 2) ++ p ++ blanks (tw.toNat - (p.length + (tw.toNat - p.length) / 2))).length = 0 := by
        simp [blanks]; omega
      rw [this]
      show _ = blanks _ ++ p ++ blanks _
      rw [← blanks_add, ← blanks_add]
      simp only [show blanks 0 = [] from rfl, List.nil_append, List.append_assoc]
    · simp [padLeft, centre, blanks]; omega
    · omega
  · rw [hj, if_neg (by decide), if_pos (by decide)]
    refine ⟨m.toNat + (tw.toNat - p.length), (cw - tw - m).toNat,
      ?_, ?_, fun h => absurd h (by decide), fun _ => by omega, fun h => absurd h (by decide)⟩
    · unfold padLeft
      show _ = blanks _ ++ p ++ blanks _
      rw [← blanks_add]; simp
    · simp [padLeft, blanks]; omega
  · rw [hj, if_neg (by decide), if_pos (by decide)]
    refine ⟨m.toNat + (tw.toNat - p.length), (cw - tw - m).toNat,
      ?_, ?_, fun h => absurd h (by decide), fun _ => by omega, fun h => absurd h (by decide)⟩
    · unfold padLeft
      show _ = blanks _ ++ p ++ blanks _
      rw [← blanks_add]; simp
    · simp [padLeft, blanks]; omega
  · rw [hj, if_neg (by decide), if_neg (by decide)]
    refine ⟨m.toNat, (tw.toNat - p.length) + (cw - tw - m).toNat,
      ?_, ?_, fun _ => by omega, fun h => absurd h (by decide), fun h => absurd h (by decide)⟩
    · unfold padRight
      show _ = blanks _ ++ p ++ blanks _
      rw [← blanks_add]; simp
    · simp [padRight, blanks]; omega
  · rw [hj, if_neg (by decide), if_neg (by decide)]
    refine ⟨m.toNat, (tw.toNat - p.length) + (cw - tw - m).toNat,
      ?_, ?_, fun _ => by omega, fun h => absurd h (by decide), fun h => absurd h (by decide)⟩
    · unfold padRight
      show _ = blanks _ ++ p ++ blanks _
      rw [← blanks_add]; simp
    · simp [padRight, blanks]; omega

/-! ### The length of a line -/

def joinLen (k : Col) (ks : List Col) : Nat := if isLast ks then 0 else if spanSep k ks = '=' then 2 else 1

/-- The length of a line between the two `|`. -/
def lineLen : List Col → List (Int × Int) → Nat
  | k :: ks, g :: gs => (if k.just = 'a' then 0 else g.1.toNat + joinLen k ks) + lineLen ks gs
  | _, _ => 0

theorem textSep_len (ch : Char) : (textSep ch).length = if ch = '=' then 2 else 1 := by
  unfold textSep
  by_cases h : ch = '='
  · subst h; rfl
  · by_cases h2 : ch ≠ ' '
    · rw [if_pos h2, if_neg h, if_neg h]; rfl
    · rw [if_neg h2, if_neg h]; rfl

theorem beforeSep_len (p ch lc : Char) : (beforeSep p ch lc).length = if ch = '=' then 2 else 1 := by
  unfold beforeSep
  by_cases h : ch = '='
  · subst h
    rw [if_pos (by decide), if_pos rfl, if_pos rfl, if_pos rfl, if_pos rfl]
    split
    · rfl
    · split <;> rfl
  · rw [if_neg h, if_neg h, if_neg h, if_neg h]
    split
    · split
      · rfl
      · split <;> rfl
    · rfl

theorem afterSep_len (p ch own lc : Char) : (afterSep p ch own lc).length = 1 := by
  unfold afterSep
  split
  · split
    · rfl
    · split <;> rfl
  · rfl

theorem sepCols_before (p : Char) (prev : List Col) : ∀ (cols : List Col) (gs : List (Int × Int)) (c : Nat),
    (sepCols true p prev c cols gs).length = lineLen cols gs
  | [], _, _ => rfl
  | _ :: _, [], _ => rfl
  | k :: ks, g :: gs, c => by
    have ih := sepCols_before p prev ks gs (c + 1)
    show (if _ then _ else _ : List Char).length = (if _ then _ else _) + _
    by_cases hk : k.just = 'a'
    · rw [if_pos hk, if_pos hk, ih]; simp
    · rw [if_neg hk, if_neg hk, List.length_append, List.length_append, ih, List.length_replicate]
      unfold joinLen
      cases isLast ks
      · simp only [Bool.false_eq_true, if_false, if_true, beforeSep_len]
      · simp

/-- The lengths agree on a separation after a row if no `=` is between the columns. -/
theorem sepCols_after (p : Char) (prev : List Col) : ∀ (cols : List Col) (gs : List (Int × Int)) (c : Nat),
    (∀ k ∈ cols, k.sep ≠ '=') → (sepCols false p prev c cols gs).length = lineLen cols gs
  | [], _, _, _ => rfl
  | _ :: _, [], _, _ => rfl
  | k :: ks, g :: gs, c, hs => by
    have ih := sepCols_after p prev ks gs (c + 1) (fun x hx => hs x (List.mem_cons_of_mem _ hx))
    have hsep : spanSep k ks ≠ '=' := by
      unfold spanSep
      cases hx : (k :: ks)[span ks]? with
      | none => simp
      | some x => exact hs x (List.mem_of_getElem? hx)
    show (if _ then _ else _ : List Char).length = (if _ then _ else _) + _
    by_cases hk : k.just = 'a'
    · rw [if_pos hk, if_pos hk, ih]; simp
    · rw [if_neg hk, if_neg hk, List.length_append, List.length_append, ih, List.length_replicate]
      unfold joinLen
      cases isLast ks
      · simp only [Bool.false_eq_true, if_false, afterSep_len, if_neg hsep]
      · simp

/-- Where the field of column `c` starts in a line between the two `|`. -/
def offset : List Col → List (Int × Int) → Nat → Nat
  | k :: ks, g :: gs, c + 1 => (if k.just = 'a' then 0 else g.1.toNat + joinLen k ks) + offset ks gs c
  | _, _, _ => 0

/-- The field stands at place `n` of the line. -/
def At (n : Nat) (field line : List Char) : Prop := ∃ pre post, line = pre ++ field ++ post ∧ pre.length = n

theorem At.shift {n : Nat} {field line : List Char} (h : At n field line) (a b : List Char) : At (a.length + n) field (a ++ line ++ b) := by
  obtain ⟨pre, post, e, hl⟩ := h
  exact ⟨a ++ pre, post ++ b, by rw [e]; simp, by simp [hl]⟩

/-- The parts of a text, up to empty lines at the end. -/
def Parts (ps : List (List Char)) (t : List Char) : Prop :=
  ∃ a b : Nat, ps ++ List.replicate a [] = segments t ++ List.replicate b []

theorem parts_one {w : Nat} {t : List Char} (hr : (getNext w t).2 = []) (h : ∀ x ∈ segments t, x.length ≤ w) :
    Parts [(getNext w t).1] t := by
  cases hs : segments t with
  | nil => exact absurd hs (segments_ne t)
  | cons s ss =>
    have hl := h s (by rw [hs]; exact List.mem_cons_self ..)
    have e1 := getNext_segment_fst w t s ss hs hl
    obtain ⟨_, _, e3⟩ := getNext_segment w t s ss hs hl
    unfold Parts
    rw [e1, hs]
    by_cases hn : ss = []
    · subst hn; exact ⟨0, 0, rfl⟩
    · have := e3 hn
      rw [hr] at this
      have : ss = [[]] := this.symm
      subst this
      exact ⟨1, 0, rfl⟩

theorem parts_step {w : Nat} {t : List Char} {ps : List (List Char)} (h : ∀ x ∈ segments t, x.length ≤ w)
    (hp : (∀ x ∈ segments (getNext w t).2, x.length ≤ w) → Parts ps (getNext w t).2) : Parts ((getNext w t).1 :: ps) t := by
  cases hs : segments t with
  | nil => exact absurd hs (segments_ne t)
  | cons s ss =>
    have hl := h s (by rw [hs]; exact List.mem_cons_self ..)
    have e1 := getNext_segment_fst w t s ss hs hl
    obtain ⟨_, e2, e3⟩ := getNext_segment w t s ss hs hl
    by_cases hn : ss = []
    · subst hn
      have hp' := hp (by
        rw [e2 rfl]
        intro x hx
        have hx' : x ∈ [([] : List Char)] := hx
        rw [List.mem_singleton] at hx'
        rw [hx']; exact Nat.zero_le _)
      obtain ⟨a, b, e⟩ := hp'
      rw [e2 rfl] at e
      unfold Parts
      rw [e1, hs]
      refine ⟨a, b + 1, ?_⟩
      show s :: (ps ++ _) = s :: ([] ++ List.replicate (b + 1) [])
      rw [e]; rfl
    · have hp' := hp (by
        rw [e3 hn]
        intro x hx
        exact h x (by rw [hs]; exact List.mem_cons_of_mem _ hx))
      obtain ⟨a, b, e⟩ := hp'
      rw [e3 hn] at e
      unfold Parts
      rw [e1, hs]
      exact ⟨a, b, by show s :: (ps ++ _) = s :: (ss ++ _); rw [e]⟩

/-- One line of text: the pieces that stand on it. -/
theorem printCols_ok : ∀ (cols : List Col) (gs : List (Int × Int)) (ts : List (List Char)), RowOk cols gs ts →
    ∃ (out : List Char) (rests : List (List Char)) (ps : Nat → List Char), printCols cols gs ts = .ok (out, rests) ∧ out.length = lineLen cols gs ∧ RowOk cols gs rests ∧
      rests.length = cols.length ∧
      (∀ (c : Nat) (k : Col) (g : Int × Int) (t : List Char), cols[c]? = some k → gs[c]? = some g → ts[c]? = some t → k.just ≠ 'a' →
        ps c = (getNext g.2.toNat t).1 ∧ rests[c]? = some (getNext g.2.toNat t).2 ∧
        Step g.2.toNat t (ps c) (getNext g.2.toNat t).2 ∧
        ∃ field, At (offset cols gs c) field out ∧ Placed k.just g.1 g.2 (ps c) field)
  | [], [], [], _ => ⟨[], [], fun _ => [], rfl, rfl, trivial, rfl, fun c k g t h => by simp at h⟩
  | k :: ks, g :: gs, t :: ts, h => by
    obtain ⟨outs, rests, ps, h1, h2, h3, h4, h5⟩ := printCols_ok ks gs ts h.2
    by_cases hk : k.just = 'a'
    · refine ⟨outs, [] :: rests, fun c => match c with | 0 => [] | c + 1 => ps c, ?_, ?_, ?_, by simp [h4], ?_⟩
      · show (if _ then _ else _) = _
        rw [if_pos hk, h1]
      · show _ = (if _ then _ else _) + _
        rw [if_pos hk, h2]; simp
      · refine ⟨?_, h3⟩
        unfold CellOk; rw [if_pos hk]
      · intro c k' g' t' e1 e2 e3 hn
        cases c with
        | zero => simp at e1; subst e1; exact absurd hk hn
        | succ c =>
          have e : offset (k :: ks) (g :: gs) (c + 1) = offset ks gs c := by
            show (if _ then _ else _) + _ = _
            rw [if_pos hk]; simp
          rw [e]
          exact h5 c k' g' t' (by simpa using e1) (by simpa using e2) (by simpa using e3) hn
    · obtain ⟨field, f1, f2, f3⟩ := printCell_ok k g t hk h.1
      have hfl : field.length = g.1.toNat := by
        obtain ⟨a, b, e1, e2, _⟩ := f2
        have hcw := (cellOk_ne hk h.1)
        omega
      have hjl : (if isLast ks then [] else textSep (spanSep k ks)).length = joinLen k ks := by
        unfold joinLen
        cases isLast ks
        · simp only [Bool.false_eq_true, if_false, textSep_len]
        · simp
      refine ⟨field ++ (if isLast ks then [] else textSep (spanSep k ks)) ++ outs, (getNext g.2.toNat t).2 :: rests,
        fun c => match c with | 0 => (getNext g.2.toNat t).1 | c + 1 => ps c, ?_, ?_, ?_, by simp [h4], ?_⟩
      · show (if _ then _ else _) = _
        rw [if_neg hk, f1]
        dsimp only
        rw [h1]
      · show _ = (if _ then _ else _) + _
        rw [if_neg hk, List.length_append, List.length_append, h2, hfl, hjl]
      · exact ⟨cellOk_rest hk h.1 f3.words, h3⟩
      · intro c k' g' t' e1 e2 e3 hn
        cases c with
        | zero =>
          simp at e1 e2 e3; subst e1; subst e2; subst e3
          refine ⟨rfl, rfl, f3, field, ⟨[], (if isLast ks then [] else textSep (spanSep k ks)) ++ outs, by simp [List.append_assoc], ?_⟩, f2⟩
          rfl
        | succ c =>
          obtain ⟨a, b, c', fl, d, e⟩ := h5 c k' g' t' (by simpa using e1) (by simpa using e2) (by simpa using e3) hn
          refine ⟨a, by simpa using b, c', fl, ?_, e⟩
          have hh := At.shift d (field ++ (if isLast ks then [] else textSep (spanSep k ks))) []
          have el : (field ++ (if isLast ks then [] else textSep (spanSep k ks))).length + offset ks gs c = offset (k :: ks) (g :: gs) (c + 1) := by
            show _ = (if _ then _ else _) + _
            rw [if_neg hk, List.length_append, hfl, hjl]
          rw [el, List.append_nil] at hh
          exact hh

theorem rowOk_get : ∀ (cols : List Col) (gs : List (Int × Int)) (ts : List (List Char)), RowOk cols gs ts →
    ∀ (c : Nat) (k : Col), cols[c]? = some k → ∃ (g : Int × Int) (t : List Char), gs[c]? = some g ∧ ts[c]? = some t ∧ CellOk k g t
  | [], [], [], _, c, k, h => by simp at h
  | k :: ks, g :: gs, t :: ts, h, 0, k', hk => by
    simp at hk; subst hk; exact ⟨g, t, rfl, rfl, h.1⟩
  | k :: ks, g :: gs, t :: ts, h, c + 1, k', hk => by
    obtain ⟨g', t', a, b, d⟩ := rowOk_get ks gs ts h.2 c k' (by simpa using hk)
    exact ⟨g', t', by simpa using a, by simpa using b, d⟩

theorem rowOk_len : ∀ (cols : List Col) (gs : List (Int × Int)) (ts : List (List Char)), RowOk cols gs ts → ts.length = cols.length
  | [], [], [], _ => rfl
  | _ :: ks, _ :: gs, _ :: ts, h => by
    show ts.length + 1 = ks.length + 1
    rw [rowOk_len ks gs ts h.2]

/-- The lines of a row: each of the same length, and each cell split over them. -/
theorem rowLines_ok (cols : List Col) (gs : List (Int × Int)) : ∀ (f : Nat) (ts : List (List Char)), RowOk cols gs ts →
    0 < f → (∀ t ∈ ts, t.length < f) →
    ∃ (ls : List (List Char)) (P : List (Nat → List Char)), rowLines cols gs f ts = .ok ls ∧ (∀ l ∈ ls, l.length = 2 + lineLen cols gs) ∧ P.length = ls.length ∧
      ∀ (c : Nat) (k : Col) (g : Int × Int) (t : List Char), cols[c]? = some k → gs[c]? = some g → ts[c]? = some t → k.just ≠ 'a' →
        Splits (P.map (fun p : Nat → List Char => p c)) t ∧
        ((∀ x ∈ segments t, x.length ≤ g.2.toNat) → Parts (P.map (fun p : Nat → List Char => p c)) t) ∧
        ∀ (i : Nat) (l : List Char) (p : Nat → List Char), ls[i]? = some l → P[i]? = some p → ¬ ['/', '/'] <:+: p c ∧
          ∃ field, At (1 + offset cols gs c) field l ∧ Placed k.just g.1 g.2 (p c) field
  | 0, _, _, hf, _ => absurd hf (by simp)
  | f + 1, ts, h, _, hf => by
    obtain ⟨out, rests, ps, h1, h2, h3, h4, h5⟩ := printCols_ok cols gs ts h
    have e : rowLines cols gs (f + 1) ts = (if (cols.zip rests).all (fun x => x.1.just == 'n' || x.2.isEmpty) then
        .ok [['|'] ++ out ++ ['|']]
      else match rowLines cols gs f rests with
        | .error e => .error e
        | .ok ls => .ok ((['|'] ++ out ++ ['|']) :: ls)) := by
      show (match printCols cols gs ts with | .error e => _ | .ok (out, rests) => _) = _
      rw [h1]; rfl
    have hlen : (['|'] ++ out ++ ['|']).length = 2 + lineLen cols gs := by simp; omega
    by_cases hd : (cols.zip rests).all (fun x => x.1.just == 'n' || x.2.isEmpty) = true
    · rw [e, if_pos hd]
      refine ⟨_, [ps], rfl, ?_, rfl, ?_⟩
      · intro l hl
        rw [List.mem_singleton] at hl
        rw [hl]; exact hlen
      · intro c k g t e1 e2 e3 hn
        obtain ⟨a, b, st, fl, d, pl⟩ := h5 c k g t e1 e2 e3 hn
        have hr : (getNext g.2.toNat t).2 = [] := by
          have hz : (cols.zip rests)[c]? = some (k, (getNext g.2.toNat t).2) := by
            rw [List.getElem?_zip_eq_some]; exact ⟨e1, b⟩
          have := List.all_eq_true.mp hd _ (List.mem_of_getElem? hz)
          obtain ⟨g', t', _, _, ok⟩ := rowOk_get _ _ _ h c k e1
          have hnn := (cellOk_ne hn ok).2.1
          have hf' : (k.just == 'n') = false := by simpa using hnn
          simp only [hf', Bool.false_or] at this
          simpa using this
        rw [hr] at st
        refine ⟨splits_one st, ?_, ?_⟩
        · intro hx
          show Parts [ps c] t
          rw [a]
          exact parts_one hr hx
        intro i l p hl hp
        cases i with
        | succ i => simp at hl
        | zero =>
          simp only [List.getElem?_cons_zero, Option.some.injEq] at hl hp
          subst hl; subst hp
          exact ⟨st.free, fl, At.shift d ['|'] ['|'], pl⟩
    · have hsm : (∀ t ∈ rests, t.length < f) ∧ 0 < f := by
        have hshort : ∀ t ∈ rests, t ≠ [] → t.length < f := by
          intro r hr hne
          obtain ⟨c, hc⟩ := List.getElem?_of_mem hr
          have hcl : c < cols.length := by
            rw [← h4]
            exact (List.getElem?_eq_some_iff.mp hc).1
          obtain ⟨g, t, a1, a2, ok⟩ := rowOk_get _ _ _ h c cols[c] (List.getElem?_eq_getElem hcl)
          obtain ⟨g', r', a3, a4, ok'⟩ := rowOk_get _ _ _ h3 c cols[c] (List.getElem?_eq_getElem hcl)
          have : r' = r := by rw [hc] at a4; exact (Option.some.inj a4).symm
          subst this
          by_cases hk : (cols[c]).just = 'a'
          · exact absurd (cellOk_a hk ok') hne
          · obtain ⟨_, b, st, _⟩ := h5 c cols[c] g t (List.getElem?_eq_getElem hcl) a1 a2 hk
            have : r' = (getNext g.2.toNat t).2 := by rw [hc] at b; exact Option.some.inj b
            by_cases ht : t = []
            · exfalso
              rcases st.cut with ⟨_, q⟩ | q | q
              · exact hne (this.trans q)
              · rw [ht] at q; simp at q
              · rw [ht] at q; simp at q
            · have h6 := st.shrinks ht
              have h7 := hf t (List.mem_of_getElem? a2)
              rw [this]; omega
        have hex : ∃ r ∈ rests, r ≠ [] := by
          apply Classical.byContradiction
          intro hno
          apply hd
          rw [List.all_eq_true]
          intro x hx
          have : x.2 ∈ rests := (List.of_mem_zip hx).2
          have : x.2 = [] := Classical.byContradiction (fun hh => hno ⟨x.2, this, hh⟩)
          rw [this]; simp
        obtain ⟨r, hr, hne⟩ := hex
        have hpos := hshort r hr hne
        have hp : 0 < f := by omega
        refine ⟨?_, hp⟩
        intro t ht
        by_cases h0 : t = []
        · rw [h0]; exact hp
        · exact hshort t ht h0
      obtain ⟨ls, P, i1, i2, i3, i4⟩ := rowLines_ok cols gs f rests h3 hsm.2 hsm.1
      rw [e, if_neg hd, i1]
      refine ⟨_, ps :: P, rfl, ?_, by simp [i3], ?_⟩
      · intro l hl
        rcases List.mem_cons.mp hl with hl | hl
        · rw [hl]; exact hlen
        · exact i2 l hl
      · intro c k g t e1 e2 e3 hn
        obtain ⟨a, b, st, fl, d, pl⟩ := h5 c k g t e1 e2 e3 hn
        obtain ⟨s1, s3, s2⟩ := i4 c k g _ e1 e2 b hn
        refine ⟨splits_step st s1, ?_, ?_⟩
        · intro hx
          show Parts (ps c :: P.map _) t
          rw [a]
          exact parts_step hx s3
        intro i l p hl hp
        cases i with
        | zero =>
          simp only [List.getElem?_cons_zero, Option.some.injEq] at hl hp
          subst hl; subst hp
          exact ⟨st.free, fl, At.shift d ['|'] ['|'], pl⟩
        | succ i => exact s2 i l p (by simpa using hl) (by simpa using hp)

end Verif.Rpg
