import Verif.Rpg.Rows
/-!
# Lemmas on the widths of the columns of a row
-/
set_option autoImplicit false
namespace Verif.Rpg

/-- What `m` columns from `c2` on add to a cell that spans over them. -/
def spanned (M : Nat → Int) (pad : Nat) : Nat → Nat → Int
  | 0, _ => 0
  | m + 1, c2 => M c2 + 2 * (pad : Int) + 1 + spanned M pad m (c2 + 1)

theorem spanned_nonneg (M : Nat → Int) (pad : Nat) (h : ∀ c, 0 ≤ M c) : ∀ (m c : Nat), 0 ≤ spanned M pad m c
  | 0, _ => Int.le_refl 0
  | m + 1, c => by
    have := spanned_nonneg M pad h m (c + 1)
    have := h c
    show 0 ≤ M c + 2 * (pad : Int) + 1 + spanned M pad m (c + 1)
    omega

theorem spanSize_eq (T : Table) (pad n : Nat) : ∀ (sp c : Nat), spanSize T pad n c sp = T n c + spanned (T n) pad sp (c + 1)
  | 0, c => by show T n c = T n c + 0; omega
  | sp + 1, c => by
    show T n c + 1 + 2 * (pad : Int) + spanSize T pad n (c + 1) sp = T n c + (T n (c + 1) + 2 * (pad : Int) + 1 + spanned (T n) pad sp (c + 1 + 1))
    rw [spanSize_eq T pad n sp (c + 1)]
    omega

theorem spanLoop_eq (R : Round) (pad : Nat) (u : Int) (n : Nat) (M : Nat → Int) (c sp : Nat) : ∀ (m c2 : Nat) (cw tw add : Int),
    (m ≠ 0 → add = R u n (c + sp + 1)) →
    spanLoop R pad u n M c sp m c2 (cw, tw, add) = (cw + spanned M pad m c2, tw + spanned M pad m c2, add)
  | 0, c2, cw, tw, add, _ => by show (cw, tw, add) = (cw + 0, tw + 0, add); simp
  | m + 1, c2, cw, tw, add, h => by
    have h' := h (Nat.succ_ne_zero m)
    have e : spanLoop R pad u n M c sp (m + 1) c2 (cw, tw, add) = spanLoop R pad u n M c sp m (c2 + 1)
      (cw + M c2 + 2 * (pad : Int) + 1 + (R u n (c + sp + 1) - add), tw + M c2 + 2 * (pad : Int) + 1, add + (R u n (c + sp + 1) - add)) := rfl
    rw [e, ← h', spanLoop_eq R pad u n M c sp m (c2 + 1) _ _ _ (fun _ => by rw [← h']; omega)]
    show _ = (cw + (M c2 + 2 * (pad : Int) + 1 + spanned M pad m (c2 + 1)), tw + (M c2 + 2 * (pad : Int) + 1 + spanned M pad m (c2 + 1)), add)
    refine Prod.ext ?_ (Prod.ext ?_ ?_)
    · show cw + M c2 + 2 * (pad : Int) + 1 + (add - add) + spanned M pad m (c2 + 1) = cw + (M c2 + 2 * (pad : Int) + 1 + spanned M pad m (c2 + 1))
      omega
    · show tw + M c2 + 2 * (pad : Int) + 1 + spanned M pad m (c2 + 1) = tw + (M c2 + 2 * (pad : Int) + 1 + spanned M pad m (c2 + 1))
      omega
    · show add + (add - add) = add
      omega

theorem span_nil : span [] = 0 := rfl

theorem span_a {k : Col} {ks : List Col} (h : k.just = 'a') : span (k :: ks) = span ks + 1 := by
  unfold span; simp [h]

theorem span_ne {k : Col} {ks : List Col} (h : k.just ≠ 'a') : span (k :: ks) = 0 := by
  unfold span; simp [h]

theorem span_le (ks : List Col) : span ks ≤ ks.length := by
  unfold span; exact (List.takeWhile_sublist _).length_le

/-- The columns and their `a`s. -/
def total (M : Nat → Int) (pad : Nat) : Nat → List Col → Int
  | _, [] => 0
  | c, k :: ks => M c + 2 * (pad : Int) + (if k.just = 'a' then 1 else 0) + total M pad (c + 1) ks

/-- The sum of the column sizes of a row. -/
def gsum : List Col → List (Int × Int) → Int
  | k :: ks, g :: gs => (if k.just = 'a' then 0 else g.1) + gsum ks gs
  | _, _ => 0

/-- The texts of the row fit: every word in the room of its cell. -/
def Fit (M : Nat → Int) (pad : Nat) (text : Nat → List Char) : Nat → List Col → Prop
  | _, [] => True
  | c, k :: ks => (k.just ≠ 'a' → isLetter k.just = true ∧ k.just ≠ 'n' ∧ (word (text c) : Int) ≤ M c + spanned M pad (span ks) (c + 1)) ∧
    Fit M pad text (c + 1) ks

theorem isLast_iff (ks : List Col) : isLast ks = true ↔ span ks = ks.length := by
  unfold isLast
  have := span_le ks
  rw [List.isEmpty_iff, List.drop_eq_nil_iff]
  omega

/-- One cell of `geom`. -/
theorem geom_cons (R : Round) (pad : Nat) (u : Int) (n : Nat) (M : Nat → Int) (c : Nat) (add : Int) (k : Col) (ks : List Col)
    (hk : k.just ≠ 'a') (hc : c + (ks.length + 1) = n) :
    geom R pad u n M c add (k :: ks) =
      (2 * (pad : Int) + M c + (if c ≠ n - 1 then R u n (c + span ks + 1) - add else u - add) + spanned M pad (span ks) (c + 1),
       M c + spanned M pad (span ks) (c + 1)) ::
      geom R pad u n M (c + 1) (if c ≠ n - 1 then R u n (c + span ks + 1) else add) ks := by
  have e : geom R pad u n M c add (k :: ks) =
      (if k.just = 'a' then (0, 0) :: geom R pad u n M (c + 1) add ks
       else
        ((spanLoop R pad u n M c (span ks) (span ks) (c + 1) (2 * (pad : Int) + M c +
          (if c ≠ n - 1 then R u n (c + span ks + 1) - add else u - add), M c,
          if c ≠ n - 1 then add + (if c ≠ n - 1 then R u n (c + span ks + 1) - add else u - add) else add)).1,
         (spanLoop R pad u n M c (span ks) (span ks) (c + 1) (2 * (pad : Int) + M c +
          (if c ≠ n - 1 then R u n (c + span ks + 1) - add else u - add), M c,
          if c ≠ n - 1 then add + (if c ≠ n - 1 then R u n (c + span ks + 1) - add else u - add) else add)).2.1) ::
         geom R pad u n M (c + 1) (spanLoop R pad u n M c (span ks) (span ks) (c + 1) (2 * (pad : Int) + M c +
          (if c ≠ n - 1 then R u n (c + span ks + 1) - add else u - add), M c,
          if c ≠ n - 1 then add + (if c ≠ n - 1 then R u n (c + span ks + 1) - add else u - add) else add)).2.2 ks) := rfl
  rw [e, if_neg hk]
  have ha : (if c ≠ n - 1 then add + (if c ≠ n - 1 then R u n (c + span ks + 1) - add else u - add) else add) =
      (if c ≠ n - 1 then R u n (c + span ks + 1) else add) := by
    by_cases h : c ≠ n - 1
    · rw [if_pos h, if_pos h, if_pos h]; omega
    · rw [if_neg h, if_neg h]
  rw [ha, spanLoop_eq]
  intro h0
  have := span_le ks
  rw [if_pos (by omega)]

theorem geom_a (R : Round) (pad : Nat) (u : Int) (n : Nat) (M : Nat → Int) (c : Nat) (add : Int) (k : Col) (ks : List Col)
    (hk : k.just = 'a') : geom R pad u n M c add (k :: ks) = (0, 0) :: geom R pad u n M (c + 1) add ks := by
  show (if _ then _ else _) = _
  rw [if_pos hk]

theorem gsum_geom (R : Round) (hR : Shares R) (pad : Nat) (u : Int) (hu : 0 ≤ u) (n : Nat) (M : Nat → Int) :
    ∀ (cols : List Col) (c : Nat) (add : Int), c + cols.length = n →
    gsum cols (geom R pad u n M c add cols) =
      total M pad c cols - spanned M pad (span cols) c + (if isLast cols then 0 else u - add)
  | [], c, add, _ => rfl
  | k :: ks, c, add, hc => by
    have hc' : c + 1 + ks.length = n := by simp at hc; omega
    by_cases hk : k.just = 'a'
    · have ih := gsum_geom R hR pad u hu n M ks (c + 1) add hc'
      have hl : isLast (k :: ks) = isLast ks := by
        apply Bool.eq_iff_iff.mpr
        rw [isLast_iff, isLast_iff, span_a hk]; simp
      rw [geom_a _ _ _ _ _ _ _ _ _ hk, span_a hk, hl]
      show (if _ then _ else _) + _ = M c + 2 * (pad : Int) + (if _ then _ else _) + _ - (M c + 2 * (pad : Int) + 1 + _) + _
      rw [if_pos hk, if_pos hk, ih]
      omega
    · have ih := gsum_geom R hR pad u hu n M ks (c + 1) (if c ≠ n - 1 then R u n (c + span ks + 1) else add) hc'
      rw [geom_cons R pad u n M c add k ks hk (by simp at hc; omega), span_ne hk]
      have hl : isLast (k :: ks) = false := by
        cases h : isLast (k :: ks)
        · rfl
        · have := (isLast_iff _).mp h
          rw [span_ne hk] at this; simp at this
      rw [hl]
      show (if _ then _ else _) + _ = M c + 2 * (pad : Int) + (if _ then _ else _) + _ - 0 + (u - add)
      rw [if_neg hk, if_neg hk, ih]
      cases h : isLast ks
      · have hne : c ≠ n - 1 := by
          intro hh
          have : ks = [] := by
            cases ks with
            | nil => rfl
            | cons x y => simp at hc; omega
          rw [this] at h; exact absurd h (by decide)
        rw [if_pos hne, if_pos hne]
        simp only [Bool.false_eq_true, if_false]
        omega
      · have hs := (isLast_iff _).mp h
        rw [hs]
        simp only [if_true]
        by_cases hne : c ≠ n - 1
        · rw [if_pos hne]
          have : c + ks.length + 1 = n := by omega
          rw [this, (hR u n hu (by omega)).1]
          omega
        · rw [if_neg hne]
          omega

/-- No column is smaller than its text, and all texts fit. -/
theorem rowOk_geom (R : Round) (hR : Shares R) (pad : Nat) (u : Int) (hu : 0 ≤ u) (n : Nat) (M : Nat → Int) (hM : ∀ c, 0 ≤ M c)
    (text : Nat → List Char) : ∀ (cols : List Col) (c : Nat) (add : Int), c + cols.length = n → Fit M pad text c cols →
    add ≤ R u n (c + span cols) → gsum cols (geom R pad u n M c add cols) ≤ 298 →
    RowOk cols (geom R pad u n M c add cols) (rowTexts text c cols) ∧ 0 ≤ gsum cols (geom R pad u n M c add cols) ∧
    (lineLen cols (geom R pad u n M c add cols) : Int) = gsum cols (geom R pad u n M c add cols) + lineLen cols (cols.map (fun _ => (0, 0)))
  | [], c, add, _, _, _, _ => ⟨trivial, Int.le_refl 0, rfl⟩
  | k :: ks, c, add, hc, hf, hadd, hB => by
    have hc' : c + 1 + ks.length = n := by simp at hc; omega
    by_cases hk : k.just = 'a'
    · rw [geom_a _ _ _ _ _ _ _ _ _ hk] at hB ⊢
      have hB' : (if k.just = 'a' then 0 else (0 : Int)) + gsum ks (geom R pad u n M (c + 1) add ks) ≤ 298 := hB
      rw [if_pos hk] at hB'
      have hadd' : add ≤ R u n (c + 1 + span ks) := by
        rw [span_a hk] at hadd
        have : c + (span ks + 1) = c + 1 + span ks := by omega
        rw [this] at hadd; exact hadd
      obtain ⟨i1, i2, i3⟩ := rowOk_geom R hR pad u hu n M hM text ks (c + 1) add hc' hf.2 hadd' (by omega)
      refine ⟨⟨?_, i1⟩, ?_, ?_⟩
      · show CellOk k (0, 0) (if k.just = 'a' then [] else text c)
        rw [if_pos hk]; unfold CellOk; rw [if_pos hk]
      · show 0 ≤ (if k.just = 'a' then 0 else (0 : Int)) + _
        rw [if_pos hk]; omega
      · show (((if k.just = 'a' then 0 else (0 : Int).toNat + joinLen k ks) + lineLen ks _ : Nat) : Int) =
          ((if k.just = 'a' then 0 else (0 : Int)) + _) + ((if k.just = 'a' then 0 else (0 : Int).toNat + joinLen k ks) + lineLen ks (ks.map (fun _ => (0, 0))) : Nat)
        rw [if_pos hk, if_pos hk]
        omega
    · have hn : 0 < n := by omega
      obtain ⟨r1, r2, r3⟩ := hR u n hu hn
      rw [geom_cons R pad u n M c add k ks hk (by simp at hc; omega)] at hB ⊢
      rw [span_ne hk] at hadd
      have hle : add ≤ R u n (c + span ks + 1) := Int.le_trans hadd (r3 _ _ (by omega))
      have hadj : 0 ≤ (if c ≠ n - 1 then R u n (c + span ks + 1) - add else u - add) := by
        split
        · omega
        · rename_i hh
          have := r3 c n (by omega)
          rw [r1] at this
          have : add ≤ u := Int.le_trans hadd this
          omega
      have hadd' : (if c ≠ n - 1 then R u n (c + span ks + 1) else add) ≤ R u n (c + 1 + span ks) := by
        have e : c + 1 + span ks = c + span ks + 1 := by omega
        rw [e]
        split
        · exact Int.le_refl _
        · exact hle
      have hsp := spanned_nonneg M pad hM (span ks) (c + 1)
      have hMc := hM c
      generalize hgeo : geom R pad u n M (c + 1) (if c ≠ n - 1 then R u n (c + span ks + 1) else add) ks = gs at *
      generalize hcw : 2 * (pad : Int) + M c + (if c ≠ n - 1 then R u n (c + span ks + 1) - add else u - add) + spanned M pad (span ks) (c + 1) = cw at *
      have hB' : (if k.just = 'a' then 0 else cw) + gsum ks gs ≤ 298 := hB
      rw [if_neg hk] at hB'
      obtain ⟨i1, i2, i3⟩ := rowOk_geom R hR pad u hu n M hM text ks (c + 1) _ hc' hf.2 hadd' (by rw [hgeo]; omega)
      rw [hgeo] at i1 i2 i3
      obtain ⟨f1, f2, f3⟩ := hf.1 hk
      refine ⟨⟨?_, i1⟩, ?_, ?_⟩
      · show CellOk k (cw, _) (if k.just = 'a' then [] else text c)
        rw [if_neg hk]; unfold CellOk; rw [if_neg hk]
        refine ⟨f1, f2, ?_, ?_, ?_, ?_, f3⟩ <;> dsimp only <;> omega
      · show 0 ≤ (if k.just = 'a' then 0 else cw) + _
        rw [if_neg hk]; omega
      · show (((if k.just = 'a' then 0 else cw.toNat + joinLen k ks) + lineLen ks gs : Nat) : Int) =
          ((if k.just = 'a' then 0 else cw) + gsum ks gs) + ((if k.just = 'a' then 0 else (0 : Int).toNat + joinLen k ks) + lineLen ks (ks.map (fun _ => (0, 0))) : Nat)
        rw [if_neg hk, if_neg hk, if_neg hk]
        omega

/-- The text size of a column. -/
theorem geom_text (R : Round) (pad : Nat) (u : Int) (n : Nat) (M : Nat → Int) : ∀ (cols : List Col) (c0 c : Nat) (add : Int) (k : Col) (g : Int × Int),
    c0 + cols.length = n → cols[c]? = some k → k.just ≠ 'a' → (geom R pad u n M c0 add cols)[c]? = some g →
    g.2 = M (c0 + c) + spanned M pad (span (cols.drop (c + 1))) (c0 + c + 1)
  | [], _, _, _, _, _, _, h, _, _ => by simp at h
  | k :: ks, c0, 0, add, k', g, hc, h, hk, hg => by
    simp at h; subst h
    rw [geom_cons R pad u n M c0 add k ks hk (by simp at hc; omega)] at hg
    simp at hg
    rw [← hg]; rfl
  | k :: ks, c0, c + 1, add, k', g, hc, h, hk, hg => by
    have hc' : c0 + 1 + ks.length = n := by simp at hc; omega
    have e : c0 + (c + 1) = c0 + 1 + c := by omega
    rw [e]
    by_cases ha : k.just = 'a'
    · rw [geom_a _ _ _ _ _ _ _ _ _ ha] at hg
      exact geom_text R pad u n M ks (c0 + 1) c _ k' g hc' (by simpa using h) hk (by simpa using hg)
    · rw [geom_cons R pad u n M c0 add k ks ha (by simp at hc; omega)] at hg
      exact geom_text R pad u n M ks (c0 + 1) c _ k' g hc' (by simpa using h) hk (by simpa using hg)

/-- As `Fit`, for the measure of the text. -/
def FitSize (M : Nat → Int) (pad : Nat) (text : Nat → List Char) : Nat → List Col → Prop
  | _, [] => True
  | c, k :: ks => (k.just ≠ 'a' → (size k.just (text c) : Int) ≤ M c + spanned M pad (span ks) (c + 1)) ∧ FitSize M pad text (c + 1) ks

theorem fit_of_size (M : Nat → Int) (pad : Nat) (text : Nat → List Char) : ∀ (cols : List Col) (c : Nat),
    (∀ k ∈ cols, isLetter k.just = true ∧ k.just ≠ 'n') → FitSize M pad text c cols → Fit M pad text c cols
  | [], _, _, _ => trivial
  | k :: ks, c, hl, h => by
    refine ⟨fun hk => ⟨(hl k (List.mem_cons_self ..)).1, (hl k (List.mem_cons_self ..)).2, ?_⟩,
      fit_of_size M pad text ks (c + 1) (fun x hx => hl x (List.mem_cons_of_mem _ hx)) h.2⟩
    have hw := word_le_size k.just (text c)
    have := h.1 hk
    omega

theorem fitSize_get (M : Nat → Int) (pad : Nat) (text : Nat → List Char) : ∀ (cols : List Col) (c0 c : Nat) (k : Col),
    FitSize M pad text c0 cols → cols[c]? = some k → k.just ≠ 'a' →
    (size k.just (text (c0 + c)) : Int) ≤ M (c0 + c) + spanned M pad (span (cols.drop (c + 1))) (c0 + c + 1)
  | [], _, _, _, _, h, _ => by simp at h
  | k :: ks, c0, 0, k', hf, h, hk => by
    simp at h; subst h
    exact hf.1 hk
  | k :: ks, c0, c + 1, k', hf, h, hk => by
    have e : c0 + (c + 1) = c0 + 1 + c := by omega
    rw [e]
    exact fitSize_get M pad text ks (c0 + 1) c k' hf.2 (by simpa using h) hk

/-! ### The separators -/

/-- An `=` stands only before a column of its own. -/
def EqOk : List Col → Prop
  | [] => True
  | k :: ks => (k.sep = '=' → ∃ k', ks.head? = some k' ∧ k'.just ≠ 'a') ∧ EqOk ks

def eqs (ks : List Col) : Nat := ks.countP (fun k => k.sep == '=')

def own (ks : List Col) : Nat := ks.countP (fun k => k.just != 'a')

theorem eqs_cons (k : Col) (ks : List Col) : eqs (k :: ks) = eqs ks + (if k.sep = '=' then 1 else 0) := by
  unfold eqs; rw [List.countP_cons]; simp

theorem own_cons (k : Col) (ks : List Col) : own (k :: ks) = own ks + (if k.just = 'a' then 0 else 1) := by
  unfold own; rw [List.countP_cons]; by_cases h : k.just = 'a' <;> simp [h]

/-- The separators that are printed on a line: one between each two columns, and one more for each `=`; those after the leading `a`s
belong to the column before. -/
theorem joins_eq : ∀ (cols : List Col), EqOk cols →
    lineLen cols (cols.map (fun _ => ((0 : Int), (0 : Int)))) + (if isLast cols then 0 else 1) + eqs (cols.take (span cols)) = own cols + eqs cols ∧
    (∀ k : Col, (k.sep = '=' → ∃ k', cols.head? = some k' ∧ k'.just ≠ 'a') →
      joinLen k cols = (if isLast cols then 0 else 1) + (if k.sep = '=' then 1 else 0) + eqs (cols.take (span cols)))
  | [], _ => ⟨rfl, fun k h => by
      have hs : k.sep ≠ '=' := fun he => by obtain ⟨k', h', _⟩ := h he; simp at h'
      rw [if_neg hs]; rfl⟩
  | c :: cs, h => by
    obtain ⟨i1, i2⟩ := joins_eq cs h.2
    have ij := i2 c h.1
    have hz : lineLen (c :: cs) ((c :: cs).map (fun _ => ((0 : Int), (0 : Int)))) =
        (if c.just = 'a' then 0 else joinLen c cs) + lineLen cs (cs.map (fun _ => ((0 : Int), (0 : Int)))) := by
      show (if c.just = 'a' then 0 else (0 : Int).toNat + joinLen c cs) + _ = _
      simp
    by_cases hc : c.just = 'a'
    · have hl : isLast (c :: cs) = isLast cs := by
        apply Bool.eq_iff_iff.mpr
        rw [isLast_iff, isLast_iff, span_a hc]; simp
      have ht : (c :: cs).take (span (c :: cs)) = c :: cs.take (span cs) := by rw [span_a hc]; rfl
      rw [hz, ht, hl, eqs_cons, eqs_cons, own_cons, if_pos hc, if_pos hc]
      refine ⟨by omega, ?_⟩
      intro k hk
      have hs : k.sep ≠ '=' := fun he => by
        obtain ⟨k', h', hn⟩ := hk he
        simp at h'; subst h'; exact hn hc
      rw [if_neg hs]
      unfold joinLen
      rw [hl]
      unfold joinLen at ij
      cases hla : isLast cs
      · rw [hla] at ij
        have hsp : spanSep k (c :: cs) = spanSep c cs := by
          unfold spanSep; rw [span_a hc]; rfl
        simp only [Bool.false_eq_true, if_false] at ij ⊢
        rw [hsp]
        by_cases he : spanSep c cs = '='
        · rw [if_pos he] at ij ⊢; omega
        · rw [if_neg he] at ij ⊢; omega
      · rw [hla] at ij
        simp only [if_true] at ij ⊢
        omega
    · have hl : isLast (c :: cs) = false := by
        cases h : isLast (c :: cs)
        · rfl
        · have := (isLast_iff _).mp h
          rw [span_ne hc] at this; simp at this
      have ht : (c :: cs).take (span (c :: cs)) = [] := by rw [span_ne hc]; rfl
      rw [hz, ht, hl, eqs_cons, own_cons, if_neg hc, if_neg hc, ij]
      refine ⟨?_, ?_⟩
      · have e0 : eqs [] = 0 := rfl
        simp only [Bool.false_eq_true, if_false, e0]
        omega
      · intro k _
        unfold joinLen
        rw [hl]
        have hsp : spanSep k (c :: cs) = k.sep := by unfold spanSep; rw [span_ne hc]; rfl
        rw [hsp]
        have e0 : eqs [] = 0 := rfl
        simp only [Bool.false_eq_true, if_false, e0]
        split <;> rfl

theorem total_eq (M : Nat → Int) (pad : Nat) : ∀ (cols : List Col) (c : Nat),
    total M pad c cols + own cols = sumSizes M pad c cols + cols.length
  | [], _ => rfl
  | k :: ks, c => by
    have ih := total_eq M pad ks (c + 1)
    show (M c + 2 * (pad : Int) + (if k.just = 'a' then 1 else 0) + total M pad (c + 1) ks) + own (k :: ks) =
      (M c + 2 * (pad : Int) + sumSizes M pad (c + 1) ks) + ((ks.length + 1 : Nat) : Int)
    rw [own_cons]
    by_cases h : k.just = 'a'
    · rw [if_pos h, if_pos h]; omega
    · rw [if_neg h, if_neg h]; omega

/-- A definition for which the lines come out right. -/
structure Regular (d : Def) : Prop where
  first : ∃ k, d.cols.head? = some k ∧ k.just ≠ 'a'
  letters : ∀ k ∈ d.cols, isLetter k.just = true ∧ k.just ≠ 'n'
  equal : EqOk d.cols
  chars : d.chars = eqs d.cols

/-- The line of a row is as wide as the report. -/
theorem row_width (R : Round) (hR : Shares R) (pad : Nat) (d : Def) (hd : Regular d) (T : Table) (hT : ∀ n c, 0 ≤ T n c) (W : Int)
    (hW : minWidth T pad d ≤ W) (hB : W ≤ 300) (text : Nat → List Char) (hf : Fit (T d.cols.length) pad text 0 d.cols) :
    RowOk d.cols (geom R pad (W - minWidth T pad d) d.cols.length (T d.cols.length) 0 0 d.cols) (rowTexts text 0 d.cols) ∧
    ((2 + lineLen d.cols (geom R pad (W - minWidth T pad d) d.cols.length (T d.cols.length) 0 0 d.cols) : Nat) : Int) = W := by
  obtain ⟨k, hk, hka⟩ := hd.first
  obtain ⟨ks, hks⟩ : ∃ ks, d.cols = k :: ks := by
    cases h : d.cols with
    | nil => rw [h] at hk; simp at hk
    | cons x y => rw [h] at hk; simp at hk; exact ⟨y, by rw [hk]⟩
  have hsp : span d.cols = 0 := by rw [hks]; exact span_ne hka
  have hl : isLast d.cols = false := by
    cases h : isLast d.cols
    · rfl
    · have := (isLast_iff _).mp h
      rw [hsp, hks] at this; simp at this
  have hu : 0 ≤ W - minWidth T pad d := by omega
  have hn : 0 < d.cols.length := by rw [hks]; simp
  have hg := gsum_geom R hR pad (W - minWidth T pad d) hu d.cols.length (T d.cols.length) d.cols 0 0 (by omega)
  rw [hl, hsp] at hg
  have e0 : spanned (T d.cols.length) pad 0 0 = 0 := rfl
  rw [e0] at hg
  simp only [Bool.false_eq_true, if_false] at hg
  have ht := total_eq (T d.cols.length) pad d.cols 0
  have hj := (joins_eq d.cols hd.equal).1
  rw [hl, hsp] at hj
  have e1 : eqs (d.cols.take 0) = 0 := rfl
  rw [e1] at hj
  simp only [Bool.false_eq_true, if_false] at hj
  have hmw : minWidth T pad d = 2 + sumSizes (T d.cols.length) pad 0 d.cols + ((d.chars : Int) + d.cols.length - 1) := rfl
  rw [hd.chars] at hmw
  have hown : own d.cols ≤ d.cols.length := List.countP_le_length
  obtain ⟨h1, h2, h3⟩ := rowOk_geom R hR pad (W - minWidth T pad d) hu d.cols.length (T d.cols.length) (hT _) text d.cols 0 0 (by omega) hf
    ((hR _ _ hu hn).2.1 _) (by omega)
  refine ⟨h1, ?_⟩
  omega

end Verif.Rpg
