import Verif.SysRep.Lemmas
/-!
# asclite's summary reports: properties C219-C224
-/
set_option autoImplicit false
namespace Verif.SysRep
open Verif.Range Verif.Stats Verif.Anovar
open Verif.Summary (fRound clamp Shows percent fRound_shows pow_pos10 shows_unique foldl_add clamp_range clamp_mono clamp_id LogLike uncertainty percent_nonneg percent_add percent_self)

/-- Two speakers for the examples: one with three words right and one substituted, in two segments, the other with one insertion and no reference words. -/
def ann : Spk := ⟨"ann".toList, [[⟨.correct, some (9 / 10)⟩, ⟨.correct, some (1 / 2)⟩], [⟨.correct, some (9 / 10)⟩, ⟨.substitution, some (3 / 10)⟩]]⟩
def bob : Spk := ⟨"bob".toList, [[⟨.insertion, some (1 / 5)⟩]]⟩
def eve : Spk := ⟨"eve".toList, [[⟨.correct, some (4 / 5)⟩, ⟨.deletion, none⟩]]⟩
/-- Stand-ins for the functions on reals. -/
def rootT : Rat → Rat := fun x => x
def lgT : Rat → Rat := fun x => x - 1

/-! ## C219: shape -/

/-- C219: all lines of the table have the same length. -/
theorem table_rectangular (sqrt lg : Rat → Rat) (o : Opt) (title : Str) (ss : List Spk) (line : Str) (h : some line ∈ table sqrt lg o title ss) :
    line.length = wLine sqrt o ss := by
  have hw := wLine_ge sqrt o ss
  have hsep : ∀ c : Char, (separator c (wLine sqrt o ss)).length = wLine sqrt o ss := by
    intro c
    unfold separator
    rw [List.cons_append, List.length_cons, List.length_append, List.length_replicate, List.length_singleton]
    omega
  have hstat : ∀ name pick, statRow sqrt lg o ss name pick = some line → line.length = wLine sqrt o ss := by
    intro name pick hs
    unfold statRow at hs
    dsimp only at hs
    split at hs
    · simp only [Option.some.injEq] at hs
      rw [← hs, row_length]
    · simp at hs
  unfold table at h
  dsimp only at h
  rw [List.mem_append, List.mem_append] at h
  rcases h with (h | h) | h
  · simp only [List.mem_cons, List.not_mem_nil, or_false, Option.some.injEq] at h
    rcases h with h | h | h | h | h
    · rw [h, place_length _ _ _ (by omega)]
    · rw [h, List.cons_append, List.length_cons, List.length_append, List.length_replicate, List.length_singleton]; omega
    · rw [h, List.cons_append, List.length_cons, List.length_append, place_length _ _ _ (by omega), List.length_singleton]; omega
    · rw [h, hsep]
    · rw [h, row_length]
  · obtain ⟨l, hl, hm⟩ := List.mem_flatten.1 h
    obtain ⟨s, _, rfl⟩ := List.mem_map.1 hl
    simp only [List.mem_cons, List.not_mem_nil, or_false, Option.some.injEq] at hm
    rcases hm with hm | hm
    · rw [hm, hsep]
    · unfold spkRow at hm
      split at hm
      · simp only [Option.some.injEq] at hm
        rw [hm, row_length]
      · simp at hm
  · simp only [List.mem_cons, List.not_mem_nil, or_false, Option.some.injEq] at h
    rcases h with h | h | h | h | h | h | h
    · rw [h, hsep]
    · unfold sumRow at h
      dsimp only at h
      split at h
      · simp only [Option.some.injEq] at h
        rw [h, row_length]
      · simp at h
    · rw [h, hsep]
    · exact hstat _ _ h.symm
    · exact hstat _ _ h.symm
    · exact hstat _ _ h.symm
    · rw [h, List.cons_append, List.length_cons, List.length_append, List.length_replicate, List.length_singleton]; omega

/-- C219: two lines for each speaker, and twelve more. -/
theorem table_lines (sqrt lg : Rat → Rat) (o : Opt) (title : Str) (ss : List Spk) : (table sqrt lg o title ss).length = 2 * ss.length + 12 := by
  unfold table
  dsimp only
  rw [List.length_append, List.length_append]
  have : ((ss.map fun s => [some (separator '-' (wLine sqrt o ss)), spkRow sqrt lg o ss s]).flatten).length = 2 * ss.length := by
    generalize wLine sqrt o ss = w
    have : ∀ l : List Spk, ((l.map fun s => [some (separator '-' w), spkRow sqrt lg o ss s]).flatten).length = 2 * l.length := by
      intro l
      induction l with
      | nil => rfl
      | cons x l ih => rw [List.map_cons, List.flatten_cons, List.length_append, ih, List.length_cons]; simp only [List.length_cons, List.length_nil]; omega
    exact this ss
  rw [this]
  simp only [List.length_cons, List.length_nil]
  omega

/-- C219: the headings stand over their columns: where the heading stands in the title line, at the right end of the column, the speakers' rows
have their cells. -/
theorem columns_aligned (sqrt lg : Rat → Rat) (o : Opt) (ss : List Spk) (c : Col) (hc : c ∈ columns o.withSpk) :
    field (rowText sqrt o ss .left "Speaker".toList "#Snt".toList "#Wrd".toList Col.title "S.Err".toList "NCE".toList) (start sqrt o ss c) (wCol sqrt c ss) =
        rightIn (wCol sqrt c ss) c.title ∧
      ∀ s row, spkRow sqrt lg o ss s = some row → ∃ t, spkCell o ss s c = some t ∧ field row (start sqrt o ss c) (wCol sqrt c ss) = place .right (wCol sqrt c ss) t := by
  have hw := wCol_ge sqrt c ss
  refine ⟨?_, ?_⟩
  · unfold field
    rw [row_field _ _ _ _ _ _ _ _ _ _ _ hc, place_right]
    have : c.title.length ≤ 6 := by cases c <;> decide
    omega
  · intro s row h
    unfold spkRow at h
    split at h
    · rename_i cells serr nc h1 h2 h3
      simp only [Option.some.injEq] at h
      refine ⟨cells c, allCells_some h1 c hc, ?_⟩
      rw [← h]
      exact row_field _ _ _ _ _ _ _ _ _ _ _ hc
    · simp at h

example : ((table rootT lgT ⟨true, false⟩ "sys.ctm".toList [ann, bob]).getD 4 none).map String.ofList =
    some "| Speaker |  #Snt   #Wrd |    Corr     Sub     Del     Ins     Err  S.Err |    NCE    |" := by decide +kernel
example : (spkRow rootT lgT ⟨false, true⟩ [ann, bob, eve] ann).map String.ofList =
    some "| ann     |     2      4 |   75.0    25.0     0.0     0.0     0.0    25.0    50.0 |   0.067   |" := by decide +kernel

/-! ## C220: numbers are shown whole -/

/-- C220: a speaker's counts, in the raw report, stand whole at the right end of their columns, with a blank where other speakers have no
reference words; the same for the totals. -/
theorem counts_whole (sqrt lg : Rat → Rat) (o : Opt) (ss : List Spk) (s : Spk) (row : Str) (c : Col) (hr : o.raw = true) (hs : s ∈ ss) (hc : c ∈ columns o.withSpk)
    (h : spkRow sqrt lg o ss s = some row) :
    field row (start sqrt o ss c) (wCol sqrt c ss) = rightIn (wCol sqrt c ss) (Nat.toDigits 10 (num c s) ++ if flagged ss then [' '] else []) := by
  obtain ⟨t, h1, h2⟩ := (columns_aligned sqrt lg o ss c hc).2 s row h
  rw [h2]
  unfold spkCell at h1
  rw [hr] at h1
  simp only [true_or, if_true, not_true_eq_false, and_false, if_false, Option.some.injEq] at h1
  rw [← h1]
  have hsz := statAll_size sqrt (num c) ss (fun hn => by rw [hn] at hs; simp at hs) (num c s) (num_sum_le _ _ _ hs)
  rw [place_right]
  · rfl
  · rw [List.length_append]
    unfold wCol
    cases flagged ss
    · simp only [Bool.false_eq_true, if_false, List.length_nil]; omega
    · simp only [if_true, List.length_singleton]; omega

theorem totals_whole (sqrt lg : Rat → Rat) (o : Opt) (ss : List Spk) (row : Str) (c : Col) (hr : o.raw = true) (hne : ss ≠ []) (hc : c ∈ columns o.withSpk)
    (h : sumRow sqrt lg o ss = some row) :
    field row (start sqrt o ss c) (wCol sqrt c ss) = rightIn (wCol sqrt c ss) (Nat.toDigits 10 (ss.map (num c)).sum ++ if flagged ss then [' '] else []) := by
  unfold sumRow at h
  dsimp only at h
  split at h
  · rename_i cells serr nc h1 h2 h3
    simp only [Option.some.injEq] at h
    have hcell := allCells_some h1 c hc
    unfold sumCell at hcell
    dsimp only at hcell
    rw [if_pos hr, Option.some.injEq, statAll_sum, floor_nat] at hcell
    rw [← h]
    unfold field
    rw [row_field _ _ _ _ _ _ _ _ _ _ _ hc, ← hcell]
    have hsz := statAll_size sqrt (num c) ss hne _ (Nat.le_refl _)
    rw [place_right]
    · rfl
    · rw [List.length_append]
      unfold wCol
      cases flagged ss
      · simp only [Bool.false_eq_true, if_false, List.length_nil]; omega
      · simp only [if_true, List.length_singleton]; omega
  · simp at h

/-- C220: so is a percentage below 10000 (after rounding), in particular all but the insertions' and the errors'. -/
theorem percent_whole (sqrt lg : Rat → Rat) (o : Opt) (ss : List Spk) (s : Spk) (row : Str) (c : Col) (hr : o.raw = false) (hc : c ∈ columns o.withSpk)
    (hw : 0 < refWords s) (h : spkRow sqrt lg o ss s = some row) (hsmall : percent (num c s) (refWords s) < 199999 / 20) :
    field row (start sqrt o ss c) (wCol sqrt c ss) =
      rightIn (wCol sqrt c ss) (oneDecimal (fRound (percent (num c s) (refWords s)) 1) ++ if flagged ss then [' '] else []) := by
  obtain ⟨t, h1, h2⟩ := (columns_aligned sqrt lg o ss c hc).2 s row h
  rw [h2]
  have hpos : (0 : Rat) < (refWords s : Rat) := by exact_mod_cast hw
  have hnn : (0 : Rat) ≤ percent (num c s) (refWords s) := percent_nonneg (by exact_mod_cast Nat.zero_le _) hpos
  unfold spkCell at h1
  rw [hr] at h1
  simp only [Bool.false_eq_true, false_or, if_neg (Nat.pos_iff_ne_zero.1 hw), Nat.pos_iff_ne_zero.1 hw, false_and, if_false, pctOf] at h1
  have e : 100 * (num c s : Rat) / (refWords s : Rat) = percent (num c s) (refWords s) := rfl
  rw [e, text1_some hnn (by grind), Option.map_some, Option.some.injEq] at h1
  rw [← h1, place_right]
  have hl : (oneDecimal (fRound (percent (num c s) (refWords s)) 1)).length ≤ 6 := by
    have hk := fRound_nonneg 1 hnn
    have hs := (fRound_shows 1 hnn).1
    rw [oneDecimal_length hk]
    generalize fRound (percent (num c s) (refWords s)) 1 = k at hk hs
    obtain ⟨n, rfl⟩ := Int.eq_ofNat_of_zero_le hk
    have p1 : (10 : Rat) ^ 1 = 10 := by decide +kernel
    rw [p1] at hs
    have : (((n : Int)) : Rat) < ((100000 : Int) : Rat) := by
      have : (((100000 : Int)) : Rat) = 100000 := rfl
      grind
    have := Rat.intCast_lt_intCast.1 this
    have hn : n / 10 < 10 ^ 4 := by omega
    have := (textN_le (n := n / 10) (k := 4) (by decide)).2 hn
    rw [Int.natAbs_natCast]
    omega
  have hcw := wCol_ge sqrt c ss
  rw [List.length_append]
  cases hf : flagged ss
  · rw [hf] at hcw; simp only [Bool.false_eq_true, if_false, List.length_nil] at hcw ⊢; omega
  · rw [hf] at hcw; simp only [if_true, List.length_singleton] at hcw ⊢; omega

theorem nonneg_sum (l : List Rat) (h : ∀ x ∈ l, (0 : Rat) ≤ x) : 0 ≤ l.sum := by
  induction l with
  | nil => decide +kernel
  | cons x l ih =>
    rw [List.sum_cons]
    have := h x List.mem_cons_self
    have := ih fun y hy => h y (List.mem_cons_of_mem _ hy)
    grind

theorem le_sum (l : List Rat) (h : ∀ x ∈ l, (0 : Rat) ≤ x) (i : Nat) (hi : i < l.length) : l[i] ≤ l.sum := by
  induction l generalizing i with
  | nil => simp at hi
  | cons x l ih =>
    have hx := h x List.mem_cons_self
    have hl := fun y hy => h y (List.mem_cons_of_mem x hy)
    rw [List.sum_cons]
    cases i with
    | zero => have := nonneg_sum l hl; simp only [List.getElem_cons_zero]; grind
    | succ i => have := ih hl i (by simpa using hi); simp only [List.getElem_cons_succ]; grind

theorem two_le_sum (l : List Rat) (h : ∀ x ∈ l, (0 : Rat) ≤ x) (i j : Nat) (hij : i < j) (hj : j < l.length) : l[i] + l[j] ≤ l.sum := by
  induction l generalizing i j with
  | nil => simp at hj
  | cons x l ih =>
    have hx := h x List.mem_cons_self
    have hl := fun y hy => h y (List.mem_cons_of_mem x hy)
    rw [List.sum_cons]
    obtain ⟨j, rfl⟩ : ∃ j', j = j' + 1 := ⟨j - 1, by omega⟩
    have hj' : j < l.length := by simpa using hj
    cases i with
    | zero => have := le_sum l hl j hj'; simp only [List.getElem_cons_zero, List.getElem_cons_succ]; grind
    | succ i => have := ih hl i j (by omega) hj'; simp only [List.getElem_cons_succ]; grind

theorem mid_half (l : List Rat) (h : ∀ x ∈ l, (0 : Rat) ≤ x) (h2 : 2 ≤ l.length) : 0 ≤ mid (sortR l) ∧ 2 * mid (sortR l) ≤ l.sum := by
  have hp := sortR_perm l
  have hs := sortR_sorted l
  rw [← sum_perm hp]
  have hn : ∀ x ∈ sortR l, (0 : Rat) ≤ x := fun x hx => h x (hp.mem_iff.1 hx)
  rw [← hp.length_eq] at h2
  generalize sortR l = v at hs hn h2
  unfold mid
  have hg : ∀ i (hi : i < v.length), v.getD i 0 = v[i] := by
    intro i hi
    rw [List.getD_eq_getElem?_getD, List.getElem?_eq_getElem hi]
    rfl
  split
  · rw [hg _ (by omega), hg _ (by omega)]
    have := two_le_sum v hn (v.length / 2 - 1) (v.length / 2) (by omega) (by omega)
    have h3 := hn _ (List.getElem_mem (l := v) (n := v.length / 2) (by omega))
    have h4 := hn _ (List.getElem_mem (l := v) (n := v.length / 2 - 1) (by omega))
    grind
  · rw [hg _ (by omega)]
    have := two_le_sum v hn (v.length / 2) (v.length / 2 + 1) (by omega) (by omega)
    have h3 := hn _ (List.getElem_mem (l := v) (n := v.length / 2) (by omega))
    have h4 := List.pairwise_iff_getElem.1 hs (v.length / 2) (v.length / 2 + 1) (by omega) (by omega) (by omega)
    grind

/-- C220: with at least two speakers that have reference words, the means and the medians of counts fit into their columns.  Missing: a single
speaker, and the standard deviations, whose root is not modelled. -/
theorem means_fit_partial (sqrt : Rat → Rat) (ss : List Spk) (c : Col) (h : 2 ≤ (notNull ss).length) (t : Str)
    (ht : text1 (statNN sqrt c ss).mean = some t ∨ text1 (statNN sqrt c ss).median = some t) :
    (t ++ if flagged ss then ['+'] else []).length ≤ wCol sqrt c ss := by
  have hl : 2 ≤ ((notNull ss).map fun s => (num c s : Rat)).length := by rw [List.length_map]; exact h
  have hne : ((notNull ss).map fun s => (num c s : Rat)) ≠ [] := by intro hc; rw [hc] at hl; simp at hl
  have hnn : ∀ x ∈ ((notNull ss).map fun s => (num c s : Rat)), (0 : Rat) ≤ x := by
    intro x hx
    obtain ⟨s, _, rfl⟩ := List.mem_map.1 hx
    exact_mod_cast Nat.zero_le _
  have hsz := size_sum sqrt _ hne
  have hlen : t.length ≤ max 3 (ceilLog ((notNull ss).map fun s => (num c s : Rat)).sum + 2) := by
    rcases ht with ht | ht
    · unfold statNN at ht
      rw [stat_mean] at ht
      generalize hl' : ((notNull ss).map fun s => (num c s : Rat)) = l at *
      have hs := nonneg_sum l hnn
      have h2 : (2 : Rat) ≤ (l.length : Rat) := by exact_mod_cast hl
      have hm : (l.length : Rat) * mean l = l.sum := by
        unfold mean
        rw [Rat.mul_comm, Rat.div_mul_cancel (by grind)]
      have h0 : 0 ≤ mean l := by
        unfold mean
        rw [Rat.div_def]
        exact Rat.mul_nonneg hs (Rat.le_of_lt (Rat.inv_pos.2 (by grind)))
      have h3 : 0 ≤ ((l.length : Rat) - 2) * mean l := Rat.mul_nonneg (by grind) h0
      exact text_half h0 (by grind) t ht
    · unfold statNN at ht
      rw [stat_median _ _ hne] at ht
      have := mid_half _ hnn hl
      exact text_half this.1 this.2 t ht
  unfold wCol
  unfold statNN
  rw [List.length_append]
  cases flagged ss
  · simp only [Bool.false_eq_true, if_false, List.length_nil]; omega
  · simp only [if_true, List.length_singleton]; omega

/-- C220 fails for percentages of 10000 and more: one reference word and a hundred insertions are shown as 0.0 behind dots. -/
theorem percent_cut : ∃ s : Spk, refWords s = 1 ∧ num .ins s = 100 ∧
    ∀ row, spkRow rootT lgT ⟨false, false⟩ [s, ann] s = some row →
      field row (start rootT ⟨false, false⟩ [s, ann] .ins) (wCol rootT .ins [s, ann]) = "...0.0".toList := by
  refine ⟨⟨"x".toList, [⟨.correct, some (1 / 2)⟩ :: List.replicate 100 ⟨.insertion, some (1 / 2)⟩]⟩, by decide +kernel, by decide +kernel, ?_⟩
  intro row h
  obtain ⟨t, h1, h2⟩ := (columns_aligned rootT lgT ⟨false, false⟩ _ .ins (by decide)).2 _ row h
  rw [h2]
  have h3 : spkCell ⟨false, false⟩ [⟨"x".toList, [⟨.correct, some (1 / 2)⟩ :: List.replicate 100 ⟨.insertion, some (1 / 2)⟩]⟩, ann]
      ⟨"x".toList, [⟨.correct, some (1 / 2)⟩ :: List.replicate 100 ⟨.insertion, some (1 / 2)⟩]⟩ .ins = some "10000.0".toList := by decide +kernel
  rw [h3, Option.some.injEq] at h1
  rw [← h1]
  decide +kernel

/-- C220 fails for the mean of a single speaker whose number of words is a power of ten, from 10000 on: the column is one place too narrow. -/
theorem mean_cut (sqrt : Rat → Rat) (s : Spk) (k : Nat) (hk : 4 ≤ k) (h8 : k ≤ 8) (h : refWords s = 10 ^ k) :
    ∃ t, text1 (statAll sqrt refWords [s]).mean = some t ∧ wRef sqrt [s] < t.length := by
  have hm : (statAll sqrt refWords [s]).mean = (refWords s : Rat) := by
    unfold statAll
    rw [stat_mean]
    unfold mean
    simp only [List.map_cons, List.map_nil, List.sum_cons, List.sum_nil, List.length_singleton]
    grind
  have hcl : ceilLog (refWords s : Rat) = k := by
    rw [h]
    apply Nat.le_antisymm
    · rw [ceilLog_spec]
      have : ((10 ^ k : Nat) : Rat) = (10 : Rat) ^ k := by norm_cast
      rw [this]
      exact Rat.le_refl
    · rcases Nat.lt_or_ge (ceilLog ((10 ^ k : Nat) : Rat)) k with hlt | hge
      · have h1 := (ceilLog_spec ((10 ^ k : Nat) : Rat) (k - 1)).1 (by omega)
        have h2 : 10 ^ k ≤ 10 ^ (k - 1) := by exact_mod_cast h1
        have h3 : 10 ^ (k - 1) < 10 ^ k := Nat.pow_lt_pow_right (by decide) (by omega)
        omega
      · exact hge
  have hsz : (statAll sqrt refWords [s]).size = k + 2 := by
    unfold statAll Stat.of
    have hne : ([s].map fun s => (refWords s : Rat)) ≠ [] := by simp
    rw [if_neg hne]
    have e : sortR ([s].map fun s => (refWords s : Rat)) = [(refWords s : Rat)] := rfl
    rw [e]
    have e2 : (refWords s : Rat) / (([(refWords s : Rat)].length : Nat) : Rat) = (refWords s : Rat) := by
      have : (([(refWords s : Rat)].length : Nat) : Rat) = 1 := rfl
      rw [this]
      grind
    simp only [List.foldl_cons, List.foldl_nil, Rat.zero_add, e2]
    simp only [List.length_singleton, if_true, Option.map_none, Option.getD_none, Nat.one_mod, if_neg (show ¬ ((1 : Nat) = 0) by decide)]
    have e3 : ([(refWords s : Rat)] : List Rat).getD (1 / 2) 0 = (refWords s : Rat) := rfl
    rw [e3, hcl]
    omega
  refine ⟨oneDecimal (fRound (refWords s : Rat) 1), ?_, ?_⟩
  · rw [hm]
    refine text1_some (by exact_mod_cast Nat.zero_le _) ?_
    have h1 : 10 ^ k ≤ 10 ^ 8 := Nat.pow_le_pow_right (by decide) h8
    rw [h]
    have h2 : ((10 ^ k : Nat) : Rat) ≤ ((10 ^ 8 : Nat) : Rat) := by exact_mod_cast h1
    have h3 : ((10 ^ 8 : Nat) : Rat) ≤ 214748364 := by decide +kernel
    exact Rat.le_trans h2 h3
  · rw [Verif.Summary.fRound_nat10, oneDecimal_length (by omega)]
    have e : (10 * ((refWords s : Nat) : Int)).natAbs / 10 = 10 ^ k := by omega
    rw [e]
    have : ¬ (textN (10 ^ k)).length ≤ k := by
      rw [textN_le (by omega)]
      omega
    unfold wRef
    rw [hsz]
    omega

/-! ## C221: a speaker's row -/

/-- What the counts of a speaker are, in terms of the words of the segments. -/
theorem counts_of_words (s : Spk) :
    num .corr s = (s.segs.flatten.filter fun w => w.verdict = .correct).length ∧ num .sub s = (s.segs.flatten.filter fun w => w.verdict = .substitution).length ∧
      num .spk s = (s.segs.flatten.filter fun w => w.verdict = .speaker).length ∧ num .del s = (s.segs.flatten.filter fun w => w.verdict = .deletion).length ∧
      num .ins s = (s.segs.flatten.filter fun w => w.verdict = .insertion).length ∧ num .err s = (s.segs.flatten.filter fun w => w.verdict ≠ .correct).length ∧
      refWords s = (s.segs.flatten.filter fun w => w.verdict ≠ .insertion).length ∧
      segErrs s = (s.segs.filter fun ws => ws.any fun w => w.verdict ≠ .correct).length := by
  have herr : ∀ l : List W, l.countP (fun w => decide (w.verdict ≠ .correct)) =
      l.countP (fun w => decide (w.verdict = .substitution)) + l.countP (fun w => decide (w.verdict = .insertion)) + l.countP (fun w => decide (w.verdict = .deletion)) +
        l.countP (fun w => decide (w.verdict = .speaker)) := by
    intro l
    induction l with
    | nil => rfl
    | cons x l ih =>
      rw [List.countP_cons, List.countP_cons, List.countP_cons, List.countP_cons, List.countP_cons, ih]
      obtain ⟨v, c⟩ := x
      cases v <;> simp <;> omega
  refine ⟨List.countP_eq_length_filter, List.countP_eq_length_filter, List.countP_eq_length_filter, List.countP_eq_length_filter, List.countP_eq_length_filter, ?_,
    List.countP_eq_length_filter, List.countP_eq_length_filter⟩
  rw [← List.countP_eq_length_filter, herr]
  rfl

/-- C221: a speaker's row begins with the name, the number of segments and the number of reference words, whole. -/
theorem row_begin (sqrt lg : Rat → Rat) (o : Opt) (ss : List Spk) (s : Spk) (hs : s ∈ ss) (row : Str) (h : spkRow sqrt lg o ss s = some row) :
    ∃ rest, row = "| ".toList ++ s.name ++ List.replicate (wName ss - s.name.length) ' ' ++ " | ".toList ++ rightIn (wSeg sqrt ss) (Nat.toDigits 10 s.segs.length) ++ " ".toList ++
      rightIn (wRef sqrt ss) (Nat.toDigits 10 (refWords s)) ++ " | ".toList ++ rest := by
  have hne : ss ≠ [] := fun hn => by rw [hn] at hs; simp at hs
  have hw := wName_name ss s hs
  have h1 := statAll_size sqrt (fun s => s.segs.length) ss hne s.segs.length (num_sum_le (fun s : Spk => s.segs.length) ss s hs)
  have h2 := statAll_size sqrt refWords ss hne (refWords s) (num_sum_le refWords ss s hs)
  unfold spkRow at h
  split at h
  · rename_i cells serr nc e1 e2 e3
    simp only [Option.some.injEq] at h
    refine ⟨((columns o.withSpk).map fun c => place .right (wCol sqrt c ss) (cells c) ++ " ".toList).flatten ++
      place .right (wErr sqrt ss) serr ++ " | ".toList ++ place .middle 9 nc ++ " |".toList, ?_⟩
    rw [← h]
    unfold rowText
    rw [place_right (wSeg sqrt ss) _ (by unfold wSeg; omega), place_right (wRef sqrt ss) _ (by unfold wRef; omega)]
    have e : place .left (wName ss) s.name = s.name ++ List.replicate (wName ss - s.name.length) ' ' := by
      unfold place
      rw [if_neg (by omega)]
    rw [e]
    simp only [List.append_assoc]
    rfl
  · simp at h

/-- C221: it ends with the segments that have an error, as a number or in per cent of the segments, and the NCE. -/
theorem row_end (sqrt lg : Rat → Rat) (o : Opt) (ss : List Spk) (s : Spk) (hs : s ∈ ss) (hg : s.segs ≠ []) (row : Str) (h : spkRow sqrt lg o ss s = some row) :
    ∃ pre k nc, nceCell lg s = some nc ∧ Shows 1 k (percent (segErrs s) s.segs.length) ∧
      row = pre ++ rightIn (wErr sqrt ss) (if o.raw then Nat.toDigits 10 (segErrs s) else oneDecimal k) ++ " | ".toList ++ place .middle 9 nc ++ " |".toList := by
  have hne : ss ≠ [] := fun hn => by rw [hn] at hs; simp at hs
  have h1 := statAll_size sqrt segErrs ss hne (segErrs s) (num_sum_le segErrs ss s hs)
  have hpos : (0 : Rat) < (s.segs.length : Rat) := by exact_mod_cast List.length_pos_iff.2 hg
  have hnn : (0 : Rat) ≤ percent (segErrs s) s.segs.length := percent_nonneg (by exact_mod_cast Nat.zero_le _) hpos
  have hle : percent (segErrs s) s.segs.length ≤ 100 := by
    have hc : segErrs s ≤ s.segs.length := List.countP_le_length
    have hc' : (segErrs s : Rat) ≤ (s.segs.length : Rat) := by exact_mod_cast hc
    unfold percent
    rw [Rat.div_def]
    have hi := Rat.inv_pos.2 hpos
    have h3 := Rat.mul_le_mul_of_nonneg_right hc' (Rat.le_of_lt hi)
    have h4 := Rat.mul_inv_cancel (s.segs.length : Rat) (by grind)
    grind
  unfold spkRow at h
  split at h
  · rename_i cells serr nc e1 e2 e3
    simp only [Option.some.injEq] at h
    have hser : place .right (wErr sqrt ss) serr = rightIn (wErr sqrt ss) (if o.raw then Nat.toDigits 10 (segErrs s) else oneDecimal (fRound (percent (segErrs s) s.segs.length) 1)) := by
      cases hr : o.raw
      · rw [hr] at e2
        simp only [Bool.false_eq_true, if_false] at e2 ⊢
        have e : pctSeg s = percent (segErrs s) s.segs.length := rfl
        rw [e, text1_some hnn (by grind), Option.some.injEq] at e2
        rw [← e2, place_right]
        have hw := wErr_ge sqrt ss
        have hk := fRound_nonneg 1 hnn
        have hsh := (fRound_shows 1 hnn).1
        rw [oneDecimal_length hk]
        generalize fRound (percent (segErrs s) s.segs.length) 1 = k at hk hsh
        obtain ⟨n, rfl⟩ := Int.eq_ofNat_of_zero_le hk
        have p1 : (10 : Rat) ^ 1 = 10 := by decide +kernel
        rw [p1] at hsh
        have : (((n : Int)) : Rat) < ((1001 : Int) : Rat) := by
          have : (((1001 : Int)) : Rat) = 1001 := rfl
          grind
        have := Rat.intCast_lt_intCast.1 this
        have := (textN_le (n := n / 10) (k := 4) (by decide)).2 (by omega)
        rw [Int.natAbs_natCast]
        omega
      · rw [hr] at e2
        simp only [if_true, Option.some.injEq] at e2 ⊢
        rw [← e2, place_right]
        · rfl
        · unfold wErr; omega
    refine ⟨"| ".toList ++ place .left (wName ss) s.name ++ " | ".toList ++ place .right (wSeg sqrt ss) (textN s.segs.length) ++ " ".toList ++
      place .right (wRef sqrt ss) (textN (refWords s)) ++ " | ".toList ++ ((columns o.withSpk).map fun c => place .right (wCol sqrt c ss) (cells c) ++ " ".toList).flatten,
      fRound (percent (segErrs s) s.segs.length) 1, nc, e3, fRound_shows 1 hnn, ?_⟩
    rw [← h, ← hser]
    rfl
  · simp at h

/-- C221: the cells of a speaker with reference words are percentages of the reference words, rounded to a tenth. -/
theorem speaker_percentages (o : Opt) (ss : List Spk) (s : Spk) (c : Col) (hr : o.raw = false) (hw : 0 < refWords s) (hb : num c s ≤ 2147483 * refWords s) :
    ∃ k, Shows 1 k (percent (num c s) (refWords s)) ∧ spkCell o ss s c = some (oneDecimal k ++ if flagged ss then [' '] else []) := by
  have hpos : (0 : Rat) < (refWords s : Rat) := by exact_mod_cast hw
  have hnn : (0 : Rat) ≤ percent (num c s) (refWords s) := percent_nonneg (by exact_mod_cast Nat.zero_le _) hpos
  refine ⟨fRound (percent (num c s) (refWords s)) 1, fRound_shows 1 hnn, ?_⟩
  unfold spkCell
  rw [hr]
  simp only [Bool.false_eq_true, false_or, if_neg (Nat.pos_iff_ne_zero.1 hw), Nat.pos_iff_ne_zero.1 hw, false_and, if_false, pctOf]
  have e : 100 * (num c s : Rat) / (refWords s : Rat) = percent (num c s) (refWords s) := rfl
  have hle : percent (num c s) (refWords s) ≤ 214748364 := by
    unfold percent
    rw [Rat.div_def]
    have h1 : (num c s : Rat) ≤ 2147483 * (refWords s : Rat) := by
      have : ((2147483 * refWords s : Nat) : Rat) = 2147483 * (refWords s : Rat) := Rat.natCast_mul _ _
      rw [← this]
      exact_mod_cast hb
    have h2 : 0 < (refWords s : Rat)⁻¹ := Rat.inv_pos.2 hpos
    have h3 := Rat.mul_le_mul_of_nonneg_right h1 (Rat.le_of_lt h2)
    have h4 := Rat.mul_inv_cancel (refWords s : Rat) (by grind)
    grind
  rw [e, text1_some hnn hle]
  rfl

/-- C221: correct, substituted, deleted words and those of other speakers make up the reference words; their percentages are at most 0.2 off 100. -/
theorem shares_add_up (s : Spk) (hw : 0 < refWords s) (c b p d : Int) (h1 : Shows 1 c (percent (num .corr s) (refWords s))) (h2 : Shows 1 b (percent (num .sub s) (refWords s)))
    (h3 : Shows 1 p (percent (num .spk s) (refWords s))) (h4 : Shows 1 d (percent (num .del s) (refWords s))) : 999 ≤ c + b + p + d ∧ c + b + p + d ≤ 1002 := by
  have hpos : (0 : Rat) < (refWords s : Rat) := by exact_mod_cast hw
  have hsum : percent (num .corr s) (refWords s) + percent (num .sub s) (refWords s) + percent (num .spk s) (refWords s) + percent (num .del s) (refWords s) = 100 := by
    rw [← percent_add, ← percent_add, ← percent_add]
    have e : (num .corr s : Rat) + (num .sub s : Rat) + (num .spk s : Rat) + (num .del s : Rat) = (refWords s : Rat) := by rw [refWords_eq s]; norm_cast
    rw [e]
    exact percent_self (by grind)
  unfold Shows at h1 h2 h3 h4
  have p1 : (10 : Rat) ^ 1 = 10 := by decide +kernel
  rw [p1] at h1 h2 h3 h4
  have a : ((998 : Int) : Rat) < ((c + b + p + d : Int) : Rat) := by
    rw [Rat.intCast_add, Rat.intCast_add, Rat.intCast_add]
    have : (((998 : Int)) : Rat) = 998 := rfl
    grind
  have a' : ((c + b + p + d : Int) : Rat) ≤ ((1002 : Int) : Rat) := by
    rw [Rat.intCast_add, Rat.intCast_add, Rat.intCast_add]
    have : (((1002 : Int)) : Rat) = 1002 := rfl
    grind
  have := Rat.intCast_lt_intCast.1 a
  have := Rat.intCast_le_intCast.1 a'
  omega

/-- C221: the bound is met: of 2000 words 501 correct, 499 substituted, 501 of other speakers and 499 deleted give 25.1, 25.0, 25.1 and 25.0. -/
theorem shares_bound_met : Shows 1 251 (percent 501 2000) ∧ Shows 1 250 (percent 499 2000) ∧ (251 + 250 + 251 + 250 = (1002 : Int)) := by
  refine ⟨?_, ?_, by decide⟩ <;> (unfold Shows; decide +kernel)

/-- C221: the percentage of errors is at most 0.2 off the sum of the four kinds'. -/
theorem errors_add_up (s : Spk) (e b p d i : Int) (h0 : Shows 1 e (percent (num .err s) (refWords s))) (h1 : Shows 1 b (percent (num .sub s) (refWords s)))
    (h2 : Shows 1 p (percent (num .spk s) (refWords s))) (h3 : Shows 1 d (percent (num .del s) (refWords s))) (h4 : Shows 1 i (percent (num .ins s) (refWords s))) :
    -2 ≤ e - (b + p + d + i) ∧ e - (b + p + d + i) ≤ 2 := by
  have hsum : percent (num .sub s) (refWords s) + percent (num .spk s) (refWords s) + percent (num .del s) (refWords s) + percent (num .ins s) (refWords s) =
      percent (num .err s) (refWords s) := by
    rw [← percent_add, ← percent_add, ← percent_add]
    congr 1
    rw [errors_eq s]
    norm_cast
  unfold Shows at h0 h1 h2 h3 h4
  have p1 : (10 : Rat) ^ 1 = 10 := by decide +kernel
  rw [p1] at h0 h1 h2 h3 h4
  have a : ((-3 : Int) : Rat) < ((e - (b + p + d + i) : Int) : Rat) := by
    rw [Rat.intCast_sub, Rat.intCast_add, Rat.intCast_add, Rat.intCast_add]
    have : (((-3 : Int)) : Rat) = -3 := rfl
    grind
  have a' : ((e - (b + p + d + i) : Int) : Rat) < ((3 : Int) : Rat) := by
    rw [Rat.intCast_sub, Rat.intCast_add, Rat.intCast_add, Rat.intCast_add]
    have : (((3 : Int)) : Rat) = 3 := rfl
    grind
  have := Rat.intCast_lt_intCast.1 a
  have := Rat.intCast_lt_intCast.1 a'
  omega

/-- C221: a speaker without reference words shows counts with a star instead, and `#` for the NCE. -/
theorem no_reference_counts (lg : Rat → Rat) (o : Opt) (ss : List Spk) (s : Spk) (c : Col) (hs : s ∈ ss) (hr : o.raw = false) (hw : refWords s = 0) :
    spkCell o ss s c = some (Nat.toDigits 10 (num c s) ++ ['*']) ∧ nceCell lg s = some ['#'] := by
  have hf : flagged ss = true := List.any_eq_true.2 ⟨s, hs, decide_eq_true hw⟩
  constructor
  · unfold spkCell
    rw [hf, hr]
    simp [hw, textN]
  · unfold nceCell
    simp [hw]

example : spkCell ⟨false, false⟩ [ann, bob] bob .ins = some "1*".toList ∧ spkCell ⟨false, false⟩ [ann, bob] ann .corr = some "75.0 ".toList := by decide +kernel

/-! ## C222: the row of all speakers -/

/-- C222: the totals of all speakers: counts in the raw report, percentages of all reference words otherwise, if there are any.  Missing: no
reference words. -/
theorem sum_cells_partial (sqrt : Rat → Rat) (o : Opt) (ss : List Spk) (c : Col) :
    (o.raw = true → sumCell sqrt o ss c = some (Nat.toDigits 10 (ss.map (num c)).sum ++ if flagged ss then [' '] else [])) ∧
      (o.raw = false → 0 < (ss.map refWords).sum → (ss.map (num c)).sum ≤ 2147483 * (ss.map refWords).sum →
        ∃ k, Shows 1 k (percent ((ss.map (num c)).sum : Nat) ((ss.map refWords).sum : Nat)) ∧ sumCell sqrt o ss c = some (oneDecimal k ++ if flagged ss then [' '] else [])) := by
  constructor
  · intro hr
    unfold sumCell
    dsimp only
    rw [if_pos hr, statAll_sum, floor_nat]
    rfl
  · intro hr hR hb
    generalize hT : (ss.map (num c)).sum = T at *
    generalize hRR : (ss.map refWords).sum = R at *
    have hpos : (0 : Rat) < (R : Rat) := by exact_mod_cast hR
    have hnn : (0 : Rat) ≤ percent (T : Nat) (R : Nat) := percent_nonneg (by exact_mod_cast Nat.zero_le _) hpos
    refine ⟨fRound (percent (T : Nat) (R : Nat)) 1, fRound_shows 1 hnn, ?_⟩
    have hne : (R : Rat) ≠ 0 := by grind
    unfold sumCell Stat.safeSum
    dsimp only
    rw [if_neg (by rw [hr]; decide), statAll_sum, statAll_sum, hT, hRR, if_neg hne, if_neg hne]
    have e : 100 * (T : Rat) / (R : Rat) = percent (T : Nat) (R : Nat) := rfl
    have hle : percent (T : Nat) (R : Nat) ≤ 214748364 := by
      unfold percent
      rw [Rat.div_def]
      have h1 : (T : Rat) ≤ 2147483 * (R : Rat) := by
        have : ((2147483 * R : Nat) : Rat) = 2147483 * (R : Rat) := Rat.natCast_mul _ _
        rw [← this]
        exact_mod_cast hb
      have h2 : 0 < (R : Rat)⁻¹ := Rat.inv_pos.2 hpos
      have h3 := Rat.mul_le_mul_of_nonneg_right h1 (Rat.le_of_lt h2)
      have h4 := Rat.mul_inv_cancel (R : Rat) hne
      grind
    rw [e, text1_some hnn hle]
    rfl

/-- C222 fails without reference words: the count is shown as if there were one word, 3 insertions as 300.0. -/
theorem sum_no_reference (sqrt : Rat → Rat) (o : Opt) (ss : List Spk) (c : Col) (hr : o.raw = false) (hR : (ss.map refWords).sum = 0) (hb : (ss.map (num c)).sum ≤ 2147483) :
    sumCell sqrt o ss c = some (oneDecimal (1000 * ((ss.map (num c)).sum : Nat)) ++ if flagged ss then [' '] else []) := by
  unfold sumCell Stat.safeSum
  dsimp only
  rw [if_neg (by rw [hr]; decide), statAll_sum, statAll_sum, hR, if_pos (show ((0 : Nat) : Rat) = 0 from rfl), if_neg (show ¬ ((1 : Rat) = 0) by decide)]
  generalize (ss.map (num c)).sum = T at hb
  have e : 100 * (T : Rat) / 1 = (((100 * T : Nat)) : Rat) := by
    have : ((100 * T : Nat) : Rat) = 100 * (T : Rat) := Rat.natCast_mul _ _
    rw [this]
    grind
  have hle : (((100 * T : Nat)) : Rat) ≤ 214748364 := by
    have : ((100 * T : Nat) : Rat) ≤ ((214748300 : Nat) : Rat) := by exact_mod_cast (by omega : 100 * T ≤ 214748300)
    exact Rat.le_trans this (by decide +kernel)
  rw [e, text1_some (by exact_mod_cast Nat.zero_le _) hle, Verif.Summary.fRound_nat10]
  have : (10 * ((100 * T : Nat) : Int)) = 1000 * (T : Int) := by omega
  rw [this]
  rfl

example : sumCell rootT ⟨false, false⟩ [⟨"x".toList, [[⟨.insertion, none⟩, ⟨.insertion, none⟩, ⟨.insertion, none⟩]]⟩] .ins = some "300.0 ".toList := by decide +kernel
example : sumCell rootT ⟨false, false⟩ [ann, bob, eve] .corr = some "66.7 ".toList := by decide +kernel

/-! ## C223: mean, standard deviation, median -/

/-- The values of a column of words: those of the speakers with reference words. -/
def values (o : Opt) (c : Col) (ss : List Spk) : List Rat :=
  (ss.filter fun s => refWords s ≠ 0).map fun s => if o.raw then (num c s : Rat) else percent (num c s) (refWords s)

theorem values_stat (sqrt : Rat → Rat) (o : Opt) (c : Col) (ss : List Spk) : (if o.raw then statNN sqrt c ss else statPct sqrt c ss) = Stat.of sqrt (values o c ss) := by
  unfold values statNN statPct notNull
  cases o.raw <;> rfl

theorem values_nonneg (o : Opt) (c : Col) (ss : List Spk) : ∀ x ∈ values o c ss, (0 : Rat) ≤ x := by
  intro x hx
  obtain ⟨s, hs, rfl⟩ := List.mem_map.1 hx
  have hs' := of_decide_eq_true (List.mem_filter.1 hs).2
  split
  · exact_mod_cast Nat.zero_le _
  · exact percent_nonneg (by exact_mod_cast Nat.zero_le _) (by exact_mod_cast Nat.pos_iff_ne_zero.2 hs')

theorem stat_field (sqrt lg : Rat → Rat) (o : Opt) (ss : List Spk) (name row : Str) (pick : Stat → Option Rat) (h : statRow sqrt lg o ss name pick = some row) (c : Col)
    (hc : c ∈ columns o.withSpk) :
    ∃ x t, pick (Stat.of sqrt (values o c ss)) = some x ∧ text1 x = some t ∧
      field row (start sqrt o ss c) (wCol sqrt c ss) = place .right (wCol sqrt c ss) (t ++ if flagged ss then ['+'] else []) := by
  unfold statRow at h
  dsimp only at h
  split at h
  · rename_i cells seg ref serr nc h1 h2 h3 h4 h5
    simp only [Option.some.injEq] at h
    have hcell := allCells_some h1 c hc
    rw [values_stat] at hcell
    obtain ⟨t, ht, ht2⟩ := Option.map_eq_some_iff.1 hcell
    obtain ⟨x, hx, hx2⟩ := Option.bind_eq_some_iff.1 ht
    refine ⟨x, t, hx, hx2, ?_⟩
    rw [← h]
    unfold field
    rw [row_field _ _ _ _ _ _ _ _ _ _ _ hc, ← ht2]
  · simp at h

theorem text1_inv {x : Rat} {t : Str} (h : text1 x = some t) : t = oneDecimal (fRound x 1) := by
  unfold text1 toInt at h
  split at h
  · simp only [Option.map_some, Option.some.injEq] at h
    exact h.symm
  · simp at h

/-- C223: the row Mean shows the mean of the values of the speakers with reference words, rounded to a tenth. -/
theorem mean_row_partial (sqrt lg : Rat → Rat) (o : Opt) (ss : List Spk) (row : Str) (h : statRow sqrt lg o ss "Mean".toList (fun st => some st.mean) = some row) (c : Col)
    (hc : c ∈ columns o.withSpk) :
    ∃ k, Shows 1 k (mean (values o c ss)) ∧
      field row (start sqrt o ss c) (wCol sqrt c ss) = place .right (wCol sqrt c ss) (oneDecimal k ++ if flagged ss then ['+'] else []) := by
  obtain ⟨x, t, h1, h2, h3⟩ := stat_field sqrt lg o ss _ row _ h c hc
  rw [Option.some.injEq, stat_mean] at h1
  subst h1
  refine ⟨fRound (mean (values o c ss)) 1, fRound_shows 1 ?_, ?_⟩
  · have hs := nonneg_sum _ (values_nonneg o c ss)
    unfold mean
    rcases Nat.eq_zero_or_pos (values o c ss).length with h0 | h0
    · rw [h0]
      have : ((0 : Nat) : Rat) = 0 := rfl
      rw [this]
      grind
    · rw [Rat.div_def]
      exact Rat.mul_nonneg hs (Rat.le_of_lt (Rat.inv_pos.2 (by exact_mod_cast h0)))
  · rw [h3, text1_inv h2]

/-- C223: the row Median shows their median. -/
theorem median_row_partial (sqrt lg : Rat → Rat) (o : Opt) (ss : List Spk) (row : Str) (h : statRow sqrt lg o ss "Median".toList (fun st => some st.median) = some row) (c : Col)
    (hc : c ∈ columns o.withSpk) (hne : values o c ss ≠ []) :
    ∃ k m, IsMedian (values o c ss) m ∧ Shows 1 k m ∧
      field row (start sqrt o ss c) (wCol sqrt c ss) = place .right (wCol sqrt c ss) (oneDecimal k ++ if flagged ss then ['+'] else []) := by
  obtain ⟨x, t, h1, h2, h3⟩ := stat_field sqrt lg o ss _ row _ h c hc
  rw [Option.some.injEq, stat_median _ _ hne] at h1
  subst h1
  have hm := median_perm (sortR_perm _) _ (mid_median _ (sort_ne hne) (sortR_sorted (values o c ss)))
  refine ⟨fRound (mid (sortR (values o c ss))) 1, _, hm, fRound_shows 1 ?_, ?_⟩
  · obtain ⟨_, lo, hlo, hi, hhi, _, _, he, _⟩ := hm
    have h1 := values_nonneg o c ss lo hlo
    have h2 := values_nonneg o c ss hi hhi
    rw [he]
    grind
  · rw [h3, text1_inv h2]

/-- C223: the row S.D. shows the root of the sum of the squared distances from their mean, divided by their number less one.  Missing: a single
speaker. -/
theorem sd_row_partial (sqrt lg : Rat → Rat) (hsq : ∀ x, 0 ≤ sqrt x) (o : Opt) (ss : List Spk) (row : Str) (h : statRow sqrt lg o ss "S.D.".toList Stat.sd = some row) (c : Col)
    (hc : c ∈ columns o.withSpk) (h2 : 2 ≤ (values o c ss).length) :
    ∃ k, Shows 1 k (sqrt (spread (mean (values o c ss)) (values o c ss) / (((values o c ss).length : Rat) - 1))) ∧
      field row (start sqrt o ss c) (wCol sqrt c ss) = place .right (wCol sqrt c ss) (oneDecimal k ++ if flagged ss then ['+'] else []) := by
  obtain ⟨x, t, h1, ht, h3⟩ := stat_field sqrt lg o ss _ row _ h c hc
  rw [stat_sd _ _ h2, Option.some.injEq] at h1
  subst h1
  exact ⟨_, fRound_shows 1 (hsq _), by rw [h3, text1_inv ht]⟩

/-- C223 fails for a single speaker, and for a single speaker with reference words: 0 is divided by 0 and the result converted to `int`. -/
theorem sd_one_undefined (sqrt lg : Rat → Rat) (o : Opt) (ss : List Spk) (name : Str) (h : ss.length = 1 ∨ (ss.filter fun s => refWords s ≠ 0).length = 1) :
    statRow sqrt lg o ss name Stat.sd = none := by
  rcases h with h | h
  · unfold statRow
    dsimp only
    have : ((statAll sqrt (fun s => s.segs.length) ss).sd.bind text1) = none := by
      unfold statAll
      rw [stat_sd_one _ _ (by rw [List.length_map]; exact h)]
      rfl
    rw [this]
    split
    · rename_i h2 _ _ _; simp at h2
    · rfl
  · rcases hr : statRow sqrt lg o ss name Stat.sd with _ | row
    · rfl
    · obtain ⟨x, t, h1, _, _⟩ := stat_field sqrt lg o ss name row _ hr .corr (by cases hws : o.withSpk <;> simp [columns])
      rw [stat_sd_one _ _ (by unfold values; rw [List.length_map]; exact h)] at h1
      simp at h1

example : (statRow rootT lgT ⟨true, false⟩ [ann, eve] "Mean".toList (fun st => some st.mean)).map String.ofList =
    some "|  Mean   |   1.5    3.0 |    2.0    0.5    0.5    0.0    1.0    1.0 |   0.067   |" := by decide +kernel
example : (statRow rootT lgT ⟨true, false⟩ [ann, eve, ann] "S.D.".toList Stat.sd).map String.ofList =
    some "|  S.D.   |   0.3    1.3 |    1.3    0.3    0.3    0.0    0.0    0.0 |   0.000   |" := by decide +kernel

/-! ## C224: NCE -/

theorem confSum_eq (lg : Rat → Rat) (ws : List W) :
    confSum lg ws = (ws.map fun w => if w.verdict = .deletion then 0 else (w.conf.map fun c => lg (clamp c)).getD 0).sum := by
  unfold confSum
  rw [foldl_add (fun w : W => if w.verdict = .deletion then 0 else (w.conf.map fun c => lg (clamp c)).getD 0), Rat.zero_add]

theorem confSum_nonpos {lg : Rat → Rat} (hl : LogLike lg) (ws : List W) : confSum lg ws ≤ 0 := by
  rw [confSum_eq]
  induction ws with
  | nil => exact Rat.le_refl
  | cons w ws ih =>
    rw [List.map_cons, List.sum_cons]
    have : (if w.verdict = .deletion then 0 else (w.conf.map fun c => lg (clamp c)).getD 0) ≤ 0 := by
      split
      · exact Rat.le_refl
      · cases w.conf with
        | none => exact Rat.le_refl
        | some c => exact Rat.le_of_lt (hl.neg _ (clamp_range c).1 (clamp_range c).2)
    grind

theorem ratio_clamp {n k : Nat} (hn : 0 < n) (hk : 0 < k) (hN : n + k ≤ 10000000) :
    clamp ((n : Rat) / ((n + k : Nat) : Rat)) = (n : Rat) / ((n + k : Nat) : Rat) := by
  have hpos : (0 : Rat) < ((n + k : Nat) : Rat) := by exact_mod_cast (by omega : 0 < n + k)
  have hmul := Rat.div_mul_cancel (a := (n : Rat)) (b := ((n + k : Nat) : Rat)) (by grind)
  have hsum : ((n + k : Nat) : Rat) = (n : Rat) + (k : Rat) := by norm_cast
  have hn1 : (1 : Rat) ≤ (n : Rat) := by exact_mod_cast hn
  have hk1 : (1 : Rat) ≤ (k : Rat) := by exact_mod_cast hk
  have hN' : ((n + k : Nat) : Rat) ≤ 10000000 := by
    have : ((n + k : Nat) : Rat) ≤ ((10000000 : Nat) : Rat) := by exact_mod_cast hN
    exact this
  have hinv := Rat.inv_pos.2 hpos
  have hii := Rat.mul_inv_cancel ((n + k : Nat) : Rat) (by grind)
  have h7 : (1 : Rat) / 10000000 ≤ ((n + k : Nat) : Rat)⁻¹ := by
    have := Rat.mul_le_mul_of_nonneg_right hN' (Rat.le_of_lt hinv)
    grind
  apply clamp_id
  · rw [Rat.div_def]
    have := Rat.mul_le_mul_of_nonneg_right hn1 (Rat.le_of_lt hinv)
    grind
  · rw [Rat.div_def]
    have h1 := Rat.mul_le_mul_of_nonneg_right hk1 (Rat.le_of_lt hinv)
    have : (n : Rat) = ((n + k : Nat) : Rat) - (k : Rat) := by grind
    rw [this]
    grind

/-- C224: with correct and wrong words the value is one plus the sum of the words' logarithms in units of the entropy of the words. -/
theorem nce_formula (lg : Rat → Rat) (hl : LogLike lg) (n k : Nat) (hn : 0 < n) (hk : 0 < k) (hN : n + k ≤ 10000000) (sum : Rat) :
    nce lg n k sum = 1 + sum / uncertainty lg n k := by
  have hu := Verif.Summary.uncertainty_pos hl hn hk
  unfold nce
  rw [if_neg (by omega)]
  dsimp only
  rw [ratio_clamp hn hk hN]
  have hpos : (0 : Rat) < ((n + k : Nat) : Rat) := by exact_mod_cast (by omega : 0 < n + k)
  have hsum : ((n + k : Nat) : Rat) = (n : Rat) + (k : Rat) := by norm_cast
  have e : 1 - (n : Rat) / ((n + k : Nat) : Rat) = (k : Rat) / ((n + k : Nat) : Rat) := by
    have hii := Rat.mul_inv_cancel ((n + k : Nat) : Rat) (by grind)
    rw [Rat.div_def, Rat.div_def]
    grind
  rw [e]
  have eh : -(n : Rat) * lg ((n : Rat) / ((n + k : Nat) : Rat)) - (k : Rat) * lg ((k : Rat) / ((n + k : Nat) : Rat)) = uncertainty lg n k := by
    unfold uncertainty
    grind
  rw [eh, if_neg (by grind)]
  have := Rat.mul_inv_cancel (uncertainty lg n k) (by grind)
  rw [Rat.div_def, Rat.div_def]
  grind

/-- C224: in terms of a speaker's words: the entropy is that of the system's correct words and its wrong ones, the words said less the correct ones;
every word said adds the logarithm of its confidence. -/
theorem nce_speaker (lg : Rat → Rat) (hl : LogLike lg) (s : Spk) (n k : Nat) (en : n = (s.segs.flatten.filter fun w => w.verdict = .correct).length)
    (ek : n + k = (s.segs.flatten.filter fun w => w.verdict ≠ .deletion).length) (hn : 0 < n) (hk : 0 < k) (hN : n + k ≤ 10000000) :
    spkNce lg s = 1 + ((s.segs.flatten.filter fun w => w.verdict ≠ .deletion).map fun w => (w.conf.map fun c => lg (clamp c)).getD 0).sum / uncertainty lg n k := by
  have hc : ∀ l : List W, l.countP (fun w => decide (w.verdict ≠ .deletion)) = l.countP (fun w => decide (w.verdict = .correct)) +
      (l.countP (fun w => decide (w.verdict = .insertion)) + l.countP (fun w => decide (w.verdict = .substitution)) + l.countP (fun w => decide (w.verdict = .speaker))) := by
    intro l
    induction l with
    | nil => rfl
    | cons x l ih =>
      rw [List.countP_cons, List.countP_cons, List.countP_cons, List.countP_cons, List.countP_cons, ih]
      obtain ⟨v, c⟩ := x
      cases v <;> simp <;> omega
  have e1 : num .corr s = n := by rw [en]; exact List.countP_eq_length_filter
  have e2 : wrong s = k := by
    rw [← List.countP_eq_length_filter, hc] at ek
    unfold wrong num
    dsimp only
    have e3 : List.countP (fun w => decide (w.verdict = .correct)) s.segs.flatten = n := e1
    unfold Spk.words
    omega
  have hsum : ∀ l : List W, (l.map fun w => if w.verdict = .deletion then 0 else (w.conf.map fun c => lg (clamp c)).getD 0).sum =
      ((l.filter fun w => w.verdict ≠ .deletion).map fun w => (w.conf.map fun c => lg (clamp c)).getD 0).sum := by
    intro l
    induction l with
    | nil => rfl
    | cons w l ih =>
      rw [List.map_cons, List.sum_cons, ih]
      by_cases hv : w.verdict = .deletion
      · rw [if_pos hv, List.filter_cons_of_neg (by simpa using hv), Rat.zero_add]
      · rw [if_neg hv, List.filter_cons_of_pos (by simpa using hv), List.map_cons, List.sum_cons]
  unfold spkNce
  rw [e1, e2, nce_formula lg hl n k hn hk hN, confSum_eq, hsum]
  rfl

/-- C224: the total is the value a single speaker with all the segments would get. -/
theorem nce_total (lg : Rat → Rat) (ss : List Spk) (name : Str) : totalNce lg ss = spkNce lg ⟨name, (ss.map Spk.segs).flatten⟩ := by
  have hcount : ∀ p : W → Bool, ((ss.map fun s => s.words.countP p)).sum = (Spk.words ⟨name, (ss.map Spk.segs).flatten⟩).countP p := by
    intro p
    unfold Spk.words
    dsimp only
    induction ss with
    | nil => rfl
    | cons s ss ih => rw [List.map_cons, List.sum_cons, ih, List.map_cons, List.flatten_cons, List.flatten_append, List.countP_append]
  have hconf : (ss.map fun s => confSum lg s.words).sum = confSum lg (Spk.words ⟨name, (ss.map Spk.segs).flatten⟩) := by
    rw [confSum_eq]
    have : (fun s : Spk => confSum lg s.words) = fun s : Spk => (s.words.map fun w => if w.verdict = .deletion then 0 else (w.conf.map fun c => lg (clamp c)).getD 0).sum :=
      funext fun s => confSum_eq lg _
    rw [this]
    unfold Spk.words
    dsimp only
    clear hcount this
    induction ss with
    | nil => rfl
    | cons s ss ih => rw [List.map_cons, List.sum_cons, ih, List.map_cons, List.flatten_cons, List.flatten_append, List.map_append, List.sum_append]
  unfold totalNce spkNce
  rw [hconf]
  have e1 : (ss.map (num .corr)).sum = num .corr ⟨name, (ss.map Spk.segs).flatten⟩ := hcount _
  have e2 : (ss.map wrong).sum = wrong ⟨name, (ss.map Spk.segs).flatten⟩ := by
    have h1 : (ss.map (num .ins)).sum = num .ins ⟨name, (ss.map Spk.segs).flatten⟩ := hcount _
    have h2 : (ss.map (num .sub)).sum = num .sub ⟨name, (ss.map Spk.segs).flatten⟩ := hcount _
    have h3 : (ss.map (num .spk)).sum = num .spk ⟨name, (ss.map Spk.segs).flatten⟩ := hcount _
    have : (ss.map wrong).sum = (ss.map (num .ins)).sum + (ss.map (num .sub)).sum + (ss.map (num .spk)).sum := by
      clear hcount hconf e1 h1 h2 h3
      induction ss with
      | nil => rfl
      | cons s ss ih =>
        rw [List.map_cons, List.sum_cons, ih, List.map_cons, List.map_cons, List.map_cons, List.sum_cons, List.sum_cons, List.sum_cons]
        unfold wrong
        omega
    rw [this, h1, h2, h3]
    rfl
  rw [e1, e2]

/-- C224: a speaker's NCE is at most 1. -/
theorem nce_le_one (lg : Rat → Rat) (hl : LogLike lg) (s : Spk) (hn : 0 < num .corr s) (hk : 0 < wrong s) (hN : num .corr s + wrong s ≤ 10000000) : spkNce lg s ≤ 1 := by
  unfold spkNce
  rw [nce_formula lg hl _ _ hn hk hN]
  have h1 := confSum_nonpos hl s.words
  have h2 := Verif.Summary.uncertainty_pos hl hn hk
  have := Rat.mul_le_mul_of_nonneg_right h1 (Rat.le_of_lt (Rat.inv_pos.2 h2))
  rw [Rat.div_def]
  grind

/-- C224: raising the confidence of a correct word does not lower the NCE.  Missing: wrong words. -/
theorem nce_mono_partial (lg : Rat → Rat) (hl : LogLike lg) (n k : Nat) (hn : 0 < n) (hk : 0 < k) (hN : n + k ≤ 10000000) (a b : List W) (v : Verdict) (c d : Rat) (hcd : c ≤ d) :
    nce lg n k (confSum lg (a ++ ⟨v, some c⟩ :: b)) ≤ nce lg n k (confSum lg (a ++ ⟨v, some d⟩ :: b)) := by
  rw [nce_formula lg hl _ _ hn hk hN, nce_formula lg hl _ _ hn hk hN]
  have hle : confSum lg (a ++ ⟨v, some c⟩ :: b) ≤ confSum lg (a ++ ⟨v, some d⟩ :: b) := by
    rw [confSum_eq, confSum_eq, List.map_append, List.map_append, List.sum_append, List.sum_append, List.map_cons, List.map_cons, List.sum_cons, List.sum_cons]
    have hm := hl.mono _ _ (clamp_range c).1 (clamp_mono hcd)
    have : (if v = .deletion then (0 : Rat) else ((some c).map fun c => lg (clamp c)).getD 0) ≤ (if v = .deletion then (0 : Rat) else ((some d).map fun c => lg (clamp c)).getD 0) := by
      split
      · exact Rat.le_refl
      · exact hm
    dsimp only at this ⊢
    grind
  have h2 := Verif.Summary.uncertainty_pos hl hn hk
  have := Rat.mul_le_mul_of_nonneg_right hle (Rat.le_of_lt (Rat.inv_pos.2 h2))
  rw [Rat.div_def, Rat.div_def]
  grind

/-- C224 fails for wrong words: being surer of a substitution makes the NCE better. -/
theorem nce_rewards_wrong (lg : Rat → Rat) (hl : LogLike lg) (hst : lg (1 / 10) < lg (9 / 10)) :
    ∃ s t : Spk, s.segs = [[⟨.correct, some (1 / 2)⟩, ⟨.substitution, some (1 / 10)⟩]] ∧ t.segs = [[⟨.correct, some (1 / 2)⟩, ⟨.substitution, some (9 / 10)⟩]] ∧ spkNce lg s < spkNce lg t := by
  refine ⟨⟨[], [[⟨.correct, some (1 / 2)⟩, ⟨.substitution, some (1 / 10)⟩]]⟩, ⟨[], [[⟨.correct, some (1 / 2)⟩, ⟨.substitution, some (9 / 10)⟩]]⟩, rfl, rfl, ?_⟩
  unfold spkNce
  have e1 : ∀ q : Rat, num .corr ⟨[], [[⟨.correct, some (1 / 2)⟩, ⟨.substitution, some q⟩]]⟩ = 1 := fun _ => rfl
  have e2 : ∀ q : Rat, wrong ⟨[], [[⟨.correct, some (1 / 2)⟩, ⟨.substitution, some q⟩]]⟩ = 1 := fun _ => rfl
  rw [e1, e1, e2, e2, nce_formula lg hl 1 1 (by decide) (by decide) (by decide), nce_formula lg hl 1 1 (by decide) (by decide) (by decide)]
  have h2 := Verif.Summary.uncertainty_pos hl (n := 1) (k := 1) (by decide) (by decide)
  have c1 : clamp (1 / 10) = 1 / 10 := by decide +kernel
  have c2 : clamp (9 / 10) = 9 / 10 := by decide +kernel
  have hlt : confSum lg (Spk.words ⟨[], [[⟨.correct, some (1 / 2)⟩, ⟨.substitution, some (1 / 10)⟩]]⟩) <
      confSum lg (Spk.words ⟨[], [[⟨.correct, some (1 / 2)⟩, ⟨.substitution, some (9 / 10)⟩]]⟩) := by
    rw [confSum_eq, confSum_eq]
    simp only [Spk.words, List.flatten_cons, List.flatten_nil, List.append_nil, List.map_cons, List.map_nil, List.sum_cons, List.sum_nil, Option.map_some, Option.getD_some, c1, c2]
    rw [if_neg (by decide), if_neg (by decide)]
    grind
  have := Rat.mul_lt_mul_of_pos_right hlt (Rat.inv_pos.2 h2)
  rw [Rat.div_def, Rat.div_def]
  grind

/-- C224 fails: with the share `p` of correct words as the confidence of every word, which tells nothing, the NCE is not 0 but
`k (lg p - lg (1 - p)) / H`, positive if more than half of the words are correct. -/
theorem nce_uninformed (lg : Rat → Rat) (hl : LogLike lg) (n k : Nat) (hn : 0 < n) (hk : 0 < k) (hN : n + k ≤ 10000000) (hst : lg ((k : Rat) / ((n + k : Nat) : Rat)) < lg ((n : Rat) / ((n + k : Nat) : Rat))) :
    0 < spkNce lg ⟨[], [List.replicate n ⟨.correct, some ((n : Rat) / ((n + k : Nat) : Rat))⟩ ++ List.replicate k ⟨.substitution, some ((n : Rat) / ((n + k : Nat) : Rat))⟩]⟩ := by
  generalize hp : (n : Rat) / ((n + k : Nat) : Rat) = p at *
  have hc : clamp p = p := by rw [← hp]; exact ratio_clamp hn hk hN
  have e1 : num .corr ⟨[], [List.replicate n ⟨.correct, some p⟩ ++ List.replicate k ⟨.substitution, some p⟩]⟩ = n := by
    simp [num, Spk.words, List.countP_append, List.countP_replicate]
  have e2 : wrong ⟨[], [List.replicate n ⟨.correct, some p⟩ ++ List.replicate k ⟨.substitution, some p⟩]⟩ = k := by
    simp [wrong, num, Spk.words, List.countP_append, List.countP_replicate]
  have e3 : confSum lg (Spk.words ⟨[], [List.replicate n ⟨.correct, some p⟩ ++ List.replicate k ⟨.substitution, some p⟩]⟩) = (n : Rat) * lg p + (k : Rat) * lg p := by
    rw [confSum_eq]
    have hr : ∀ (m : Nat) (x : Rat), (List.replicate m x).sum = (m : Rat) * x := by
      intro m x
      induction m with
      | zero => simp
      | succ m ih =>
        rw [List.replicate_succ, List.sum_cons, ih]
        have : ((m + 1 : Nat) : Rat) = (m : Rat) + 1 := by norm_cast
        rw [this]
        grind
    simp only [Spk.words, List.flatten_cons, List.flatten_nil, List.append_nil, List.map_append, List.map_replicate, List.sum_append, hr, Option.map_some, Option.getD_some, hc]
    rw [if_neg (by decide), if_neg (by decide)]
  unfold spkNce
  rw [e1, e2, e3, nce_formula lg hl n k hn hk hN]
  have h2 := Verif.Summary.uncertainty_pos hl hn hk
  have hu : uncertainty lg n k = -((n : Rat) * lg p + (k : Rat) * lg ((k : Rat) / ((n + k : Nat) : Rat))) := by
    unfold uncertainty
    rw [hp]
  have hkq : (0 : Rat) < (k : Rat) := by exact_mod_cast hk
  have hlt : (k : Rat) * lg ((k : Rat) / ((n + k : Nat) : Rat)) < (k : Rat) * lg p := Rat.mul_lt_mul_of_pos_left hst hkq
  have hgt : -uncertainty lg n k < (n : Rat) * lg p + (k : Rat) * lg p := by rw [hu]; grind
  have := Rat.mul_lt_mul_of_pos_right hgt (Rat.inv_pos.2 h2)
  have hii := Rat.mul_inv_cancel (uncertainty lg n k) (by grind)
  rw [Rat.div_def]
  grind

/-- C224 fails for a system that is right in all words and unsure of them: the total is beyond the numbers that can be converted to `int`. -/
theorem nce_total_undefined (sqrt lg : Rat → Rat) (h2 : lg (1 / 2) = -1) (hneg : lg (9999999 / 10000000) < 0) (hsm : -1 / 5000000 ≤ lg (9999999 / 10000000)) (n : Nat) (hn : 0 < n) (o : Opt) (name : Str) :
    sumRow sqrt lg o [⟨name, [List.replicate n ⟨.correct, some (1 / 2)⟩]⟩] = none := by
  have hr : ∀ (m : Nat) (x : Rat), (List.replicate m x).sum = (m : Rat) * x := by
    intro m x
    induction m with
    | zero => simp
    | succ m ih =>
      rw [List.replicate_succ, List.sum_cons, ih]
      have : ((m + 1 : Nat) : Rat) = (m : Rat) + 1 := by norm_cast
      rw [this]
      grind
  have hnq : (0 : Rat) < (n : Rat) := by exact_mod_cast hn
  have e1 : num .corr ⟨name, [List.replicate n ⟨.correct, some (1 / 2)⟩]⟩ = n := by simp [num, Spk.words, List.countP_replicate]
  have e2 : wrong ⟨name, [List.replicate n ⟨.correct, some (1 / 2)⟩]⟩ = 0 := by simp [wrong, num, Spk.words, List.countP_replicate]
  have c1 : clamp (1 / 2) = 1 / 2 := by decide +kernel
  have e3 : confSum lg (Spk.words ⟨name, [List.replicate n ⟨.correct, some (1 / 2)⟩]⟩) = -(n : Rat) := by
    rw [confSum_eq]
    simp only [Spk.words, List.flatten_cons, List.flatten_nil, List.append_nil, List.map_replicate, hr, Option.map_some, Option.getD_some, c1, h2]
    rw [if_neg (by decide)]
    grind
  have hpc : clamp ((n : Rat) / ((n + 0 : Nat) : Rat)) = 9999999 / 10000000 := by
    have : (n : Rat) / ((n + 0 : Nat) : Rat) = 1 := by
      rw [Nat.add_zero, Rat.div_def]
      exact Rat.mul_inv_cancel _ (by grind)
    rw [this]
    decide +kernel
  have htot : totalNce lg [⟨name, [List.replicate n ⟨.correct, some (1 / 2)⟩]⟩] ≤ -4999999 := by
    unfold totalNce nce
    simp only [List.map_cons, List.map_nil, List.sum_cons, List.sum_nil, e1, e2, e3, Nat.add_zero]
    rw [if_neg (by omega)]
    rw [Nat.add_zero] at hpc
    rw [hpc]
    generalize lg (9999999 / 10000000) = x at hneg hsm
    have hx : 0 < -x := by grind
    have hh : 0 < (n : Rat) * -x := Rat.mul_pos hnq hx
    have hz : ((0 : Nat) : Rat) = 0 := rfl
    have eh : -(n : Rat) * x - ((0 : Nat) : Rat) * lg (1 - 9999999 / 10000000) = (n : Rat) * -x := by rw [hz]; grind
    rw [eh, if_neg (by grind), Rat.div_def]
    have hin := Rat.mul_inv_cancel ((n : Rat) * -x) (by grind)
    have hip := Rat.inv_pos.2 hh
    have hs2 : (n : Rat) * (5000000 * -x) ≤ (n : Rat) * 1 := Rat.mul_le_mul_of_nonneg_left (by grind) (Rat.le_of_lt hnq)
    have := Rat.mul_le_mul_of_nonneg_right hs2 (Rat.le_of_lt hip)
    grind
  have ht3 : text3 (totalNce lg [⟨name, [List.replicate n ⟨.correct, some (1 / 2)⟩]⟩]) = none := by
    generalize totalNce lg [⟨name, [List.replicate n ⟨.correct, some (1 / 2)⟩]⟩] = x at htot
    unfold text3 toInt
    rw [if_neg]
    · rfl
    · intro hc
      have hf : fRound x 3 < -2147483648 := by
        unfold fRound Verif.Det.trunc
        have p3 : (10 : Rat) ^ 3 = 1000 := by decide +kernel
        have hx0 : ¬ (0 < x) := by clear hr e3 hpc h2 hneg hsm hnq; grind
        have hx1 : x * 1000 + -1 / 2 < 0 := by clear hr e3 hpc h2 hneg hsm hnq; grind
        rw [if_neg hx0, p3, if_pos hx1]
        have hfl : (2147483649 : Int) ≤ (-(x * 1000 + -1 / 2)).floor := Rat.le_floor_iff.2 (by
          have : (((2147483649 : Int)) : Rat) = 2147483649 := rfl
          clear hr e3 hpc h2 hneg hsm hnq
          grind)
        omega
      omega
  unfold sumRow
  dsimp only
  rw [ht3]
  split
  · rename_i h3; simp at h3
  · rfl

example : LogLike lgT := ⟨fun x _ h => by unfold lgT; grind, fun x y _ h => by unfold lgT; grind⟩
example : spkNce lgT ann = 1 / 15 := by decide +kernel

end Verif.SysRep
