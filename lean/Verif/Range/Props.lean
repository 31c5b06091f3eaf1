import Verif.Range.Lemmas
/-!
# Tables of percentages and their ranges: properties
-/
set_option autoImplicit false
namespace Verif.Range
open Verif.Stats Verif.Anovar

/-! ### C174 -/

/-- C174: each row of the table for the comparison of systems has the percentages of the speaker it is named after.
Missing: systems whose speakers are not the same, in the same order (see below). -/
theorem table_partial (f : Formula) (scor : List System) (ns : List Name) (hne : scor ≠ []) (hn : ns.Nodup)
    (h : ∀ s ∈ scor, s.map (fun g => g.1) = ns) :
    ∃ p, initRank f scor = some (ns, p) ∧ Shape ns.length scor.length p ∧
      ∀ (g n : Nat) (name : Name) (s : System) (c : Counts), ns[g]? = some name → scor[n]? = some s → (name, c) ∈ s →
        ∃ row, p[g]? = some row ∧ row[n]? = some (percentage f c) := by
  have hlen : ∀ s ∈ scor, s.length = ns.length := fun s hs => by rw [← h s hs, List.length_map]
  have hb := blocks_same scor ns.length hne hlen
  have e1 : (List.range (blocks scor)).mapM (blkName scor) = some ns := by
    rw [mapM_some (blkName scor) (fun i => ns.getD i [])]
    · congr 1
      apply List.ext_getElem
      · simp [hb]
      · intro i h1 h2
        simp [List.getD, h2]
    · intro i hi
      have hi' : i < ns.length := by rw [← hb]; exact List.mem_range.1 hi
      match scor, hne with
      | s :: scor, _ =>
        show (s[i]?).map (fun g => g.1) = _
        rw [← List.getElem?_map, h s (List.mem_cons_self ..)]
        simp [List.getD, hi']
  have e2 : ∀ g, g < ns.length → ∀ n, n < scor.length → entry f scor g n =
      some (percentage f (((scor.getD n []).map (fun g => g.2)).getD g ⟨0, 0, 0, 0⟩)) := by
    intro g hg n hn
    have hs := hlen _ (List.getElem_mem hn)
    unfold entry
    rw [List.getElem?_eq_getElem hn]
    dsimp only
    rw [List.getElem?_eq_getElem (by omega)]
    simp only [Option.map_some, Option.some.injEq]
    rw [groupPct_spec]
    congr 1
    simp [List.getD, hn, hs, hg]
  have e3 : (List.range (blocks scor)).mapM (fun g => (List.range scor.length).mapM (fun n => entry f scor g n)) =
      some ((List.range ns.length).map (fun g => (List.range scor.length).map (fun n =>
        percentage f (((scor.getD n []).map (fun g => g.2)).getD g ⟨0, 0, 0, 0⟩)))) := by
    rw [hb]
    apply mapM_some
    intro g hg
    apply mapM_some
    intro n hn
    exact e2 g (List.mem_range.1 hg) n (List.mem_range.1 hn)
  refine ⟨_, by unfold initRank; rw [e1, e3], ⟨by simp, ?_⟩, ?_⟩
  · intro r hr
    obtain ⟨g, _, e⟩ := List.mem_map.1 hr
    rw [← e]; simp
  · intro g n name s c hg hs hc
    obtain ⟨hg1, hg2⟩ := List.getElem?_eq_some_iff.1 hg
    obtain ⟨hs1, hs2⟩ := List.getElem?_eq_some_iff.1 hs
    refine ⟨_, by rw [List.getElem?_map, List.getElem?_range hg1]; rfl, ?_⟩
    rw [List.getElem?_map, List.getElem?_range hs1]
    have hmem : s ∈ scor := by rw [← hs2]; exact List.getElem_mem _
    obtain ⟨i, hi, ei⟩ := List.getElem_of_mem hc
    have hin : ns[i]? = some name := by
      rw [← h s hmem, List.getElem?_map, List.getElem?_eq_getElem hi, ei]; rfl
    obtain ⟨hi1, hi2⟩ := List.getElem?_eq_some_iff.1 hin
    have hig : i = g := by
      have hp := List.pairwise_iff_getElem.1 hn
      rcases Nat.lt_trichotomy i g with c1 | c1 | c1
      · exact absurd (hi2.trans hg2.symm) (hp i g hi1 hg1 c1)
      · exact c1
      · exact absurd (hg2.trans hi2.symm) (hp g i hg1 hi1 c1)
    subst hig
    have es : scor.getD n [] = s := by simp [List.getD, hs]
    show some (percentage f (((scor.getD n []).map (fun g => g.2)).getD i ⟨0, 0, 0, 0⟩)) = _
    rw [es]
    simp [List.getD, hi, ei]

/-- Two systems with the speakers `a` and `b`. -/
def exA : List System := [[(['a'], ⟨9, 1, 0, 0⟩), (['b'], ⟨5, 4, 1, 2⟩)], [(['a'], ⟨8, 1, 1, 0⟩), (['b'], ⟨10, 0, 0, 1⟩)]]

/-- The hypotheses are met. -/
example : exA ≠ [] ∧ [['a'], ['b']].Nodup ∧ (∀ s ∈ exA, s.map (fun g => g.1) = [['a'], ['b']]) ∧
    initRank .E exA = some ([['a'], ['b']], [[10, 20], [70, 10]]) ∧ initRank .W exA = some ([['a'], ['b']], [[90, 80], [30, 90]]) ∧
    initRank .R exA = some ([['a'], ['b']], [[90, 80], [50, 100]]) := by
  refine ⟨by decide, by decide, by decide, by decide +kernel, by decide +kernel, by decide +kernel⟩

/-- Speakers are matched by their position: a system whose speakers come in another order has its percentages entered for the wrong
speakers. -/
theorem other_order_wrong : initRank .E [[(['a'], ⟨10, 0, 0, 0⟩), (['b'], ⟨0, 10, 0, 0⟩)], [(['b'], ⟨0, 10, 0, 0⟩), (['a'], ⟨10, 0, 0, 0⟩)]] =
    some ([['a'], ['b']], [[0, 100], [100, 0]]) := by decide +kernel

/-- If a system has fewer speakers than another, memory that has not been initialised is used. -/
theorem fewer_speakers_undefined (f : Formula) (scor : List System) (s s' : System) (hs : s ∈ scor) (hs' : s' ∈ scor)
    (h : s.length < s'.length) : initRank f scor = none := by
  have hb := le_blocks scor s' hs'
  obtain ⟨n, hn, e⟩ := List.getElem_of_mem hs
  have : (List.range (blocks scor)).mapM (fun g => (List.range scor.length).mapM (fun n => entry f scor g n)) = none := by
    apply mapM_none _ _ s.length (List.mem_range.2 (by omega))
    apply mapM_none _ _ n (List.mem_range.2 hn)
    unfold entry
    rw [List.getElem?_eq_getElem hn, e]
    dsimp only
    rw [List.getElem?_eq_none (Nat.le_refl _)]
    rfl
  unfold initRank
  rw [this]
  cases (List.range (blocks scor)).mapM (blkName scor) <;> rfl

example : [(['a'], (⟨1, 0, 0, 0⟩ : Counts))].length < [(['a'], (⟨1, 0, 0, 0⟩ : Counts)), (['b'], ⟨1, 0, 0, 0⟩)].length := by decide

/-! ### C175 -/

theorem mean_le (n : Nat) (a b : List Rat) (ha : a.length = n) (hb : b.length = n) (h : a.sum ≤ b.sum) : mean a ≤ mean b := by
  unfold mean
  rw [ha, hb, Rat.div_def, Rat.div_def]
  apply Rat.mul_le_mul_of_nonneg_right h
  by_cases c : n = 0
  · subst c; decide +kernel
  · have : (0 : Rat) < (n : Rat) := Rat.natCast_lt_natCast.2 (Nat.pos_of_ne_zero c)
    exact Rat.le_of_lt (Rat.inv_pos.2 this)

/-- C175: the systems are listed from the best mean percentage to the worst, each once. -/
theorem systems_listed (f : Formula) (b t : Nat) (p : Table) (hp : Shape b t p) (ptr : List Nat)
    (ho : if increasing f then Ascending (sysSums t p) ptr else Descending (sysSums t p) ptr) :
    ptr.Perm (List.range t) ∧ ptr.Pairwise (fun i j => NotWorse f (mean (column p i)) (mean (column p j))) := by
  have e : sysSums t p = (columns t p).map (fun c => c.sum) := rankSums_spec t p hp.2
  have hl : (sysSums t p).length = t := by rw [e]; simp [columns]
  have hc : ∀ i, i < t → (sysSums t p).getD i 0 = (column p i).sum := by
    intro i hi
    rw [e]
    simp [columns, List.getD, hi]
  have hlen : ∀ i, (column p i).length = b := fun i => by unfold column; rw [List.length_map, hp.1]
  have main : ∀ le : Nat → Nat → Prop, ptr.Perm (List.range (sysSums t p).length) ∧ ptr.Pairwise le →
      (∀ i j, i < t → j < t → le i j → NotWorse f (mean (column p i)) (mean (column p j))) →
      ptr.Perm (List.range t) ∧ ptr.Pairwise (fun i j => NotWorse f (mean (column p i)) (mean (column p j))) := by
    intro le h1 h2
    rw [hl] at h1
    refine ⟨h1.1, h1.2.imp_of_mem ?_⟩
    intro i j hi hj hle
    exact h2 i j (List.mem_range.1 (h1.1.mem_iff.1 hi)) (List.mem_range.1 (h1.1.mem_iff.1 hj)) hle
  cases f with
  | E =>
    refine main _ ho (fun i j hi hj hle => ?_)
    rw [hc i hi, hc j hj] at hle
    exact mean_le b _ _ (hlen i) (hlen j) hle
  | R =>
    refine main _ ho (fun i j hi hj hle => ?_)
    rw [hc i hi, hc j hj] at hle
    exact mean_le b _ _ (hlen j) (hlen i) hle
  | W =>
    refine main _ ho (fun i j hi hj hle => ?_)
    rw [hc i hi, hc j hj] at hle
    exact mean_le b _ _ (hlen j) (hlen i) hle

/-- C175 for the speakers. -/
theorem speakers_listed (f : Formula) (b t : Nat) (p : Table) (hp : Shape b t p) (ptr : List Nat)
    (ho : if increasing f then Ascending (spkSums p) ptr else Descending (spkSums p) ptr) :
    ptr.Perm (List.range b) ∧ ptr.Pairwise (fun i j => NotWorse f (mean (p.getD i [])) (mean (p.getD j []))) := by
  have hl : (spkSums p).length = b := by unfold spkSums; rw [List.length_map, hp.1]
  have hc : ∀ i, i < b → (spkSums p).getD i 0 = (p.getD i []).sum := by
    intro i hi
    unfold spkSums
    simp [List.getD, show i < p.length by rw [hp.1]; exact hi, foldl_sum]
  have hlen : ∀ i, i < b → (p.getD i []).length = t := by
    intro i hi
    have hi' : i < p.length := by rw [hp.1]; exact hi
    rw [show p.getD i [] = p[i] from by simp [List.getD, hi']]
    exact hp.2 _ (List.getElem_mem _)
  have main : ∀ le : Nat → Nat → Prop, ptr.Perm (List.range (spkSums p).length) ∧ ptr.Pairwise le →
      (∀ i j, i < b → j < b → le i j → NotWorse f (mean (p.getD i [])) (mean (p.getD j []))) →
      ptr.Perm (List.range b) ∧ ptr.Pairwise (fun i j => NotWorse f (mean (p.getD i [])) (mean (p.getD j []))) := by
    intro le h1 h2
    rw [hl] at h1
    refine ⟨h1.1, h1.2.imp_of_mem ?_⟩
    intro i j hi hj hle
    exact h2 i j (List.mem_range.1 (h1.1.mem_iff.1 hi)) (List.mem_range.1 (h1.1.mem_iff.1 hj)) hle
  cases f with
  | E =>
    refine main _ ho (fun i j hi hj hle => ?_)
    rw [hc i hi, hc j hj] at hle
    exact mean_le t _ _ (hlen i hi) (hlen j hj) hle
  | R =>
    refine main _ ho (fun i j hi hj hle => ?_)
    rw [hc i hi, hc j hj] at hle
    exact mean_le t _ _ (hlen j hj) (hlen i hi) hle
  | W =>
    refine main _ ho (fun i j hi hj hle => ?_)
    rw [hc i hi, hc j hj] at hle
    exact mean_le t _ _ (hlen j hj) (hlen i hi) hle

/-- The hypotheses are met: two speakers, three systems with mean errors 40, 15 and 30. -/
example : Shape 2 3 [[10, 20, 30], [70, 10, 30]] ∧ Ascending (sysSums 3 [[10, 20, 30], [70, 10, 30]]) [1, 2, 0] ∧
    Descending (spkSums [[10, 20, 30], [70, 10, 30]]) [1, 0] := by
  refine ⟨by unfold Shape; decide, ?_, ?_⟩
  · unfold Ascending; decide +kernel
  · unfold Descending; decide +kernel

/-! ### C176 -/

/-- C176: the high and the low value reported are the highest and the lowest percentage.
Missing: percentages that are all negative, or all above 100 (see below). -/
theorem range_partial (l : List Rat) : ((∃ x ∈ l, 0 ≤ x) → IsMax l (high l)) ∧ ((∃ x ∈ l, x ≤ 100) → IsMin l (low l)) := by
  constructor
  · intro ⟨x, hx, h0⟩
    obtain ⟨h1, h2, h3⟩ := high_acc l 0
    refine ⟨?_, h2⟩
    rcases h3 with h3 | h3
    · have : x = 0 := Rat.le_antisymm (by have := h2 x hx; rw [h3] at this; exact this) h0
      show l.foldl _ 0 ∈ l
      rw [h3, ← this]; exact hx
    · exact h3
  · intro ⟨x, hx, h0⟩
    obtain ⟨h1, h2, h3⟩ := low_acc l 100
    refine ⟨?_, h2⟩
    rcases h3 with h3 | h3
    · have : x = 100 := Rat.le_antisymm h0 (by have := h2 x hx; rw [h3] at this; exact this)
      show l.foldl _ 100 ∈ l
      rw [h3, ← this]; exact hx
    · exact h3

example : (∃ x ∈ [(-20 : Rat), 30, 120], 0 ≤ x) ∧ high [-20, 30, 120] = 120 ∧ low [-20, 30, 120] = -20 := by
  refine ⟨⟨30, by simp, by decide +kernel⟩, by decide +kernel, by decide +kernel⟩

/-- If all error rates are above 100, the low value reported is 100; if all accuracies are negative, the high value reported is 0. -/
theorem range_wrong (l : List Rat) : ((∀ x ∈ l, 100 < x) → low l = 100) ∧ ((∀ x ∈ l, x < 0) → high l = 0) := by
  constructor
  · intro h
    obtain ⟨h1, h2, h3⟩ := low_acc l 100
    rcases h3 with h3 | h3
    · exact h3
    · have := h _ h3
      exact absurd h1 (by grind)
  · intro h
    obtain ⟨h1, h2, h3⟩ := high_acc l 0
    rcases h3 with h3 | h3
    · exact h3
    · have := h _ h3
      exact absurd h1 (by grind)

/-! ### C177 -/

/-- The character in column `k` of a row. -/
theorem graphRow_get (s : Nat) (m sd hi lo : Rat) (k : Nat) (hk : k < 100 / s + 1) :
    (graphRow s m sd hi lo)[k]? = some (cell s m sd hi lo (k * s)) := by
  unfold graphRow
  rw [List.getElem?_map, List.getElem?_range hk]
  rfl

/-- C177: a row of the graph has a column for each multiple of the scale up to 100.  The columns at most half the scale away from the
mean are marked `|`, at least one of them if the mean is within 0 and 100; the columns at most half the scale away from a standard
deviation off the mean are marked `+` or `|`.  Every mark is at most half the scale, and a ten thousandth, away from what it shows.  The
other columns are marked `-` exactly if they are between the low and the high value.
Missing: only one `|` (see below). -/
theorem graph_partial (s : Nat) (hs : s = 1 ∨ s = 2) (m sd hi lo : Rat) :
    (graphRow s m sd hi lo).length = 100 / s + 1 ∧
    (0 ≤ m → m ≤ 100 → '|' ∈ graphRow s m sd hi lo) ∧
    ∀ k c, (graphRow s m sd hi lo)[k]? = some c →
      (Near ((s : Rat) / 2) ((k * s : Nat) : Rat) m → c = '|') ∧
      (c = '|' → Near ((s : Rat) / 2 + 1 / 10000) ((k * s : Nat) : Rat) m) ∧
      (Near ((s : Rat) / 2) ((k * s : Nat) : Rat) (m + sd) ∨ Near ((s : Rat) / 2) ((k * s : Nat) : Rat) (m - sd) → c = '|' ∨ c = '+') ∧
      (c = '+' → Near ((s : Rat) / 2 + 1 / 10000) ((k * s : Nat) : Rat) (m + sd) ∨
        Near ((s : Rat) / 2 + 1 / 10000) ((k * s : Nat) : Rat) (m - sd)) ∧
      (c = '-' → lo ≤ ((k * s : Nat) : Rat) ∧ ((k * s : Nat) : Rat) ≤ hi) ∧
      (c = ' ' → ((k * s : Nat) : Rat) < lo ∨ hi < ((k * s : Nat) : Rat)) ∧
      (c = '|' ∨ c = '+' ∨ c = '-' ∨ c = ' ') := by
  have cells : ∀ j : Nat,
      (Near ((s : Rat) / 2) (j : Rat) m → cell s m sd hi lo j = '|') ∧
      (cell s m sd hi lo j = '|' → Near ((s : Rat) / 2 + 1 / 10000) (j : Rat) m) ∧
      (Near ((s : Rat) / 2) (j : Rat) (m + sd) ∨ Near ((s : Rat) / 2) (j : Rat) (m - sd) →
        cell s m sd hi lo j = '|' ∨ cell s m sd hi lo j = '+') ∧
      (cell s m sd hi lo j = '+' → Near ((s : Rat) / 2 + 1 / 10000) (j : Rat) (m + sd) ∨
        Near ((s : Rat) / 2 + 1 / 10000) (j : Rat) (m - sd)) ∧
      (cell s m sd hi lo j = '-' → lo ≤ (j : Rat) ∧ (j : Rat) ≤ hi) ∧
      (cell s m sd hi lo j = ' ' → (j : Rat) < lo ∨ hi < (j : Rat)) ∧
      (cell s m sd hi lo j = '|' ∨ cell s m sd hi lo j = '+' ∨ cell s m sd hi lo j = '-' ∨ cell s m sd hi lo j = ' ') := by
    intro j
    unfold cell Near
    dsimp only
    generalize (j : Rat) = x
    generalize (s : Rat) / 2 = h
    by_cases c1 : x > m - (1 / 10000 + h) ∧ x < m + (1 / 10000 + h)
    · rw [if_pos c1]
      refine ⟨fun _ => rfl, fun _ => by constructor <;> grind, fun _ => Or.inl rfl, fun h => absurd h (by decide),
        fun h => absurd h (by decide), fun h => absurd h (by decide), Or.inl rfl⟩
    · rw [if_neg c1]
      have n1 : ¬ (x - m ≤ h ∧ m - x ≤ h) := by
        intro ⟨a, b⟩
        exact c1 ⟨by grind, by grind⟩
      by_cases c2 : (x > m + sd - (1 / 10000 + h) ∧ x < m + sd + (1 / 10000 + h)) ∨
          (x > m - sd - (1 / 10000 + h) ∧ x < m - sd + (1 / 10000 + h))
      · rw [if_pos c2]
        refine ⟨fun h => absurd h n1, fun h => absurd h (by decide), fun _ => Or.inr rfl, fun _ => ?_,
          fun h => absurd h (by decide), fun h => absurd h (by decide), Or.inr (Or.inl rfl)⟩
        rcases c2 with c | c
        · exact Or.inl ⟨by grind, by grind⟩
        · exact Or.inr ⟨by grind, by grind⟩
      · rw [if_neg c2]
        have n2 : ¬ ((x - (m + sd) ≤ h ∧ m + sd - x ≤ h) ∨ (x - (m - sd) ≤ h ∧ m - sd - x ≤ h)) := by
          intro hh
          rcases hh with ⟨a, b⟩ | ⟨a, b⟩
          · exact c2 (Or.inl ⟨by grind, by grind⟩)
          · exact c2 (Or.inr ⟨by grind, by grind⟩)
        by_cases c3 : x > hi ∨ x < lo
        · rw [if_pos c3]
          refine ⟨fun h => absurd h n1, fun h => absurd h (by decide), fun h => absurd h n2, fun h => absurd h (by decide),
            fun h => absurd h (by decide), fun _ => c3.symm, Or.inr (Or.inr (Or.inr rfl))⟩
        · rw [if_neg c3]
          refine ⟨fun h => absurd h n1, fun h => absurd h (by decide), fun h => absurd h n2, fun h => absurd h (by decide),
            fun _ => ⟨by grind, by grind⟩, fun h => absurd h (by decide), Or.inr (Or.inr (Or.inl rfl))⟩
  refine ⟨by unfold graphRow; simp, ?_, ?_⟩
  · intro h0 h1
    obtain ⟨k, hk, hn⟩ := nearest s hs m h0 h1
    have := graphRow_get s m sd hi lo k hk
    rw [(cells (k * s)).1 hn] at this
    exact List.mem_of_getElem? this
  · intro k c hc
    have hk : k < 100 / s + 1 := by
      have := (List.getElem?_eq_some_iff.1 hc).1
      unfold graphRow at this
      simpa using this
    rw [graphRow_get s m sd hi lo k hk] at hc
    cases hc
    exact cells (k * s)

/-- A row for the mean 50 and standard deviation 10. -/
example : (graphRow 2 50 10 70 30).take 40 = "               -----+----|----+-----    ".toList := by decide +kernel

/-- A mean in the middle of two columns is marked in both, a mean above 102 in none. -/
theorem graph_marks : (graphRow 1 (101 / 2) 10 70 30).count '|' = 2 ∧
    ∀ (s : Nat) (m sd hi lo : Rat), (s = 1 ∨ s = 2) → 102 < m → '|' ∉ graphRow s m sd hi lo := by
  refine ⟨by decide +kernel, ?_⟩
  intro s m sd hi lo hs hm hmem
  obtain ⟨k, hk⟩ := List.getElem?_of_mem hmem
  have h := ((graph_partial s hs m sd hi lo).2.2 k '|' hk).2.1 rfl
  have hlt : k < 100 / s + 1 := by
    have := (List.getElem?_eq_some_iff.1 hk).1
    rw [(graph_partial s hs m sd hi lo).1] at this
    exact this
  have hle : k * s ≤ 100 := by rcases hs with e | e <;> subst e <;> omega
  have hle' : ((k * s : Nat) : Rat) ≤ ((100 : Nat) : Rat) := Rat.natCast_le_natCast.2 hle
  have e100 : ((100 : Nat) : Rat) = 100 := rfl
  have h2 := h.2
  have hs2 : (s : Rat) ≤ 2 := by rcases hs with e | e <;> subst e <;> decide +kernel
  grind

/-! ### C178 -/

/-- C178: the mean, the median and the variance reported are those of the values; the variance is the sum of the squared distances from the
mean, divided by one less than their number, and 0 for a single value. -/
theorem mean_median_variance (l : List Rat) (ptr : List Nat) (hne : l ≠ []) (ho : Ascending l ptr) :
    calcMean l = mean l ∧ IsMedian l (calcMedian l ptr) ∧
      (2 ≤ l.length → calcVariance l = spread (mean l) l / ((l.length : Rat) - 1)) ∧ (l.length = 1 → calcVariance l = 0) := by
  have hpos : l.length ≠ 0 := fun h => hne (List.length_eq_zero_iff.1 h)
  have hm : calcMean l = mean l := by
    unfold calcMean mean
    rw [if_neg hpos, foldl_sum]
  have ht : l.foldl (fun s x => s + (x - calcMean l) * (x - calcMean l)) 0 = spread (mean l) l := by
    rw [hm]
    unfold spread
    generalize mean l = c
    have : ∀ (l : List Rat) (a : Rat), l.foldl (fun s x => s + (x - c) * (x - c)) a = a + (l.map (fun x => (x - c) * (x - c))).sum := by
      intro l
      induction l with
      | nil => intro a; simp [Rat.add_zero]
      | cons x l ih => intro a; rw [List.foldl_cons, ih, List.map_cons, List.sum_cons, Rat.add_assoc]
    rw [this, Rat.zero_add]
  refine ⟨hm, median_spec l ptr ho hne, ?_, ?_⟩
  · intro _
    unfold calcVariance
    dsimp only
    rw [ht]
    by_cases c : spread (mean l) l = 0
    · rw [if_neg (not_not_intro c), c, Rat.div_def, Rat.zero_mul]
    · rw [if_pos c]
  · intro h1
    unfold calcVariance
    dsimp only
    rw [ht]
    match l, h1 with
    | [x], _ =>
      have : spread (mean [x]) [x] = 0 := by
        unfold spread mean
        have : [x].sum / ([x].length : Rat) = x := by
          show (x + 0) / 1 = x
          rw [Rat.add_zero, Rat.div_def]
          have : (1 : Rat)⁻¹ = 1 := by decide +kernel
          rw [this, Rat.mul_one]
        rw [this]
        simp only [List.map_cons, List.map_nil, List.sum_cons, List.sum_nil]
        grind
      rw [if_neg (not_not_intro this)]

/-- The hypotheses are met. -/
example : Ascending [7, 1, 4, 2] [1, 3, 2, 0] ∧ calcMean [7, 1, 4, 2] = 7 / 2 ∧ calcMedian [7, 1, 4, 2] [1, 3, 2, 0] = 3 ∧
    calcVariance [7, 1, 4, 2] = 7 := by
  refine ⟨?_, by decide +kernel, by decide +kernel, by decide +kernel⟩
  unfold Ascending; decide +kernel

/-! ### C179 -/

theorem scan_skip {X : Type} : ∀ (t : Nat) (r : List Char) (l : List X), t ≤ l.length →
    scan ((List.replicate t "%*s".toList).flatten ++ r) l = scan r (l.drop t)
  | 0, r, l, _ => by simp
  | t + 1, r, [], h => by simp at h
  | t + 1, r, x :: l, h => by
    rw [List.replicate_succ, List.flatten_cons, List.append_assoc]
    show scan ('%' :: '*' :: 's' :: _) (x :: l) = _
    rw [scan]
    exact scan_skip t r l (by simpa using h)

theorem gnuFormat_length (t : Nat) : ("%lf".toList ++ (List.replicate t "%*s".toList).flatten ++ "%lf".toList).length = 6 + 3 * t := by
  have : ∀ t, ((List.replicate t "%*s".toList).flatten).length = 3 * t := by
    intro t
    induction t with
    | zero => rfl
    | succ t ih => rw [List.replicate_succ, List.flatten_cons, List.length_append, ih]; show 3 + 3 * t = _; omega
  rw [List.length_append, List.length_append, this]
  show 3 + 3 * t + 3 = _
  omega

/-- C179: for each series the format written for gnuplot reads the label and the value of the series from a line.
Missing: more than 32 series (see below). -/
theorem series_partial (n : Nat) (h : n ≤ 32) : ∃ fs, gnuFormats n = some fs ∧ fs.length = n ∧
    ∀ {X : Type} (t : Nat) (f : List Char) (label : X) (vals : List X), fs[t]? = some f → vals.length = n →
      ∃ v, vals[t]? = some v ∧ scan f (label :: vals) = [label, v] := by
  refine ⟨(List.range n).map (fun t => "%lf".toList ++ (List.replicate t "%*s".toList).flatten ++ "%lf".toList), ?_, by simp, ?_⟩
  · unfold gnuFormats
    apply mapM_some
    intro t ht
    have := List.mem_range.1 ht
    unfold gnuFormat
    dsimp only
    rw [gnuFormat_length, if_pos (by omega)]
  · intro X t f label vals hf hv
    have ht : t < n := by
      have := (List.getElem?_eq_some_iff.1 hf).1
      simpa using this
    rw [List.getElem?_map, List.getElem?_range ht] at hf
    cases hf
    refine ⟨vals[t]'(by omega), List.getElem?_eq_getElem _, ?_⟩
    show scan ('%' :: 'l' :: 'f' :: ((List.replicate t "%*s".toList).flatten ++ "%lf".toList)) (label :: vals) = _
    rw [scan, scan_skip t _ vals (by omega), List.drop_eq_getElem_cons (by omega : t < vals.length)]
    rfl

example : gnuFormats 3 = some ["%lf%lf".toList, "%lf%*s%lf".toList, "%lf%*s%*s%lf".toList] ∧
    scan "%lf%*s%*s%lf".toList [1, 10, 20, 30] = [1, 30] := by decide

/-- With more than 32 series a buffer overflows. -/
theorem many_series_overflow (n : Nat) (h : 32 < n) : gnuFormats n = none := by
  unfold gnuFormats
  apply mapM_none _ _ 32 (List.mem_range.2 h)
  unfold gnuFormat
  dsimp only
  rw [gnuFormat_length, if_neg (by omega)]

/-- The names of the files overflow if the name of the output has more than 38 bytes. -/
theorem long_name_overflows (base : List Char) (forBlks : Bool) : gnuNames base forBlks = none ↔ 38 < base.length := by
  have hl : (if forBlks then ".spk".toList else ".sys".toList).length = 4 := by cases forBlks <;> rfl
  unfold gnuNames
  dsimp only
  simp only [List.all_cons, List.all_nil, List.length_append, hl, Bool.and_true, Bool.and_eq_true, decide_eq_true_eq]
  have e1 : ".dat".toList.length = 4 := rfl
  have e2 : ".mean".toList.length = 5 := rfl
  have e3 : ".median".toList.length = 7 := rfl
  have e4 : ".plt".toList.length = 4 := rfl
  rw [e1, e2, e3, e4]
  by_cases hb : base = "-".toList
  · subst hb
    rw [if_pos rfl]
    constructor
    · intro h
      rw [if_pos (by decide)] at h
      cases h
    · intro h; exact absurd h (by decide)
  · rw [if_neg hb]
    constructor
    · intro h
      apply Nat.lt_of_not_le
      intro hle
      rw [if_pos (by omega)] at h
      cases h
    · intro h
      rw [if_neg (by omega)]

end Verif.Range
