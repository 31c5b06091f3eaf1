import Verif.Summary.Lemmas
/-!
# Properties of the summaries of sclite
-/
set_option autoImplicit false
namespace Verif.Summary
open Verif.Range Verif.Det Verif.Anovar Verif.Stats

/-! ## C213: the row of a speaker -/

/-- The summary by percentages: a speaker with reference words has a row of one decimal place, without asterisk, that shows the correct, substituted, deleted, inserted
and erroneous words in per cent of the reference words, and the erroneous sentences in per cent of the sentences.  The shares of correct, substituted
and deleted words add to 100.0 up to 0.1; the errors are the sum of the three kinds up to 0.1. -/
theorem speaker_row (g : Grp) (hw : 0 < g.corr + g.sub + g.del) (hs : 0 < g.nsent) :
    ∃ c s d i e se, spkRow .sum g = ⟨g.nsent, (g.corr + g.sub + g.del : Nat), 1, false, [c, s, d, i, e], 1, se⟩ ∧
      Shows 1 c (percent g.corr (g.corr + g.sub + g.del : Nat)) ∧ Shows 1 s (percent g.sub (g.corr + g.sub + g.del : Nat)) ∧
      Shows 1 d (percent g.del (g.corr + g.sub + g.del : Nat)) ∧ Shows 1 i (percent g.ins (g.corr + g.sub + g.del : Nat)) ∧
      Shows 1 e (percent (g.sub + g.del + g.ins : Nat) (g.corr + g.sub + g.del : Nat)) ∧ Shows 1 se (percent g.serr g.nsent) ∧
      (999 ≤ c + s + d ∧ c + s + d ≤ 1001) ∧ (e - (s + d + i) ≤ 1 ∧ s + d + i - e ≤ 1) := by
  have hN : (0 : Rat) < ((g.corr + g.sub + g.del : Nat) : Rat) := by exact_mod_cast hw
  have hS : (0 : Rat) < (g.nsent : Rat) := by exact_mod_cast hs
  have ht : trefs .sum g = ((g.corr + g.sub + g.del : Nat) : Rat) := by
    unfold trefs
    rw [if_neg (by decide), Nat.add_comm g.sub g.corr]
  have hv : vals .sum g = ⟨percent g.corr (g.corr + g.sub + g.del : Nat), percent g.sub (g.corr + g.sub + g.del : Nat),
      percent g.del (g.corr + g.sub + g.del : Nat), percent g.ins (g.corr + g.sub + g.del : Nat),
      percent (g.sub + g.del + g.ins : Nat) (g.corr + g.sub + g.del : Nat)⟩ := by
    unfold vals
    rw [ht, if_neg (by rintro (h | h); · cases h
                       · grind), if_neg (by decide)]
    rw [pctR_eq (by grind), pctR_eq (by grind), pctR_eq (by grind), pctR_eq (by grind), pctR_eq (by grind),
      show g.sub + g.ins + g.del = g.sub + g.del + g.ins by omega]
  have nn : ∀ k : Nat, 0 ≤ percent (k : Rat) ((g.corr + g.sub + g.del : Nat) : Rat) := fun k =>
    percent_nonneg (by exact_mod_cast Nat.zero_le k) hN
  have pl : (decide (Mode.sum = Mode.raw ∨ 0 < wordNum g)) = true := decide_eq_true (Or.inr hw)
  refine ⟨_, _, _, _, _, _, ?_, fRound_shows 1 (nn _), fRound_shows 1 (nn _), fRound_shows 1 (nn _), fRound_shows 1 (nn _), fRound_shows 1 (nn _),
    fRound_shows 1 (percent_nonneg (by exact_mod_cast Nat.zero_le _) hS), ?_, ?_⟩
  · unfold spkRow
    rw [hv, pl, if_neg (by decide)]
    unfold serrVal
    rw [if_neg (by decide), pctR_eq (by grind)]
    rfl
  · refine three_shares (fRound_shows 1 (nn _)) (fRound_shows 1 (nn _)) (fRound_shows 1 (nn _)) ?_
    rw [← percent_add, ← percent_add]
    have : (g.corr : Rat) + (g.sub : Rat) + (g.del : Rat) = ((g.corr + g.sub + g.del : Nat) : Rat) := by norm_cast
    rw [this, percent_self (by grind)]
  · refine three_parts (fRound_shows 1 (nn _)) (fRound_shows 1 (nn _)) (fRound_shows 1 (nn _)) (fRound_shows 1 (nn _)) ?_
    rw [← percent_add, ← percent_add]
    have : (g.sub : Rat) + (g.del : Rat) + (g.ins : Rat) = ((g.sub + g.del + g.ins : Nat) : Rat) := by norm_cast
    rw [this]

/-- A speaker without reference words has counts with asterisks instead: only insertions. -/
theorem speaker_row_no_words (g : Grp) (hw : g.corr + g.sub + g.del = 0) :
    ∃ se, spkRow .sum g = ⟨g.nsent, 0, 0, true, [0, 0, 0, g.ins, g.ins], 1, se⟩ ∧
      (g.nsent = 0 → se = 0) ∧ (0 < g.nsent → Shows 1 se (percent g.serr g.nsent)) := by
  have h1 : g.corr = 0 := by omega
  have h2 : g.sub = 0 := by omega
  have h3 : g.del = 0 := by omega
  have ht : trefs .sum g = 0 := by
    unfold trefs
    rw [if_neg (by decide), h1, h2, h3]
    rfl
  have pl : (decide (Mode.sum = Mode.raw ∨ 0 < wordNum g)) = false := by
    refine decide_eq_false ?_
    rintro (h | h)
    · cases h
    · unfold wordNum at h; omega
  have z : fRound ((0 : Nat) : Rat) 0 = 0 := fRound_nat 0
  have hv : vals .sum g = ⟨((0 : Nat) : Rat), ((0 : Nat) : Rat), ((0 : Nat) : Rat), (g.ins : Rat), (g.ins : Rat)⟩ := by
    unfold vals
    rw [ht, if_pos (Or.inr rfl), h1, h2, h3, Nat.zero_add, Nat.add_zero]
  refine ⟨fRound (serrVal .sum g) 1, ?_, ?_, ?_⟩
  · unfold spkRow
    rw [hv, pl]
    simp only [Bool.false_eq_true, if_false, z, fRound_nat, Bool.not_false, wordNum, h1, h2, h3]
    rfl
  · intro h
    unfold serrVal pctR
    rw [if_neg (by decide), h, if_pos (by decide +kernel)]
    decide +kernel
  · intro h
    have hS : (0 : Rat) < (g.nsent : Rat) := by exact_mod_cast h
    unfold serrVal
    rw [if_neg (by decide), pctR_eq (by grind)]
    exact fRound_shows 1 (percent_nonneg (by exact_mod_cast Nat.zero_le _) hS)

/-- The summary by counts shows the counts. -/
theorem speaker_row_raw (g : Grp) :
    spkRow .raw g = ⟨g.nsent, (g.corr + g.sub + g.del : Nat), 0, false, [g.corr, g.sub, g.del, g.ins, (g.sub + g.del + g.ins : Nat)], 0, g.serr⟩ := by
  have hv : vals .raw g = ⟨g.corr, g.sub, g.del, g.ins, ((g.sub + g.ins + g.del : Nat) : Rat)⟩ := by
    unfold vals
    rw [if_pos (Or.inl rfl)]
  have pl : (decide (Mode.raw = Mode.raw ∨ 0 < wordNum g)) = true := decide_eq_true (Or.inl rfl)
  unfold spkRow serrVal
  rw [hv, pl]
  simp only [if_true, fRound_nat, Bool.not_true, wordNum]
  rw [show g.sub + g.ins + g.del = g.sub + g.del + g.ins by omega]

/-- The weighted summary: with a positive weight of the reference words, the cells are the weights in per cent of it. -/
theorem speaker_row_weighted_partial (g : Grp) (hw : 0 < g.corr + g.sub + g.del) (hr : 0 < g.wRef) (h1 : 0 ≤ g.wCorr) (h2 : 0 ≤ g.wSub) (h3 : 0 ≤ g.wDel) (h4 : 0 ≤ g.wIns) :
    ∃ c s d i e se, spkRow .weighted g = ⟨g.nsent, (g.corr + g.sub + g.del : Nat), 1, false, [c, s, d, i, e], 1, se⟩ ∧
      Shows 1 c (percent g.wCorr g.wRef) ∧ Shows 1 s (percent g.wSub g.wRef) ∧ Shows 1 d (percent g.wDel g.wRef) ∧ Shows 1 i (percent g.wIns g.wRef) ∧
      Shows 1 e (percent (g.wSub + g.wDel + g.wIns) g.wRef) ∧ (e - (s + d + i) ≤ 1 ∧ s + d + i - e ≤ 1) ∧
      (g.wRef = g.wCorr + g.wSub + g.wDel → 999 ≤ c + s + d ∧ c + s + d ≤ 1001) := by
  have hv : vals .weighted g = ⟨percent g.wCorr g.wRef, percent g.wSub g.wRef, percent g.wDel g.wRef, percent g.wIns g.wRef,
      percent (g.wSub + g.wDel + g.wIns) g.wRef⟩ := by
    unfold vals trefs
    rw [if_pos rfl, if_neg (by rintro (h | h); · cases h
                               · grind), if_pos rfl]
    rw [pctR_eq (by grind), pctR_eq (by grind), pctR_eq (by grind), pctR_eq (by grind), pctR_eq (by grind),
      show g.wSub + g.wIns + g.wDel = g.wSub + g.wDel + g.wIns by grind]
  have pl : (decide (Mode.weighted = Mode.raw ∨ 0 < wordNum g)) = true := decide_eq_true (Or.inr hw)
  refine ⟨_, _, _, _, _, fRound (serrVal .weighted g) 1, ?_, fRound_shows 1 (percent_nonneg h1 hr), fRound_shows 1 (percent_nonneg h2 hr), fRound_shows 1 (percent_nonneg h3 hr),
    fRound_shows 1 (percent_nonneg h4 hr), fRound_shows 1 (percent_nonneg (by grind) hr), ?_, ?_⟩
  · unfold spkRow
    rw [hv, pl, if_neg (by decide)]
    rfl
  · refine three_parts (fRound_shows 1 (percent_nonneg (by grind) hr)) (fRound_shows 1 (percent_nonneg h2 hr)) (fRound_shows 1 (percent_nonneg h3 hr))
      (fRound_shows 1 (percent_nonneg h4 hr)) ?_
    rw [percent_add, percent_add]
  · intro he
    refine three_shares (fRound_shows 1 (percent_nonneg h1 hr)) (fRound_shows 1 (percent_nonneg h2 hr)) (fRound_shows 1 (percent_nonneg h3 hr)) ?_
    rw [← percent_add, ← percent_add, ← he, percent_self (by grind)]

/-- The weighted summary is wrong for a speaker all of whose reference words have weight 0: the unweighted counts are printed as if they were percentages,
without an asterisk. -/
theorem speaker_row_weightless (g : Grp) (hw : 0 < g.corr + g.sub + g.del) (hr : g.wRef = 0) :
    (spkRow .weighted g).star = false ∧ (spkRow .weighted g).prec = 1 ∧
      (spkRow .weighted g).cells = [10 * (g.corr : Int), 10 * (g.sub : Int), 10 * (g.del : Int), 10 * (g.ins : Int), 10 * ((g.sub + g.del + g.ins : Nat) : Int)] := by
  have hv : vals .weighted g = ⟨g.corr, g.sub, g.del, g.ins, ((g.sub + g.ins + g.del : Nat) : Rat)⟩ := by
    unfold vals trefs
    rw [if_pos rfl, hr, if_pos (Or.inr rfl)]
  have pl : (decide (Mode.weighted = Mode.raw ∨ 0 < wordNum g)) = true := decide_eq_true (Or.inr hw)
  unfold spkRow
  rw [hv, pl, if_neg (by decide)]
  simp only [if_true, fRound_nat10, Bool.not_true, true_and]
  rw [show g.sub + g.ins + g.del = g.sub + g.del + g.ins by omega]

/-- A speaker: name, words, sentences, weights, paths. -/
def spk (n : String) (c s d i ns se : Nat) (ps : List HPath := []) : Grp := ⟨n.toList, c, s, d, i, ns, se, c + s + d, c, s, d, i, ps⟩

example : spkRow .sum (spk "ann" 5 1 1 1 4 3) = ⟨4, 7, 1, false, [714, 143, 143, 143, 429], 1, 750⟩ := by decide +kernel
example : spkRow .sum (spk "bob" 0 0 0 2 1 1) = ⟨1, 0, 0, true, [0, 0, 0, 2, 2], 1, 1000⟩ := by decide +kernel
example : spkRow .raw (spk "ann" 5 1 1 1 4 3) = ⟨4, 7, 0, false, [5, 1, 1, 1, 3], 0, 3⟩ := by decide +kernel
/-- The shares need not add to 100.0. -/
example : (spkRow .sum (spk "cat" 1 1 1 0 1 1)).cells = [333, 333, 333, 0, 667] := by decide +kernel
/-- Three words of weight 0: "3.0 correct". -/
example : (spkRow .weighted { spk "dan" 3 0 0 0 1 0 with wRef := 0, wCorr := 0 }).cells = [30, 0, 0, 0, 0] := by decide +kernel

/-! ## C214: the row of all speakers -/

/-- The last row of the summary by percentages is the row of all words and sentences together. -/
theorem sum_row (gs : List Grp) (hw : 0 < (gs.map Grp.corr).sum + (gs.map Grp.sub).sum + (gs.map Grp.del).sum) (hs : 0 < (gs.map Grp.nsent).sum) :
    ∃ c s d i e se, sumRow .sum gs = ⟨(gs.map Grp.nsent).sum, ((gs.map Grp.corr).sum + (gs.map Grp.sub).sum + (gs.map Grp.del).sum : Nat), 1, false, [c, s, d, i, e], 1, se⟩ ∧
      Shows 1 c (percent (gs.map Grp.corr).sum ((gs.map Grp.corr).sum + (gs.map Grp.sub).sum + (gs.map Grp.del).sum : Nat)) ∧
      Shows 1 s (percent (gs.map Grp.sub).sum ((gs.map Grp.corr).sum + (gs.map Grp.sub).sum + (gs.map Grp.del).sum : Nat)) ∧
      Shows 1 d (percent (gs.map Grp.del).sum ((gs.map Grp.corr).sum + (gs.map Grp.sub).sum + (gs.map Grp.del).sum : Nat)) ∧
      Shows 1 i (percent (gs.map Grp.ins).sum ((gs.map Grp.corr).sum + (gs.map Grp.sub).sum + (gs.map Grp.del).sum : Nat)) ∧
      Shows 1 e (percent ((gs.map Grp.sub).sum + (gs.map Grp.del).sum + (gs.map Grp.ins).sum : Nat) ((gs.map Grp.corr).sum + (gs.map Grp.sub).sum + (gs.map Grp.del).sum : Nat)) ∧
      Shows 1 se (percent (gs.map Grp.serr).sum (gs.map Grp.nsent).sum) := by
  unfold sumRow totals
  rw [totals_nat .sum (by decide)]
  dsimp only
  rw [if_neg (by decide)]
  generalize (gs.map Grp.corr).sum = C at *
  generalize (gs.map Grp.sub).sum = S at *
  generalize (gs.map Grp.del).sum = D at *
  generalize (gs.map Grp.ins).sum = I at *
  generalize (gs.map Grp.nsent).sum = N at *
  generalize (gs.map Grp.serr).sum = E at *
  have hN : (0 : Rat) < ((C + S + D : Nat) : Rat) := by exact_mod_cast hw
  have hS : (0 : Rat) < (N : Rat) := by exact_mod_cast hs
  have nn : ∀ k : Nat, 0 ≤ percent (k : Rat) ((C + S + D : Nat) : Rat) := fun k => percent_nonneg (by exact_mod_cast Nat.zero_le k) hN
  have ci : ∀ k : Nat, ((0 + (k : Int) : Int) : Rat) = (k : Rat) := fun k => by rw [Int.zero_add]; norm_cast
  have ce : ((0 + (S : Int) + (0 + (I : Int)) + (0 + (D : Int)) : Int) : Rat) = ((S + D + I : Nat) : Rat) := by
    have : (0 + (S : Int) + (0 + (I : Int)) + (0 + (D : Int)) : Int) = ((S + D + I : Nat) : Int) := by omega
    rw [this]; norm_cast
  refine ⟨_, _, _, _, _, _, ?_, fRound_shows 1 (nn _), fRound_shows 1 (nn _), fRound_shows 1 (nn _), fRound_shows 1 (nn _), fRound_shows 1 (nn _),
    fRound_shows 1 (percent_nonneg (by exact_mod_cast Nat.zero_le _) hS)⟩
  simp only [ci, ce, Nat.zero_add]
  rw [pctR_eq (by grind), pctR_eq (by grind), pctR_eq (by grind), pctR_eq (by grind), pctR_eq (by grind), pctR_eq (by grind)]

/-- In the summary by counts it shows the sums. -/
theorem sum_row_raw (gs : List Grp) :
    sumRow .raw gs = ⟨(gs.map Grp.nsent).sum, ((gs.map Grp.corr).sum + (gs.map Grp.sub).sum + (gs.map Grp.del).sum : Nat), 0, false,
      [((gs.map Grp.corr).sum : Nat), ((gs.map Grp.sub).sum : Nat), ((gs.map Grp.del).sum : Nat), ((gs.map Grp.ins).sum : Nat),
       ((gs.map Grp.sub).sum + (gs.map Grp.del).sum + (gs.map Grp.ins).sum : Nat)], 0, ((gs.map Grp.serr).sum : Nat)⟩ := by
  unfold sumRow totals
  rw [totals_nat .raw (by decide)]
  dsimp only
  rw [if_pos rfl]
  generalize (gs.map Grp.corr).sum = C
  generalize (gs.map Grp.sub).sum = S
  generalize (gs.map Grp.del).sum = D
  generalize (gs.map Grp.ins).sum = I
  generalize (gs.map Grp.nsent).sum = N
  generalize (gs.map Grp.serr).sum = E
  have ci : ∀ k : Nat, ((0 + (k : Int) : Int) : Rat) = (k : Rat) := fun k => by rw [Int.zero_add]; norm_cast
  have ce : ((0 + (S : Int) + (0 + (I : Int)) + (0 + (D : Int)) : Int) : Rat) = ((S + D + I : Nat) : Rat) := by
    have : (0 + (S : Int) + (0 + (I : Int)) + (0 + (D : Int)) : Int) = ((S + D + I : Nat) : Int) := by omega
    rw [this]; norm_cast
  simp only [ci, ce, fRound_nat, Nat.zero_add]

/-- Without any reference word it shows 0.0 throughout, even if words have been inserted, and no asterisk tells. -/
theorem sum_row_no_words (gs : List Grp) (hw : (gs.map Grp.corr).sum + (gs.map Grp.sub).sum + (gs.map Grp.del).sum = 0) :
    (sumRow .sum gs).cells = [0, 0, 0, 0, 0] ∧ (sumRow .sum gs).star = false := by
  unfold sumRow totals
  rw [totals_nat .sum (by decide), hw]
  dsimp only
  rw [if_neg (by decide)]
  have : ((0 + ((0 : Nat) : Int) : Int) : Rat) = 0 := by decide +kernel
  have z : fRound 0 1 = 0 := by decide +kernel
  simp only [this, pctR, if_true, z, and_self]

/-- The weighted summary for weights that are whole numbers: the row of all weights together. -/
theorem sum_row_weighted_partial (gs : List Grp) (r c s d i : Grp → Nat) (hr : ∀ g ∈ gs, g.wRef = ((r g : Int) : Rat)) (hc : ∀ g ∈ gs, g.wCorr = ((c g : Int) : Rat))
    (hs : ∀ g ∈ gs, g.wSub = ((s g : Int) : Rat)) (hd : ∀ g ∈ gs, g.wDel = ((d g : Int) : Rat)) (hi : ∀ g ∈ gs, g.wIns = ((i g : Int) : Rat)) (hw : 0 < (gs.map r).sum) :
    ∃ pc ps pd pi pe, (sumRow .weighted gs).cells = [pc, ps, pd, pi, pe] ∧ (sumRow .weighted gs).prec = 1 ∧
      Shows 1 pc (percent (gs.map c).sum (gs.map r).sum) ∧ Shows 1 ps (percent (gs.map s).sum (gs.map r).sum) ∧
      Shows 1 pd (percent (gs.map d).sum (gs.map r).sum) ∧ Shows 1 pi (percent (gs.map i).sum (gs.map r).sum) ∧
      Shows 1 pe (percent ((gs.map s).sum + (gs.map d).sum + (gs.map i).sum : Nat) (gs.map r).sum) := by
  have cast : ∀ f : Grp → Nat, (gs.map fun g => (f g : Int)).sum = (((gs.map f).sum : Nat) : Int) := by
    intro f
    clear hr hc hs hd hi hw
    induction gs with
    | nil => rfl
    | cons g gs ih => rw [List.map_cons, List.sum_cons, ih, List.map_cons, List.sum_cons]; omega
  unfold sumRow totals
  rw [totals_weighted]
  dsimp only
  rw [if_neg (by decide), tot_int _ (fun g => (r g : Int)) gs hr, tot_int _ (fun g => (c g : Int)) gs hc, tot_int _ (fun g => (s g : Int)) gs hs,
    tot_int _ (fun g => (d g : Int)) gs hd, tot_int _ (fun g => (i g : Int)) gs hi, cast, cast, cast, cast, cast]
  generalize (gs.map r).sum = R at *
  generalize (gs.map c).sum = C at *
  generalize (gs.map s).sum = S at *
  generalize (gs.map d).sum = D at *
  generalize (gs.map i).sum = I at *
  have hN : (0 : Rat) < (R : Rat) := by exact_mod_cast hw
  have nn : ∀ k : Nat, 0 ≤ percent (k : Rat) (R : Rat) := fun k => percent_nonneg (by exact_mod_cast Nat.zero_le k) hN
  have ci : ∀ k : Nat, ((0 + (k : Int) : Int) : Rat) = (k : Rat) := fun k => by rw [Int.zero_add]; norm_cast
  have ce : ((0 + (S : Int) + (0 + (I : Int)) + (0 + (D : Int)) : Int) : Rat) = ((S + D + I : Nat) : Rat) := by
    have : (0 + (S : Int) + (0 + (I : Int)) + (0 + (D : Int)) : Int) = ((S + D + I : Nat) : Int) := by omega
    rw [this]; norm_cast
  refine ⟨_, _, _, _, _, ?_, rfl, fRound_shows 1 (nn _), fRound_shows 1 (nn _), fRound_shows 1 (nn _), fRound_shows 1 (nn _), fRound_shows 1 (nn _)⟩
  simp only [ci, ce]
  rw [pctR_eq (by grind), pctR_eq (by grind), pctR_eq (by grind), pctR_eq (by grind), pctR_eq (by grind)]

/-- In general each total of weights is cut to a whole number after every speaker: it never exceeds the sum and may lose 1 for each speaker. -/
theorem weighted_totals (gs : List Grp) (h : ∀ g ∈ gs, 0 ≤ g.wRef ∧ 0 ≤ g.wCorr) :
    (((totals .weighted gs).ref : Rat) ≤ (gs.map Grp.wRef).sum ∧ (gs.map Grp.wRef).sum ≤ ((totals .weighted gs).ref : Rat) + gs.length) ∧
    (((totals .weighted gs).corr : Rat) ≤ (gs.map Grp.wCorr).sum ∧ (gs.map Grp.wCorr).sum ≤ ((totals .weighted gs).corr : Rat) + gs.length) := by
  unfold totals
  rw [totals_weighted]
  dsimp only
  have a := tot_bounds Grp.wRef gs (fun g hg => (h g hg).1) 0 (by omega)
  have b := tot_bounds Grp.wCorr gs (fun g hg => (h g hg).2) 0 (by omega)
  have z : ((0 : Int) : Rat) = 0 := by decide +kernel
  rw [z] at a b
  grind

/-- If every speaker's reference words weigh less than 1 together, the row of all speakers shows 0.0 throughout, whatever the weights are. -/
theorem sum_row_small_weights (gs : List Grp) (h : ∀ g ∈ gs, 0 ≤ g.wRef ∧ g.wRef < 1) : (sumRow .weighted gs).cells = [0, 0, 0, 0, 0] := by
  unfold sumRow totals
  rw [totals_weighted]
  dsimp only
  rw [if_neg (by decide), tot_small Grp.wRef gs h]
  have : ((0 : Int) : Rat) = 0 := by decide +kernel
  have z : fRound 0 1 = 0 := by decide +kernel
  simp only [this, pctR, if_true, z]

example : sumRow .sum [spk "ann" 5 1 1 1 4 3, spk "bob" 0 0 0 2 1 1] = ⟨5, 7, 1, false, [714, 143, 143, 429, 714], 1, 800⟩ := by decide +kernel
example : sumRow .raw [spk "ann" 5 1 1 1 4 3, spk "bob" 0 0 0 2 1 1] = ⟨5, 7, 0, false, [5, 1, 1, 3, 5], 0, 4⟩ := by decide +kernel
example : (sumRow .weighted [spk "ann" 5 1 1 1 4 3]).cells = [714, 143, 143, 143, 429] := by decide +kernel
/-- Half of the weight is wrong for each speaker; the row of all speakers shows 0.0. -/
example : (spkRow .weighted { spk "a" 1 1 0 0 1 1 with wRef := 9 / 10, wCorr := 9 / 20, wSub := 9 / 20 }).cells = [500, 500, 0, 0, 500] ∧
    (sumRow .weighted [{ spk "a" 1 1 0 0 1 1 with wRef := 9 / 10, wCorr := 9 / 20, wSub := 9 / 20 }]).cells = [0, 0, 0, 0, 0] := by decide +kernel

/-! ## C215: mean, standard deviation and median -/

/-- Mean, deviation and median of a column. -/
theorem stats_describe (sort : List Rat → List Nat) (l : List Rat) (hne : l ≠ []) (ho : Ascending l (sort l)) : Describes (stats sort l) l := by
  have h := mean_median_variance l (sort l) hne ho
  exact ⟨h.1, h.2.2.1, h.2.2.2, h.2.1⟩

/-- They are there if and only if there is a speaker; without one the result is undefined. -/
theorem stats_defined (m : Mode) (sort : List Rat → List Nat) (gs : List Grp) : statRows m sort gs = none ↔ gs = [] := by
  unfold statRows statsInt
  cases gs with
  | nil => exact ⟨fun _ => rfl, fun _ => rfl⟩
  | cons g gs =>
    simp only [List.map_cons, reduceCtorEq, if_false]

/-- The columns: sentences, words, the five of the words, and sentence errors.  Sentences, words and sentence errors are taken over all speakers. -/
theorem stats_columns (m : Mode) (sort : List Rat → List Nat) (gs : List Grp) (hne : gs ≠ []) (ho : ∀ l, Ascending l (sort l)) :
    ∃ a b c s d i e se plus, statRows m sort gs = some ([a, b, c, s, d, i, e, se], plus) ∧
      Describes a (gs.map fun g => (g.nsent : Rat)) ∧ Describes b (gs.map fun g => ((g.corr + g.sub + g.del : Nat) : Rat)) ∧
      Describes se (gs.map (serrVal m)) ∧
      (used m gs Vals.corr ≠ [] → Describes c (used m gs Vals.corr) ∧ Describes s (used m gs Vals.sub) ∧ Describes d (used m gs Vals.del) ∧
        Describes i (used m gs Vals.ins) ∧ Describes e (used m gs Vals.err)) ∧
      (plus = true ↔ m ≠ .raw ∧ ∃ g ∈ gs, g.corr + g.sub + g.del = 0) := by
  have hm : ∀ f : Grp → Rat, gs.map f ≠ [] := fun f h => hne (List.map_eq_nil_iff.1 h)
  have hl : ∀ f : Vals → Rat, (used m gs f).length = (used m gs Vals.corr).length := by
    intro f
    unfold used
    rw [List.length_take, List.length_take]
    by_cases h : 0 < zeroSpk m gs
    · rw [takeOut_eq m gs _ h, takeOut_eq m gs _ h, run_length gs 0 _ (gs.map fun g => (vals m g).corr) (by simp only [List.length_map])]
    · unfold takeOut
      rw [if_neg h, if_neg h, List.length_map, List.length_map]
  refine ⟨stats sort (gs.map fun g => (g.nsent : Rat)), stats sort (gs.map fun g => (wordNum g : Rat)), stats sort (used m gs Vals.corr), stats sort (used m gs Vals.sub),
    stats sort (used m gs Vals.del), stats sort (used m gs Vals.ins), stats sort (used m gs Vals.err), stats sort (gs.map (serrVal m)), decide (0 < zeroSpk m gs),
    ?_, stats_describe sort _ (hm _) (ho _), stats_describe sort _ (hm _) (ho _), stats_describe sort _ (hm _) (ho _), ?_, ?_⟩
  · unfold statRows statsInt
    rw [if_neg (hm _), if_neg (hm _)]
    rfl
  · intro hu
    have hf : ∀ f : Vals → Rat, used m gs f ≠ [] := by
      intro f h
      have := hl f
      rw [h] at this
      exact hu (List.length_eq_zero_iff.1 this.symm)
    exact ⟨stats_describe sort _ (hf _) (ho _), stats_describe sort _ (hf _) (ho _), stats_describe sort _ (hf _) (ho _), stats_describe sort _ (hf _) (ho _),
      stats_describe sort _ (hf _) (ho _)⟩
  · rw [decide_eq_true_iff]
    unfold zeroSpk
    rw [List.length_pos_iff_exists_mem]
    constructor
    · rintro ⟨g, hg⟩
      obtain ⟨hg, hp⟩ := List.mem_filter.1 hg
      have := of_decide_eq_true hp
      exact ⟨this.1, g, hg, this.2⟩
    · rintro ⟨hr, g, hg, hz⟩
      exact ⟨g, List.mem_filter.2 ⟨hg, decide_eq_true ⟨hr, hz⟩⟩⟩

/-- In the summary by counts the words' columns are taken over all speakers. -/
theorem used_raw (gs : List Grp) (f : Vals → Rat) : used .raw gs f = gs.map fun g => f (vals .raw g) := by
  have hz : zeroSpk .raw gs = 0 := by
    unfold zeroSpk
    rw [List.length_eq_zero_iff]
    exact List.filter_eq_nil_iff.2 fun g _ => by simp
  unfold used takeOut
  rw [hz, if_neg (by decide), Nat.sub_zero, List.take_of_length_le (by rw [List.length_map]; exact Nat.le_refl _)]

/-- In the summaries by percentages they are to be taken over the speakers with reference words.  Holds if at most one speaker has none, apart from those at the end
of the list. -/
theorem used_words_partial (m : Mode) (hm : m ≠ .raw) (a z b zs : List Grp) (ha : ∀ g ∈ a, 0 < wordNum g) (hz1 : z.length ≤ 1)
    (hz : ∀ g ∈ z, wordNum g = 0) (hb : ∀ g ∈ b, 0 < wordNum g) (hzs : ∀ g ∈ zs, wordNum g = 0) (f : Vals → Rat) :
    used m (a ++ z ++ b ++ zs) f = ((a ++ z ++ b ++ zs).filter fun g => decide (0 < g.corr + g.sub + g.del)).map fun g => f (vals m g) := by
  show _ = ((a ++ z ++ b ++ zs).filter fun g => decide (0 < wordNum g)).map fun g => f (vals m g)
  have hf : (a ++ z ++ b ++ zs).filter (fun g => decide (0 < wordNum g)) = a ++ b := by
    rw [List.filter_append, List.filter_append, List.filter_append, filter_words a ha, filter_zero z hz, filter_words b hb, filter_zero zs hzs,
      List.append_nil, List.append_nil]
  have hcount := zeroSpk_words m hm (a ++ z ++ b ++ zs)
  rw [hf] at hcount ⊢
  have hlen : (a ++ z ++ b ++ zs).length = a.length + z.length + b.length + zs.length := by simp only [List.length_append]
  rw [hlen, List.length_append] at hcount
  unfold used
  rw [show (a ++ z ++ b ++ zs).length - zeroSpk m (a ++ z ++ b ++ zs) = a.length + b.length by rw [hcount, hlen]; omega]
  generalize hF : (fun g => f (vals m g)) = F
  by_cases h0 : 0 < zeroSpk m (a ++ z ++ b ++ zs)
  · rw [takeOut_eq m _ _ h0]
    rw [run_append, run_append, run_append, run_words a ha, run_words b hb]
    match z, hz1, hz with
    | [], _, _ =>
      have s2 : run (0 + a.length) [] ((a ++ [] ++ b ++ zs).map F) = (a ++ b ++ zs).map F := by rw [run, List.append_nil]
      rw [s2,
        run_tail _ _ _ (by rw [List.length_append, List.length_append]; omega) _ (by simp only [List.length_map, List.length_append]; omega),
        List.map_append, List.take_append_of_le_length (by rw [List.length_map, List.length_append]; exact Nat.le_refl _),
        List.take_of_length_le (by rw [List.length_map, List.length_append]; exact Nat.le_refl _)]
    | [x], _, hz =>
      have hx := hz x (by simp)
      have s2 : run (0 + a.length) [x] ((a ++ [x] ++ b ++ zs).map F) = (a ++ b ++ zs).map F ++ [-1000] := by
        rw [run, if_pos hx, run, List.append_assoc, List.append_assoc, List.map_append, List.singleton_append, List.map_cons,
          shiftUp_mid _ _ _ _ (by rw [List.length_map]; omega)]
        simp only [List.map_append, List.append_assoc]
      rw [s2, run_tail _ _ _ (by simp only [List.length_append]; omega) _ (by simp only [List.length_map, List.length_append]; omega),
        List.map_append (l₁ := a ++ b), List.append_assoc, List.take_append_of_le_length (by rw [List.length_map, List.length_append]; exact Nat.le_refl _),
        List.take_of_length_le (by rw [List.length_map, List.length_append]; exact Nat.le_refl _)]
  · have hz0 : z.length + zs.length = 0 := by
      rw [hcount] at h0; omega
    have hz' : z = [] := List.length_eq_zero_iff.1 (by omega)
    have hzs' : zs = [] := List.length_eq_zero_iff.1 (by omega)
    subst hz' hzs'
    unfold takeOut
    rw [if_neg h0]
    simp only [List.append_nil]
    rw [List.take_of_length_le (by rw [List.length_map, List.length_append]; exact Nat.le_refl _)]

/-- It fails as soon as a speaker with words follows a second one without: that speaker is left out, and the counts of the second one without words are taken
as percentages. -/
theorem used_words_wrong (m : Mode) (hm : m ≠ .raw) (a b d : List Grp) (z1 z2 c : Grp) (ha : ∀ g ∈ a, 0 < wordNum g) (hb : ∀ g ∈ b, 0 < wordNum g)
    (hd : ∀ g ∈ d, 0 < wordNum g) (h1 : wordNum z1 = 0) (h2 : wordNum z2 = 0) (hc : 0 < wordNum c) (f : Vals → Rat) :
    used m (a ++ z1 :: b ++ z2 :: c :: d) f = (a ++ b ++ z2 :: d).map fun g => f (vals m g) := by
  have hf : (a ++ z1 :: b ++ z2 :: c :: d).filter (fun g => decide (0 < wordNum g)) = a ++ b ++ c :: d := by
    rw [List.filter_append, List.filter_append, filter_words a ha, List.filter_cons_of_neg (by rw [h1]; decide), filter_words b hb,
      List.filter_cons_of_neg (by rw [h2]; decide), List.filter_cons_of_pos (by simpa using hc), filter_words d hd]
  have hcount := zeroSpk_words m hm (a ++ z1 :: b ++ z2 :: c :: d)
  have hlen : (a ++ z1 :: b ++ z2 :: c :: d).length = a.length + (1 + (b.length + (1 + (1 + d.length)))) := by
    simp only [List.length_append, List.length_cons]; omega
  rw [hf, hlen] at hcount
  have hcount' : zeroSpk m (a ++ z1 :: b ++ z2 :: c :: d) = 2 := by
    rw [hcount]; simp only [List.length_append, List.length_cons]; omega
  generalize hF : (fun g => f (vals m g)) = F
  unfold used
  rw [hF, hcount', takeOut_eq m _ _ (by omega), hlen, run_append, run_append, run_words a ha, run_cons _ z1, run_words b hb, if_pos h1, run_cons _ z2, run_cons _ c, run_words d hd,
    if_pos h2, if_neg (by omega)]
  have e1 : (a ++ z1 :: b ++ z2 :: c :: d).map F = a.map F ++ F z1 :: (b ++ z2 :: c :: d).map F := by simp
  have e2 : a.map F ++ (b ++ z2 :: c :: d).map F ++ [-1000] = (a ++ b ++ [z2]).map F ++ F c :: (d.map F ++ [-1000]) := by simp
  rw [e1, shiftUp_mid _ _ _ _ (by rw [List.length_map]; omega), e2, shiftUp_mid _ _ _ _ (by simp)]
  have e3 : (a ++ b ++ [z2]).map F ++ (d.map F ++ [-1000]) ++ [-1000] = (a ++ b ++ z2 :: d).map F ++ [-1000, -1000] := by simp
  rw [e3, List.take_append_of_le_length (by simp; omega), List.take_of_length_le (by simp; omega)]

/-- A sorting for the examples: positions by insertion. -/
def order (l : List Rat) : List Nat :=
  (List.range l.length).foldl (fun (o : List Nat) i => o.filter (fun j => l.getD j 0 ≤ l.getD i 0) ++ [i] ++ o.filter (fun j => ¬ l.getD j 0 ≤ l.getD i 0)) []

example : order [3, 1, 2] = [1, 2, 0] := by decide +kernel
example : statRows .sum order [spk "ann" 4 1 0 0 2 1, spk "zoe" 0 0 0 7 2 2, spk "bob" 2 2 0 1 2 2] =
    some ([(2, 0, 2), (3, 7, 4), (65, 450, 65), (35, 450, 35), (0, 0, 0), (25 / 2, 625 / 2, 25 / 2), (95 / 2, 3025 / 2, 95 / 2), (250 / 3, 2500 / 3, 100)], true) := by
  decide +kernel
/-- Two speakers without words before bob: bob is left out of the mean, the two insertions of yan count as 2 per cent. -/
example : used .sum [spk "zoe" 0 0 0 7 2 2, spk "yan" 0 0 0 2 1 1, spk "bob" 2 2 0 1 2 2] Vals.err = [2] := by decide +kernel

/-! ## C216: several systems by speaker -/

/-- The percentage or number that stands for a speaker. -/
def shown (raw : Bool) (g : Grp) : Rat :=
  if raw then ((g.sub + g.del + g.ins : Nat) : Rat)
  else if g.corr + g.sub + g.del = 0 then 0 else percent (g.sub + g.del + g.ins : Nat) (g.corr + g.sub + g.del : Nat)

theorem errEntry_shown (raw : Bool) (g : Grp) : errEntry raw g = shown raw g := by
  unfold errEntry shown errors
  rw [show g.ins + g.sub + g.del = g.sub + g.del + g.ins by omega]
  cases raw
  · simp only [Bool.false_eq_true, if_false]
    by_cases h : g.corr + g.sub + g.del = 0
    · rw [if_pos h, h]
      unfold pctR
      rw [if_pos (by decide +kernel)]
    · have : (0 : Rat) < ((g.corr + g.sub + g.del : Nat) : Rat) := by exact_mod_cast (by omega : 0 < g.corr + g.sub + g.del)
      rw [if_neg h, pctR_eq (by grind)]
  · rfl

theorem shown_nonneg (raw : Bool) (g : Grp) : 0 ≤ shown raw g := by
  unfold shown
  split
  · exact_mod_cast Nat.zero_le _
  · split
    · exact Rat.le_refl
    · exact percent_nonneg (by exact_mod_cast Nat.zero_le _) (by exact_mod_cast (by omega : 0 < g.corr + g.sub + g.del))

/-- The table for at most 24 systems none of which has more than five speakers more than the first: a line for each speaker of the first system; the number in it that belongs to a system
is that of the system's speaker at the same place of its list, and 0 if it has none there. -/
theorem by_position (sort : List Rat → List Nat) (raw : Bool) (s0 : Sys) (rest : List Sys) (hn : (s0 :: rest).length ≤ 24)
    (hm : ∀ s ∈ s0 :: rest, s.grps.length ≤ s0.grps.length + 5) :
    ∃ t, nSummary sort raw (s0 :: rest) = some t ∧ t.names = s0.grps.map Grp.name ∧ t.rows.length = s0.grps.length ∧
      ∀ i, i < s0.grps.length → ∀ (j : Nat) (s : Sys), (s0 :: rest)[j]? = some s → ∃ row c, t.rows[i]? = some row ∧ row.length = (s0 :: rest).length ∧ row[j]? = some c ∧
        Shows (if raw then 0 else 1) c (((s.grps[i]?).map (shown raw)).getD 0) := by
  unfold nSummary
  dsimp only
  rw [if_neg (by
    rintro (h | h)
    · omega
    · obtain ⟨s, hs, hl⟩ := List.any_eq_true.1 h
      have := hm s hs
      have := of_decide_eq_true hl
      omega)]
  refine ⟨_, rfl, rfl, by rw [List.length_map, List.length_range], ?_⟩
  intro i hi j s hs
  refine ⟨(s0 :: rest).map fun s => fRound (((List.range s0.grps.length).map fun g => ((s.grps[g]?).map (errEntry raw)).getD 0).getD i 0) (if raw then 0 else 1),
    fRound (((s.grps[i]?).map (shown raw)).getD 0) (if raw then 0 else 1), ?_, ?_, ?_, ?_⟩
  · rw [List.getElem?_map, List.getElem?_range hi]
    rfl
  · rw [List.length_map]
  · rw [List.getElem?_map, hs]
    have : ((List.range s0.grps.length).map fun g => ((s.grps[g]?).map (errEntry raw)).getD 0).getD i 0 = ((s.grps[i]?).map (shown raw)).getD 0 := by
      rw [List.getD_eq_getElem?_getD, List.getElem?_map, List.getElem?_range hi]
      show ((s.grps[i]?).map (errEntry raw)).getD 0 = _
      rw [show errEntry raw = shown raw from funext (errEntry_shown raw)]
    show some (fRound _ _) = _
    rw [this]
  · refine fRound_shows _ ?_
    cases h : s.grps[i]? with
    | none => exact Rat.le_refl
    | some g => exact shown_nonneg raw g

/-- If all systems have the same speakers in the same order, the line of a speaker shows, for each system, the word errors of that speaker. -/
theorem by_speaker_partial (sort : List Rat → List Nat) (raw : Bool) (s0 : Sys) (rest : List Sys) (hn : (s0 :: rest).length ≤ 24)
    (hsame : ∀ s ∈ s0 :: rest, s.grps.map Grp.name = s0.grps.map Grp.name) (hnd : (s0.grps.map Grp.name).Nodup) :
    ∃ t, nSummary sort raw (s0 :: rest) = some t ∧ t.names = s0.grps.map Grp.name ∧
      ∀ (i : Nat) (n : Str), t.names[i]? = some n → ∀ (j : Nat) (s : Sys), (s0 :: rest)[j]? = some s → ∀ g ∈ s.grps, g.name = n →
        ∃ row c, t.rows[i]? = some row ∧ row[j]? = some c ∧ Shows (if raw then 0 else 1) c (shown raw g) := by
  have hlen : ∀ s ∈ s0 :: rest, s.grps.length = s0.grps.length := fun s hs => by
    have := congrArg List.length (hsame s hs)
    rwa [List.length_map, List.length_map] at this
  obtain ⟨t, ht, hnames, _, hrow⟩ := by_position sort raw s0 rest hn (fun s hs => by rw [hlen s hs]; omega)
  refine ⟨t, ht, hnames, ?_⟩
  intro i n hi j s hs g hg hgn
  rw [hnames] at hi
  have hil : i < s0.grps.length := by
    have := (List.getElem?_eq_some_iff.1 hi).1
    rwa [List.length_map] at this
  obtain ⟨row, c, h1, _, h2, h3⟩ := hrow i hil j s hs
  refine ⟨row, c, h1, h2, ?_⟩
  have hsm := hsame s (List.mem_of_getElem? hs)
  obtain ⟨k, hk⟩ := List.mem_iff_getElem?.1 hg
  have hk' : (s0.grps.map Grp.name)[k]? = some n := by
    rw [← hsm, List.getElem?_map, hk, ← hgn]
    rfl
  have hki : k = i := by
    obtain ⟨hkl, ek⟩ := List.getElem?_eq_some_iff.1 hk'
    obtain ⟨hil', ei⟩ := List.getElem?_eq_some_iff.1 hi
    have hp := List.pairwise_iff_getElem.1 hnd
    rcases Nat.lt_trichotomy k i with h | h | h
    · exact absurd (ek.trans ei.symm) (hp k i hkl hil' h)
    · exact h
    · exact absurd (ei.trans ek.symm) (hp i k hil' hkl h)
  rw [← hki, hk] at h3
  exact h3

/-- The last lines: in the table of percentages, the errors of all speakers in per cent of all their reference words; in that of counts their sum; and mean, deviation and median
of the speakers' numbers. -/
theorem by_speaker_totals (sort : List Rat → List Nat) (raw : Bool) (s0 : Sys) (rest : List Sys) (hn : (s0 :: rest).length ≤ 24)
    (hsame : ∀ s ∈ s0 :: rest, s.grps.length = s0.grps.length) (ho : ∀ l, Ascending l (sort l)) :
    ∃ t, nSummary sort raw (s0 :: rest) = some t ∧ ∀ (j : Nat) (s : Sys), (s0 :: rest)[j]? = some s → ∃ c d, t.avg[j]? = some c ∧ t.stats[j]? = some d ∧
      (raw = false → 0 < (s.grps.map wordNum).sum → Shows 1 c (percent ((s.grps.map fun g => g.sub + g.del + g.ins).sum : Nat) ((s.grps.map fun g => g.corr + g.sub + g.del).sum : Nat))) ∧
      (raw = true → c = 10 * (((s.grps.map fun g => g.sub + g.del + g.ins).sum : Nat) : Int)) ∧
      (s.grps ≠ [] → Describes d (s.grps.map (shown raw))) := by
  unfold nSummary
  dsimp only
  rw [if_neg (by
    rintro (h | h)
    · omega
    · obtain ⟨s, hs, hl⟩ := List.any_eq_true.1 h
      have := hsame s hs
      have := of_decide_eq_true hl
      omega)]
  refine ⟨_, rfl, ?_⟩
  intro j s hs
  have he : (fun g : Grp => errors g) = fun g => g.sub + g.del + g.ins := by
    funext g
    show g.ins + g.sub + g.del = _
    omega
  refine ⟨_, _, by dsimp only; rw [List.getElem?_map, hs]; rfl, by dsimp only; rw [List.getElem?_map, hs]; rfl, ?_, ?_, ?_⟩
  · intro hr hw
    dsimp only
    rw [if_neg (by rw [hr]; decide), foldl_nat errors, foldl_nat wordNum, Nat.zero_add, Nat.zero_add, show errors = fun g => g.sub + g.del + g.ins from he]
    have hN : (0 : Rat) < (((s.grps.map wordNum).sum : Nat) : Rat) := by exact_mod_cast hw
    rw [pctR_eq (by grind)]
    exact fRound_shows 1 (percent_nonneg (by exact_mod_cast Nat.zero_le _) hN)
  · intro hr
    dsimp only
    rw [if_pos hr, foldl_nat errors, Nat.zero_add, show errors = fun g => g.sub + g.del + g.ins from he, fRound_nat10]
  · intro hg
    have : (List.range s0.grps.length).map (fun g => ((s.grps[g]?).map (errEntry raw)).getD 0) = s.grps.map (shown raw) := by
      rw [← hsame s (List.mem_of_getElem? hs)]
      refine List.ext_getElem (by rw [List.length_map, List.length_map, List.length_range]) ?_
      intro k h1 h2
      rw [List.length_map] at h2
      rw [List.getElem_map, List.getElem_map, List.getElem_range, List.getElem?_eq_getElem h2, Option.map_some, Option.getD_some, errEntry_shown]
    dsimp only
    rw [this]
    exact stats_describe sort _ (fun h => hg (List.map_eq_nil_iff.1 h)) (ho _)

/-- With 25 systems or more, and with a system that has over five speakers more than the first one, memory is overwritten. -/
theorem by_speaker_overflow (sort : List Rat → List Nat) (raw : Bool) (s0 : Sys) (rest : List Sys)
    (h : 25 ≤ (s0 :: rest).length ∨ ∃ s ∈ rest, s0.grps.length + 5 < s.grps.length) : nSummary sort raw (s0 :: rest) = none := by
  unfold nSummary
  dsimp only
  rw [if_pos]
  rcases h with h | ⟨s, hs, hl⟩
  · left; omega
  · right; exact List.any_eq_true.2 ⟨s, List.mem_cons_of_mem _ hs, decide_eq_true hl⟩

example : (nSummary order false [⟨"A".toList, [spk "ann" 4 1 0 0 2 1, spk "bob" 2 2 0 1 2 2]⟩, ⟨"B".toList, [spk "ann" 5 0 0 0 2 0, spk "bob" 4 0 0 1 2 2]⟩]) =
    some ⟨["ann".toList, "bob".toList], [[200, 0], [750, 250]], [444, 111], [(95 / 2, 3025 / 2, 95 / 2), (25 / 2, 625 / 2, 25 / 2)]⟩ := by decide +kernel
/-- Speakers in another order: ann's line shows bob's errors of the second system. -/
example : ((nSummary order false [⟨"A".toList, [spk "ann" 4 1 0 0 2 1, spk "bob" 2 2 0 1 2 2]⟩, ⟨"B".toList, [spk "bob" 4 0 0 1 2 2, spk "ann" 5 0 0 0 2 0]⟩]).map
    fun t => (t.names, t.rows)) = some (["ann".toList, "bob".toList], [[200, 250], [750, 0]]) := by decide +kernel
/-- A speaker missing in the second system is shown with no errors. -/
example : ((nSummary order false [⟨"A".toList, [spk "ann" 4 1 0 0 2 1, spk "bob" 2 2 0 1 2 2]⟩, ⟨"B".toList, [spk "ann" 4 1 0 0 2 1]⟩]).map
    fun t => t.rows) = some [[200, 200], [750, 0]] := by decide +kernel

/-! ## C217: several systems, executive summary -/

/-- The line of a system in the executive summary shows what the last row of the system's own summary shows. -/
theorem executive_agrees (lg : Rat → Rat) (raw : Bool) (scs : List Sys) (j : Nat) (s : Sys) (hs : scs[j]? = some s) :
    ∃ e, (execSummary lg raw scs)[j]? = some e ∧ e.title = s.title ∧
      e.sents = (sumRow (if raw then .raw else .sum) s.grps).sents ∧ (e.refs : Int) = (sumRow (if raw then .raw else .sum) s.grps).words ∧
      e.prec = (sumRow (if raw then .raw else .sum) s.grps).prec ∧
      e.cells = (sumRow (if raw then .raw else .sum) s.grps).cells ++ [(sumRow (if raw then .raw else .sum) s.grps).serr] := by
  unfold execSummary
  dsimp only
  refine ⟨_, by rw [List.getElem?_map, hs]; rfl, rfl, ?_⟩
  dsimp only
  have ci : ∀ k : Nat, ((0 + (k : Int) : Int) : Rat) = (k : Rat) := fun k => by rw [Int.zero_add]; norm_cast
  cases raw
  · simp only [Bool.false_eq_true, if_false]
    unfold sumRow totals
    rw [totals_nat .sum (by decide)]
    simp only [foldl_nat Grp.corr, foldl_nat Grp.sub, foldl_nat Grp.del, foldl_nat Grp.ins, foldl_nat Grp.nsent, foldl_nat Grp.serr, Nat.zero_add, reduceCtorEq, if_false]
    generalize (s.grps.map Grp.corr).sum = C
    generalize (s.grps.map Grp.sub).sum = S
    generalize (s.grps.map Grp.del).sum = D
    generalize (s.grps.map Grp.ins).sum = I
    have ce : ((0 + (S : Int) + (0 + (I : Int)) + (0 + (D : Int)) : Int) : Rat) = ((S + D + I : Nat) : Rat) := by
      have : (0 + (S : Int) + (0 + (I : Int)) + (0 + (D : Int)) : Int) = ((S + D + I : Nat) : Int) := by omega
      rw [this]; norm_cast
    simp only [ci, ce, List.cons_append, List.nil_append, and_self]
  · simp only [if_true]
    rw [sum_row_raw]
    simp only [foldl_nat Grp.corr, foldl_nat Grp.sub, foldl_nat Grp.del, foldl_nat Grp.ins, foldl_nat Grp.nsent, foldl_nat Grp.serr, Nat.zero_add, List.cons_append,
      List.nil_append, and_self]

/-- There is a line for each system and no other. -/
theorem executive_lines (lg : Rat → Rat) (raw : Bool) (scs : List Sys) : (execSummary lg raw scs).map ExecRow.title = scs.map Sys.title := by
  unfold execSummary
  rw [List.map_map]
  rfl

/-- The column NCE is there if some system has confidences throughout; systems that lack them show dashes. -/
theorem executive_nce (lg : Rat → Rat) (raw : Bool) (scs : List Sys) (j : Nat) (s : Sys) (hs : scs[j]? = some s) :
    ∃ e, (execSummary lg raw scs)[j]? = some e ∧
      (e.nce = none ↔ ∀ s ∈ scs, ∃ g ∈ s.grps, ∃ p ∈ g.paths, p.hasConf = false) ∧
      (e.nce = some none → ∃ g ∈ s.grps, ∃ p ∈ g.paths, p.hasConf = false) ∧
      (e.nce ≠ none → (∀ g ∈ s.grps, ∀ p ∈ g.paths, p.hasConf = true) → e.nce = some (some ((nceSys lg s.grps).map fun x => fRound x 3))) := by
  have hca : ∀ s : Sys, confAvailable s.grps = false ↔ ∃ g ∈ s.grps, ∃ p ∈ g.paths, p.hasConf = false := by
    intro s
    unfold confAvailable
    simp
  have hct : ∀ s : Sys, confAvailable s.grps = true ↔ ∀ g ∈ s.grps, ∀ p ∈ g.paths, p.hasConf = true := by
    intro s
    unfold confAvailable
    simp
  unfold execSummary
  dsimp only
  refine ⟨_, by rw [List.getElem?_map, hs]; rfl, ?_, ?_, ?_⟩
  · dsimp only
    by_cases h : (scs.any fun s => confAvailable s.grps) = true
    · rw [if_pos h]
      refine ⟨fun h' => (by cases h'), fun h' => ?_⟩
      obtain ⟨s', hs', hc⟩ := List.any_eq_true.1 h
      have := (hca s').2 (h' s' hs')
      rw [this] at hc
      cases hc
    · rw [if_neg h]
      refine ⟨fun _ s' hs' => (hca s').1 ?_, fun _ => rfl⟩
      cases hc : confAvailable s'.grps with
      | false => rfl
      | true => exact absurd (List.any_eq_true.2 ⟨s', hs', hc⟩) h
  · dsimp only
    intro h
    split at h
    · split at h
      · cases h
      · rename_i hc
        exact (hca s).1 (by simpa using hc)
    · cases h
  · dsimp only
    intro h1 h2
    split at h1
    · rename_i h
      rw [if_pos h, if_pos ((hct s).2 h2)]
    · exact absurd rfl h1

example : (execSummary (fun _ => -1) false [⟨"A".toList, [spk "ann" 4 1 0 0 2 1, spk "bob" 2 2 0 1 2 2]⟩]).map (fun e => (e.sents, e.refs, e.cells)) =
    [(4, 9, [667, 333, 0, 111, 444, 750])] := by decide +kernel

/-! ## C218: normalised cross entropy -/

/-- The counts of a speaker are those of the words that count. -/
def Consistent (g : Grp) : Prop := (counted g).countP HWord.correct = g.corr ∧ (counted g).countP (fun w => !w.correct) = g.sub + g.ins

/-- The words that count are those of the paths that are not empty; a word deleted has no place here. -/
theorem counted_words (g : Grp) (w : HWord) : w ∈ counted g ↔ w.empty = false ∧ ∃ p ∈ g.paths, w ∈ p.words := by
  unfold counted
  rw [List.mem_filter, List.mem_flatMap]
  cases w.empty <;> simp

/-- The confidence that is used: at least 0.0000001 and at most 0.9999999. -/
theorem confidence_range (c : Rat) : 0 < clamp c ∧ clamp c < 1 ∧ (1 / 10000000 ≤ c → c ≤ 1 - 1 / 10000000 → clamp c = c) :=
  ⟨(clamp_range c).1, (clamp_range c).2, fun h1 h2 => clamp_id h1 h2⟩

/-- With correct and wrong words, the NCE is `(H + Σ log c + Σ log (1 - c)) / H`: the first sum is over the correct words, the second over the wrong ones. -/
theorem nce_formula (lg : Rat → Rat) (g : Grp) (hw : counted g ≠ []) (hn : 0 < g.corr) (hk : 0 < g.sub + g.ins) :
    nceSpk lg g = some ((uncertainty lg g.corr (g.sub + g.ins) + (((counted g).filter HWord.correct).map fun w => lg (clamp w.conf)).sum +
      (((counted g).filter fun w => !w.correct).map fun w => lg (1 - clamp w.conf)).sum) / uncertainty lg g.corr (g.sub + g.ins)) := by
  unfold nceSpk
  rw [if_pos hw, entropy_eq lg hn hk, Option.map_some, logSum_eq]
  have : ∀ ws : List HWord, (ws.map (share lg)).sum = ((ws.filter HWord.correct).map fun w => lg (clamp w.conf)).sum +
      ((ws.filter fun w => !w.correct).map fun w => lg (1 - clamp w.conf)).sum := by
    intro ws
    induction ws with
    | nil => simp only [List.filter_nil, List.map_nil, List.sum_nil]; decide +kernel
    | cons w ws ih =>
      rw [List.map_cons, List.sum_cons, ih]
      cases hc : w.correct
      · rw [List.filter_cons_of_neg (by simp [hc]), List.filter_cons_of_pos (by simp [hc]), List.map_cons, List.sum_cons]
        unfold share
        rw [hc, if_neg (by decide)]
        grind
      · rw [List.filter_cons_of_pos (by simp [hc]), List.filter_cons_of_neg (by simp [hc]), List.map_cons, List.sum_cons]
        unfold share
        rw [hc, if_pos rfl]
        grind
  rw [this, ← Rat.add_assoc]

/-- Confidences that tell nothing, the share of correct words for each word, have the NCE 0. -/
theorem nce_uninformed (lg : Rat → Rat) (hl : LogLike lg) (g : Grp) (hc : Consistent g) (hn : 0 < g.corr) (hk : 0 < g.sub + g.ins)
    (h1 : (1 / 10000000 : Rat) ≤ (g.corr : Rat) / ((g.corr + (g.sub + g.ins) : Nat) : Rat)) (h2 : (g.corr : Rat) / ((g.corr + (g.sub + g.ins) : Nat) : Rat) ≤ 1 - 1 / 10000000)
    (h : ∀ w ∈ counted g, w.conf = (g.corr : Rat) / ((g.corr + (g.sub + g.ins) : Nat) : Rat)) : nceSpk lg g = some 0 := by
  have hw : counted g ≠ [] := by
    intro h0
    have := hc.1
    rw [h0, List.countP_nil] at this
    omega
  have hp := uncertainty_pos hl hn hk
  unfold nceSpk
  rw [if_pos hw, entropy_eq lg hn hk, Option.map_some, logSum_eq, sum_share_const lg ((g.corr : Rat) / ((g.corr + (g.sub + g.ins) : Nat) : Rat)) _ (fun w hw' => by rw [h w hw']; exact clamp_id h1 h2), hc.1, hc.2]
  have e := entropy_eq lg hn hk
  unfold entropy at e
  rw [if_neg (by omega)] at e
  have e' := Option.some.inj e
  congr 1
  rw [← e']
  have : ∀ x : Rat, (-x + x) = 0 := fun x => by grind
  rw [this, Rat.div_def, Rat.zero_mul]

/-- It is below 1. -/
theorem nce_below_one (lg : Rat → Rat) (hl : LogLike lg) (g : Grp) (x : Rat) (h : nceSpk lg g = some x) : x < 1 := by
  unfold nceSpk at h
  split at h
  · rename_i hw
    by_cases hz : g.corr = 0 ∨ g.sub + g.ins = 0
    · unfold entropy at h
      rw [if_pos hz] at h
      cases h
    · have hn : 0 < g.corr := by omega
      have hk : 0 < g.sub + g.ins := by omega
      rw [entropy_eq lg hn hk, Option.map_some, logSum_eq] at h
      have hx := Option.some.inj h
      have hp := uncertainty_pos hl hn hk
      have hs := (sum_neg (share lg) (counted g) (share_neg hl)).2 hw
      rw [← hx, Rat.div_lt_iff hp]
      grind
  · have := Option.some.inj h
    rw [← this]
    decide +kernel

/-- Better confidences, higher for correct words and lower for wrong ones, do not have a lower NCE. -/
theorem nce_monotone (lg : Rat → Rat) (hl : LogLike lg) (g g' : Grp) (x y : Rat) (hcorr : g'.corr = g.corr) (hsub : g'.sub = g.sub) (hins : g'.ins = g.ins)
    (hlen : (counted g).length = (counted g').length)
    (hb : ∀ (i : Nat) (w w' : HWord), (counted g)[i]? = some w → (counted g')[i]? = some w' →
      w'.correct = w.correct ∧ (w.correct = true → w.conf ≤ w'.conf) ∧ (w.correct = false → w'.conf ≤ w.conf))
    (hx : nceSpk lg g = some x) (hy : nceSpk lg g' = some y) : x ≤ y := by
  have hsum : ∀ a b : List HWord, a.length = b.length → (∀ (i : Nat) (w w' : HWord), a[i]? = some w → b[i]? = some w' →
      w'.correct = w.correct ∧ (w.correct = true → w.conf ≤ w'.conf) ∧ (w.correct = false → w'.conf ≤ w.conf)) →
      (a.map (share lg)).sum ≤ (b.map (share lg)).sum := by
    intro a
    induction a with
    | nil =>
      intro b hb _
      have : b = [] := List.length_eq_zero_iff.1 hb.symm
      rw [this]
      exact Rat.le_refl
    | cons w a ih =>
      intro b hb hp
      cases b with
      | nil => cases hb
      | cons w' b =>
        rw [List.map_cons, List.map_cons, List.sum_cons, List.sum_cons]
        have h1 := ih b (Nat.succ.inj hb) (fun i u u' hu hu' => hp (i + 1) u u' hu hu')
        have h2 := hp 0 w w' rfl rfl
        have r1 := clamp_range w.conf
        have r2 := clamp_range w'.conf
        have hs : share lg w ≤ share lg w' := by
          unfold share
          rw [h2.1]
          cases hc : w.correct
          · simp only [Bool.false_eq_true, if_false]
            have := clamp_mono (h2.2.2 hc)
            exact hl.mono _ _ (by grind) (by grind)
          · simp only [if_true]
            exact hl.mono _ _ r1.1 (clamp_mono (h2.2.1 hc))
        grind
  have hle := hsum _ _ hlen hb
  unfold nceSpk at hx hy
  rw [hcorr, hsub, hins] at hy
  by_cases hw : counted g = []
  · have hw' : counted g' = [] := List.length_eq_zero_iff.1 (by rw [← hlen, hw]; rfl)
    rw [if_neg (by simp [hw])] at hx
    rw [if_neg (by simp [hw'])] at hy
    rw [← Option.some.inj hx, ← Option.some.inj hy]
    exact Rat.le_refl
  · have hw' : counted g' ≠ [] := by
      intro h0
      rw [h0] at hlen
      exact hw (List.length_eq_zero_iff.1 hlen)
    rw [if_pos hw] at hx
    rw [if_pos hw'] at hy
    by_cases hz : g.corr = 0 ∨ g.sub + g.ins = 0
    · unfold entropy at hx
      rw [if_pos hz] at hx
      cases hx
    · have hn : 0 < g.corr := by omega
      have hk : 0 < g.sub + g.ins := by omega
      rw [entropy_eq lg hn hk, Option.map_some, logSum_eq] at hx hy
      have hp := uncertainty_pos hl hn hk
      rw [← Option.some.inj hx, ← Option.some.inj hy, Rat.div_def, Rat.div_def]
      exact Rat.mul_le_mul_of_nonneg_right (by grind) (Rat.le_of_lt (Rat.inv_pos.2 hp))

/-- A speaker all of whose words are correct, or none, has no NCE: 0 is multiplied with an infinite logarithm, and the result, not a number, is converted to `int`.  A speaker without words
has 0. -/
theorem nce_undefined (lg : Rat → Rat) (g : Grp) :
    (nceSpk lg g = none ↔ counted g ≠ [] ∧ (g.corr = 0 ∨ g.sub + g.ins = 0)) ∧ (counted g = [] → nceSpk lg g = some 0) := by
  unfold nceSpk
  by_cases hw : counted g = []
  · simp [hw]
  · rw [if_pos hw]
    refine ⟨?_, fun h => absurd h hw⟩
    unfold entropy
    split
    · rename_i h
      exact ⟨fun _ => ⟨hw, h⟩, fun _ => rfl⟩
    · rename_i h
      exact ⟨fun h' => (by cases h'), fun h' => absurd h'.2 h⟩

/-- The NCE of a system is that of one speaker with all the words; it is undefined too if there are no words. -/
theorem nce_system (lg : Rat → Rat) (gs : List Grp) (g : Grp) (hc : g.corr = (gs.map Grp.corr).sum) (hs : g.sub = (gs.map Grp.sub).sum) (hi : g.ins = (gs.map Grp.ins).sum)
    (hp : g.paths = gs.flatMap Grp.paths) :
    (counted g ≠ [] → nceSys lg gs = nceSpk lg g) ∧ (nceSys lg gs = none ↔ g.corr = 0 ∨ g.sub + g.ins = 0) := by
  have hcount : counted g = gs.flatMap counted := by
    unfold counted
    rw [hp]
    clear hc hs hi hp
    induction gs with
    | nil => rfl
    | cons a gs ih => rw [List.flatMap_cons, List.flatMap_append, List.filter_append, ih, List.flatMap_cons]
  have he : nceSys lg gs = (entropy lg g.corr (g.sub + g.ins)).map fun h => (h + logSum lg (counted g)) / h := by
    unfold nceSys
    rw [foldl_nat Grp.corr, foldl_nat Grp.sub, foldl_nat Grp.ins, Nat.zero_add, Nat.zero_add, Nat.zero_add, ← hc, ← hs, ← hi, counted_flat, Rat.zero_add, logSum_eq, hcount]
  refine ⟨fun hw => ?_, ?_⟩
  · rw [he]
    unfold nceSpk
    rw [if_pos hw]
  · rw [he, Option.map_eq_none_iff]
    unfold entropy
    split
    · rename_i h; exact ⟨fun _ => h, fun _ => rfl⟩
    · rename_i h; exact ⟨fun h' => (by cases h'), fun h' => absurd h' h⟩

/-- The column NCE of the summary of one system is there if there are paths and all have confidences. -/
theorem nce_column (gs : List Grp) : hasConf gs = true ↔ (∃ g ∈ gs, ∃ p ∈ g.paths, p.hasConf = true) ∧ ∀ g ∈ gs, ∀ p ∈ g.paths, p.hasConf = true := by
  unfold hasConf
  simp

/-- A function like the logarithm, for the examples. -/
example : LogLike fun x => x - 1 := ⟨fun x _ h => by grind, fun x y _ h => by grind⟩
def three : List HPath := [⟨true, [⟨true, false, 9 / 10⟩, ⟨false, false, 1 / 10⟩, ⟨false, true, 1⟩]⟩]
example : Consistent (spk "ann" 1 1 0 0 1 1 three) := by unfold Consistent; decide +kernel
example : nceSpk (fun x => x - 1) (spk "ann" 1 1 0 0 1 1 three) = some (4 / 5) := by decide +kernel
example : nceSpk (fun x => x - 1) (spk "ann" 1 1 0 0 1 1 [⟨true, [⟨true, false, 1 / 2⟩, ⟨false, false, 1 / 2⟩]⟩]) = some 0 := by decide +kernel
/-- All words correct: no number. -/
example : spkNce (fun x => x - 1) (spk "ann" 1 0 0 0 1 0 [⟨true, [⟨true, false, 9 / 10⟩]⟩]) = some none := by decide +kernel

end Verif.Summary
