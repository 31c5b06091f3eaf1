import Verif.Det.Bins
/-!
# Properties of curves and histograms
-/
set_option autoImplicit false
namespace Verif.Det
open Verif.Sgml (Entry)

variable {W : Type}

/-! ### C155: the points of the trade-off curve -/

theorem computeRoc_ok (t f : Arr) (ht : 0 < t.used.length) (hf : 0 < f.used.length) (htm : t.used.length < t.max) (hfm : f.used.length < f.max) :
    ∃ ab : List (Nat × Nat), computeRoc t f = some (.start :: ab.map fun p => Pt.frac p.1 ((f.used.length : Int) - p.2)) ∧
      ab.length + 2 = t.used.length + f.used.length ∧
      (∀ (i : Nat) (p : Nat × Nat), ab[i]? = some p → p.1 + p.2 = i + 1 ∧ ∃ θ, NearThreshold t.used f.used θ p.1 p.2) ∧
      ab.Pairwise fun p q => p.1 ≤ q.1 ∧ p.2 ≤ q.2 := by
  obtain ⟨θ, hθ⟩ := exists_low (sortR t.used ++ sortR f.used)
  obtain ⟨ab, e1, e2, e3, e4⟩ := rocLoop_ok t f (t.used.length + f.used.length) 1 1 0 θ (by omega) (by omega) (by omega) (by omega) (by omega)
    (by omega) ⟨fun i _ h1 h2 => by omega, fun i h _ => hθ _ (List.mem_append_left _ (List.getElem_mem h)), fun i _ h1 h2 => by omega,
      fun i h _ => hθ _ (List.mem_append_right _ (List.getElem_mem h))⟩
  refine ⟨ab, ?_, by omega, ?_, e4⟩
  · unfold computeRoc
    rw [if_pos ⟨htm, hfm, by omega⟩, e1]
    rfl
  · intro i p hp
    obtain ⟨a1, _, _, θ, a4⟩ := e3 i p hp
    exact ⟨by omega, θ, a4.perm (sortR_perm _) (sortR_perm _)⟩

/-- The sizes at which an array is full: 10000, 20000, 40000, ... -/
def Full (n : Nat) : Prop := ∃ k, n = 10000 * 2 ^ k

theorem fill_lt (xs : List Rat) (h : ¬ Full xs.length) :
    ((fresh 0 10000).fill xs).used = xs ∧ ((fresh 0 10000).fill xs).used.length < ((fresh 0 10000).fill xs).max := by
  have hu : ((fresh 0 10000).fill xs).used = xs := by rw [fill_used]; rfl
  have hs := fill_sized (by decide) xs (fresh_sized 10000)
  refine ⟨hu, ?_⟩
  rcases Nat.lt_or_eq_of_le hs.fits with h1 | h1
  · exact h1
  · obtain ⟨k, hk⟩ := hs.pow
    rw [hu] at h1
    exact absurd ⟨k, by rw [h1, hk]⟩ h

theorem fill_full (xs : List Rat) (h : Full xs.length) : ((fresh 0 10000).fill xs).used.length = ((fresh 0 10000).fill xs).max := by
  have hu : ((fresh 0 10000).fill xs).used = xs := by rw [fill_used]; rfl
  have hs := fill_sized (by decide) xs (fresh_sized 10000)
  obtain ⟨k, hk⟩ := h
  obtain ⟨j, hj⟩ := hs.pow
  have h1 := hs.fits
  have h2 := hs.tight
  rw [hu] at h1 h2 ⊢
  generalize ((fresh 0 10000).fill xs).max = M at *
  rcases h2 with h2 | h2
  · have : 1 ≤ 2 ^ k := Nat.one_le_two_pow
    omega
  · by_cases hjk : j ≤ k
    · have := Nat.pow_le_pow_right (show 0 < 2 by decide) hjk
      omega
    · have := Nat.pow_le_pow_right (show 0 < 2 by decide) (show k + 1 ≤ j by omega)
      rw [Nat.pow_succ] at this
      omega

theorem printed_all (rows : Nat) (pts : List Pt) (h : pts.length + 1 = rows) : printed rows pts = pts := by
  unfold printed
  rw [List.take_append_of_le_length (by omega), List.take_of_length_le (by omega)]

/-- C155: for a system with correct and wrong words (and arrays that are not exactly full) the curve begins with the fixed point, has a point
for every further word but one, misses increase and false alarms decrease along it, and each point is that of some threshold but for one
word of either kind.  What is missing: points are not those of a threshold (`det_not_threshold`). -/
theorem det_curve_partial (conf : W → Rat) (isNull : W → Bool) (paths : List (List (Entry W))) (T F : List Rat)
    (hT : T = targets conf isNull paths.flatten) (hF : F = nonTargets conf paths.flatten) (h1 : 0 < T.length) (h2 : 0 < F.length)
    (h3 : ¬ Full T.length) (h4 : ¬ Full F.length) :
    ∃ ab : List (Nat × Nat), detCurves conf isNull [paths] = some [.start :: ab.map fun p => Pt.frac p.1 ((F.length : Int) - p.2)] ∧
      ab.length + 2 = T.length + F.length ∧
      (∀ (i : Nat) (p : Nat × Nat), ab[i]? = some p → p.1 + p.2 = i + 1 ∧ ∃ θ, NearThreshold T F θ p.1 p.2) ∧
      ab.Pairwise fun p q => p.1 ≤ q.1 ∧ p.2 ≤ q.2 := by
  obtain ⟨a1, a2⟩ := fill_lt T h3
  obtain ⟨b1, b2⟩ := fill_lt F h4
  obtain ⟨ab, e1, e2, e3, e4⟩ := computeRoc_ok ((fresh 0 10000).fill T) ((fresh 0 10000).fill F) (by rw [a1]; exact h1) (by rw [b1]; exact h2) a2 b2
  rw [a1, b1] at e2 e3
  refine ⟨ab, ?_, e2, e3, e4⟩
  unfold detCurves
  rw [List.map_cons, List.map_nil, ← hT, ← hF, detLoop]
  dsimp only
  rw [e1]
  dsimp only
  rw [detLoop, Option.map_some, printed_all _ _ (by rw [a1, b1]; simp; omega), b1]

/-- Which words are meant: the correct ones that are not empty, and the substituted and inserted ones. -/
theorem target_words (conf : W → Rat) (isNull : W → Bool) (es : List (Entry W)) :
    targets conf isNull es = (es.filterMap fun e => match e with | .pair .corr _ b => if isNull b then none else some (conf b) | _ => none) ∧
    nonTargets conf es = (es.filterMap fun e => match e with | .pair .sub _ b => some (conf b) | .ins b => some (conf b) | _ => none) := by
  induction es with
  | nil => exact ⟨rfl, rfl⟩
  | cons e es ih =>
    rw [List.filterMap_cons, List.filterMap_cons]
    rcases e with b | a | ⟨ev, a, b⟩
    · exact ⟨ih.1, by rw [nonTargets, ih.2]⟩
    · exact ih
    · cases ev with
      | corr =>
        refine ⟨?_, ih.2⟩
        dsimp only
        rw [targets]
        by_cases h : isNull b = true
        · rw [if_pos h, if_pos h]; exact ih.1
        · rw [if_neg h, if_neg h, ih.1]
      | sub => exact ⟨ih.1, by rw [nonTargets, ih.2]⟩
      | _ => exact ih

/-- Two correct words with confidences 0.1 and 0.9, two wrong ones with 0.5 and 0.6. -/
def samplePath : List (Entry Rat) := [.pair .corr 0 (1/10), .ins (1/2), .pair .corr 0 (9/10), .del 0, .pair .sub 0 (3/5)]

example : targets id (fun _ => false) samplePath = [1/10, 9/10] ∧ nonTargets id samplePath = [1/2, 3/5] ∧ ¬ Full 2 := by
  refine ⟨by rfl, by rfl, ?_⟩
  rintro ⟨k, hk⟩
  have := Nat.one_le_two_pow (n := k)
  omega

theorem sample_curve : computeRoc ⟨[1/10, 9/10], 4⟩ ⟨[1/2, 3/5], 4⟩ = some [.start, .frac 0 1, .frac 1 1] := by decide +kernel

/-- C155, violated: no threshold loses no correct word and removes one of the two wrong ones, as the second point says (0 misses, 1 false
alarm). -/
theorem det_not_threshold (θ : Rat) : ¬ AtThreshold [1/10, 9/10] [1/2, 3/5] θ 0 1 := by
  rintro ⟨⟨h1, _⟩, _, h2⟩
  have a : ¬ (1/10 : Rat) < θ := by
    intro h
    rw [List.countP_cons, if_pos (by simpa using h)] at h1
    omega
  have b1 : ¬ (1/2 : Rat) ≤ θ := by grind
  have b2 : ¬ (3/5 : Rat) ≤ θ := by grind
  rw [List.countP_cons, List.countP_cons, if_neg (by simpa using b2), if_neg (by simpa using b1)] at h2
  simp at h2

/-- C155, violated: a system without any wrong word (and two or more correct ones, of positive confidences) makes the program write outside
of its table. -/
theorem det_no_errors_undefined (conf : W → Rat) (isNull : W → Bool) (paths : List (List (Entry W)))
    (hF : nonTargets conf paths.flatten = []) (h2 : 2 ≤ (targets conf isNull paths.flatten).length)
    (hpos : ∀ c ∈ targets conf isNull paths.flatten, 0 < c) : detCurves conf isNull [paths] = none := by
  unfold detCurves
  rw [List.map_cons, List.map_nil, hF, detLoop]
  generalize targets conf isNull paths.flatten = T at *
  have hu : ((fresh 0 10000).fill T).used = T := by rw [fill_used]; rfl
  dsimp only
  generalize ht : (fresh 0 10000).fill T = t at *
  have key : ∀ (fuel nf npts : Nat), 1 ≤ nf → rocLoop (cells t) (cells ((fresh 0 10000).fill [])) T.length 0 (T.length + 0) fuel 1 nf npts = none := by
    intro fuel
    induction fuel with
    | zero => intro nf npts _; rfl
    | succ fuel ih =>
      intro nf npts hnf
      rw [rocLoop, if_neg (fun h => h (Or.inl h2)), cells_get t 1 (by rw [hu]; exact h2)]
      cases hF : (cells ((fresh 0 10000).fill []))[nf]? with
      | none => rfl
      | some c =>
        have hc : c = some 0 := by
          have : cells ((fresh 0 10000).fill []) = none :: List.replicate 9999 (some 0) := by rfl
          rw [this] at hF
          cases nf with
          | zero => omega
          | succ nf =>
            rw [List.getElem?_cons_succ, List.getElem?_replicate] at hF
            by_cases h : nf < 9999
            · rw [if_pos h] at hF; exact (Option.some.inj hF).symm
            · rw [if_neg h] at hF; cases hF
        subst hc
        dsimp only
        have hl1 : 1 < (sortR t.used).length := by rw [sortR_length, hu]; exact h2
        have hp := hpos ((sortR t.used)[1]) (by rw [← hu]; exact (sortR_perm t.used).mem_iff.1 (List.getElem_mem hl1))
        have hle : ¬ (le (some (sortR t.used)[1]) (some 0) = true ∧ 1 < T.length) := fun h => by
          have := of_decide_eq_true h.1
          grind
        by_cases hr : npts + 1 < T.length + 0
        · rw [if_pos hr, if_neg hle, ih (nf + 1) (npts + 1) (by omega)]; rfl
        · rw [if_neg hr]
  have : computeRoc t ((fresh 0 10000).fill []) = none := by
    unfold computeRoc
    rw [hu, show ((fresh 0 10000).fill []).used.length = 0 from rfl]
    by_cases h : T.length < t.max ∧ 0 < ((fresh 0 10000).fill []).max ∧ 0 < T.length + 0
    · rw [if_pos h, key _ _ _ (Nat.le_refl 1)]; rfl
    · rw [if_neg h]
  rw [this]

example : nonTargets id ([[.pair .corr 0 (1/10), .pair .corr 0 (9/10)]] : List (List (Entry Rat))).flatten = [] ∧
    2 ≤ (targets id (fun _ => false) ([[.pair .corr 0 (1/10), .pair .corr 0 (9/10)]] : List (List (Entry Rat))).flatten).length := ⟨by rfl, by decide⟩

/-- C155, violated: with exactly 10000, 20000, 40000, ... correct words the sentinel is written outside of the array; no words at all are
undefined, too. -/
theorem det_full_undefined (conf : W → Rat) (isNull : W → Bool) (paths : List (List (Entry W)))
    (h : Full (targets conf isNull paths.flatten).length ∨ Full (nonTargets conf paths.flatten).length ∨
      targets conf isNull paths.flatten = [] ∧ nonTargets conf paths.flatten = []) : detCurves conf isNull [paths] = none := by
  unfold detCurves
  rw [List.map_cons, List.map_nil, detLoop]
  dsimp only
  have : computeRoc ((fresh 0 10000).fill (targets conf isNull paths.flatten)) ((fresh 0 10000).fill (nonTargets conf paths.flatten)) = none := by
    unfold computeRoc
    rw [if_neg]
    rintro ⟨h1, h2, h3⟩
    rcases h with h | h | ⟨h, h'⟩
    · have := fill_full _ h; omega
    · have := fill_full _ h; omega
    · rw [h, h'] at h3
      exact absurd h3 (by decide)
  rw [this]

example : Full (targets id (fun _ => false) (List.replicate 10000 (.pair .corr 0 1) : List (Entry Rat))).length := by
  refine ⟨0, ?_⟩
  have : ∀ n : Nat, (targets id (fun _ => false) (List.replicate n (.pair .corr 0 1) : List (Entry Rat))).length = n := by
    intro n
    induction n with
    | zero => rfl
    | succ n ih => rw [List.replicate_succ, targets, if_neg (by decide), List.length_cons, ih]
  exact this 10000

/-! ### C156: several systems in one plot -/

theorem printed_length (rows : Nat) (pts : List Pt) : (printed rows pts).length = rows - 1 := by
  unfold printed
  rw [List.length_take, List.length_append, List.length_replicate]
  omega

/-- The words of a system. -/
def size (s : List Rat × List Rat) : Nat := s.1.length + s.2.length

theorem detLoop_rows : ∀ (ss : List (List Rat × List Rat)) (nt mt nf mf : Nat) (cs : List (List Pt)), detLoop nt mt nf mf ss = some cs →
    cs.length = ss.length ∧ ∀ (j : Nat) (c : List Pt), cs[j]? = some c → c.length = nt + nf + ((ss.take (j + 1)).map size).sum - 1 := by
  intro ss
  induction ss with
  | nil => intro nt mt nf mf cs h; cases h; exact ⟨rfl, nofun⟩
  | cons s ss ih =>
    intro nt mt nf mf cs h
    rw [detLoop] at h
    have ht : ((fresh nt mt).fill s.1).used.length = nt + s.1.length := by rw [fill_used]; simp [fresh]
    have hf : ((fresh nf mf).fill s.2).used.length = nf + s.2.length := by rw [fill_used]; simp [fresh]
    rw [ht, hf] at h
    cases hr : computeRoc ((fresh nt mt).fill s.1) ((fresh nf mf).fill s.2) with
    | none => rw [hr] at h; cases h
    | some pts =>
      rw [hr] at h
      dsimp only at h
      cases hd : detLoop (nt + s.1.length) ((fresh nt mt).fill s.1).max (nf + s.2.length) ((fresh nf mf).fill s.2).max ss with
      | none => rw [hd] at h; cases h
      | some r =>
        rw [hd] at h
        cases h
        obtain ⟨i1, i2⟩ := ih _ _ _ _ r hd
        refine ⟨by simp [i1], ?_⟩
        intro j c hc
        cases j with
        | zero =>
          have : printed (nt + s.1.length + (nf + s.2.length)) pts = c := by simpa using hc
          rw [← this, printed_length]
          simp [size]; omega
        | succ j =>
          rw [i2 j c (by simpa using hc), List.take_succ_cons, List.map_cons, List.sum_cons]
          simp only [size]; omega

/-- The confidences of a system. -/
def confs (conf : W → Rat) (isNull : W → Bool) (ps : List (List (Entry W))) : List Rat × List Rat :=
  (targets conf isNull ps.flatten, nonTargets conf ps.flatten)

/-- C156: the curve of the first system is the curve it has alone. -/
theorem first_curve_own_partial (conf : W → Rat) (isNull : W → Bool) (s : List (List (Entry W))) (ss : List (List (List (Entry W)))) (cs : List (List Pt))
    (h : detCurves conf isNull (s :: ss) = some cs) : ∃ c, detCurves conf isNull [s] = some [c] ∧ cs.head? = some c := by
  unfold detCurves at h ⊢
  rw [List.map_cons, detLoop] at h
  rw [List.map_cons, List.map_nil, detLoop]
  dsimp only at h ⊢
  cases hr : computeRoc ((fresh 0 10000).fill (targets conf isNull s.flatten)) ((fresh 0 10000).fill (nonTargets conf s.flatten)) with
  | none => rw [hr] at h; cases h
  | some pts =>
    rw [hr] at h
    dsimp only at h ⊢
    refine ⟨_, rfl, ?_⟩
    revert h
    generalize detLoop _ _ _ _ (ss.map _) = o
    intro h
    cases o with
    | none => cases h
    | some r => cases h; rfl

/-- C156, violated: the curve of a later system is never the curve it has alone, unless no system before it has any word: the words of the
systems before are counted again, with the confidence zero. -/
theorem later_curves_wrong (conf : W → Rat) (isNull : W → Bool) (ss : List (List (List (Entry W)))) (cs : List (List Pt))
    (h : detCurves conf isNull ss = some cs) (j : Nat) (s : List (List (Entry W))) (hj : ss[j]? = some s)
    (hw : 0 < ((ss.take j).map fun s => size (confs conf isNull s)).sum) (c : List Pt) (hc : detCurves conf isNull [s] = some [c]) : cs[j]? ≠ some c := by
  intro hcj
  have h1 := (detLoop_rows _ _ _ _ _ _ h).2 j c hcj
  have h2 := (detLoop_rows _ _ _ _ _ _ hc).2 0 c rfl
  have hj' : j < ss.length := (List.getElem?_eq_some_iff.1 hj).1
  have hsum : (((ss.map fun ps => (targets conf isNull ps.flatten, nonTargets conf ps.flatten)).take (j + 1)).map size).sum =
      ((ss.take j).map fun s => size (confs conf isNull s)).sum + size (confs conf isNull s) := by
    rw [← List.map_take, List.map_map, List.take_add_one, hj]
    simp only [Option.toList, List.map_append, List.map_cons, List.map_nil, List.sum_append, List.sum_cons, List.sum_nil, Nat.add_zero]
    rfl
  rw [hsum] at h1
  have hpos : 0 < size (confs conf isNull s) := by
    rcases Nat.eq_zero_or_pos (size (confs conf isNull s)) with h0 | h0
    · exfalso
      have : detCurves conf isNull [s] = none := by
        apply det_full_undefined
        right; right
        unfold size confs at h0
        exact ⟨List.length_eq_zero_iff.1 (by dsimp only at h0; omega), List.length_eq_zero_iff.1 (by dsimp only at h0; omega)⟩
      rw [this] at hc
      cases hc
    · exact h0
  have h2' : c.length = 0 + 0 + size (confs conf isNull s) - 1 := by
    rw [h2]
    simp [confs]
  omega

/-- C156, violated: two equal systems with different curves. -/
theorem equal_systems_differ : detLoop 0 10 0 10 [([1/5, 4/5], [2/5, 3/5]), ([1/5, 4/5], [2/5, 3/5])] =
    some [[.start, .frac 0 1, .frac 1 1], [.start, .frac 1 4, .frac 1 3, .frac 2 3, .frac 2 2, .frac 2 1, .frac 3 1]] := by decide +kernel

/-! ### C157: histograms of confidences -/

theorem countP_congr' {p q : Rat × Bool → Bool} {l : List (Rat × Bool)} (h : ∀ x ∈ l, p x = q x) : l.countP p = l.countP q :=
  List.countP_congr (fun x hx => by rw [h x hx])

/-- C157: with confidences that are not negative, a bin's numbers are those of the correct and of the wrong words (substituted and inserted
ones that are not empty) with a confidence in that bin, and the words above 1 are counted as out of range. -/
theorem histogram_counts_partial (conf : W → Rat) (isNull : W → Bool) (nbin : Nat) (hb : 0 < nbin) (paths : List (List (Entry W)))
    (ws : List (Rat × Bool)) (hws : ws = paths.flatten.filterMap (heard conf isNull)) (hpos : ∀ w ∈ ws, 0 ≤ w.1) :
    (histogram conf isNull nbin paths).bins = ((List.range nbin).map fun i =>
      (ws.countP fun w => decide (InBin nbin i w.1) && w.2, ws.countP fun w => decide (InBin nbin i w.1) && !w.2)) ∧
    (histogram conf isNull nbin paths).errors = ws.countP fun w => decide (1 < w.1) := by
  unfold histogram
  rw [hyps_eq, ← hws]
  obtain ⟨h1, h2, h3⟩ := fold_add nbin ws ⟨List.replicate nbin (0, 0), 0⟩ (by simp)
  have hbq : (0 : Rat) < nbin := by exact_mod_cast hb
  refine ⟨?_, ?_⟩
  · apply List.ext_getElem?
    intro i
    by_cases hi : i < nbin
    · rw [h3 i (0, 0) (by simp [List.getElem?_replicate, hi]), List.getElem?_map, List.getElem?_range hi, Option.map_some]
      congr 1
      apply Prod.ext
      · show 0 + _ = _
        rw [Nat.zero_add]
        apply countP_congr'
        intro w hw
        have := bin_nonneg nbin hb w.1 (hpos w hw) i
        unfold inBin
        cases w.2 <;> simp [this]
      · show 0 + _ = _
        rw [Nat.zero_add]
        apply countP_congr'
        intro w hw
        have := bin_nonneg nbin hb w.1 (hpos w hw) i
        unfold inBin
        cases w.2 <;> simp [this]
    · rw [List.getElem?_eq_none_iff.2 (by rw [h1]; omega), List.getElem?_eq_none_iff.2 (by simp; omega)]
  · rw [h2]
    show 0 + _ = _
    rw [Nat.zero_add]
    apply countP_congr'
    intro w hw
    rw [decide_eq_decide]
    constructor
    · intro hn
      apply Rat.not_le.1
      intro hle
      by_cases h1' : w.1 = 1
      · have := (bin_nonneg nbin hb w.1 (hpos w hw) (nbin - 1)).2 ⟨by omega, by
          rw [h1', Rat.one_mul]; exact_mod_cast (by omega : nbin - 1 ≤ nbin), Or.inr ⟨h1', by omega⟩⟩
        rw [hn] at this; cases this
      · have hlt : w.1 < 1 := by grind
        have hd : 0 ≤ w.1 * nbin := Rat.mul_nonneg (hpos w hw) (Rat.le_of_lt hbq)
        have hf : 0 ≤ (w.1 * nbin).floor := by
          have : ¬ (w.1 * nbin).floor < 0 := by rw [Rat.floor_lt_iff]; exact Rat.not_lt.2 hd
          omega
        have hu : w.1 * nbin < nbin := by
          have := Rat.mul_lt_mul_of_pos_right hlt hbq
          rwa [Rat.one_mul] at this
        have hf2 : (w.1 * nbin).floor < nbin := by rw [Rat.floor_lt_iff]; exact_mod_cast hu
        obtain ⟨a, b⟩ := (floor_eq_iff (w.1 * nbin) _).1 rfl
        have hcast : (((w.1 * nbin).floor.toNat : Int)) = (w.1 * nbin).floor := by omega
        rw [← hcast] at a b
        have := (bin_nonneg nbin hb w.1 (hpos w hw) (w.1 * nbin).floor.toNat).2 ⟨by omega, by exact_mod_cast a, Or.inl (by exact_mod_cast b)⟩
        rw [hn] at this; cases this
    · intro hgt
      cases hbn : bin nbin w.1 with
      | none => rfl
      | some i =>
        obtain ⟨a1, _, a3 | a3⟩ := (bin_nonneg nbin hb w.1 (hpos w hw) i).1 hbn
        · exfalso
          have hu : (nbin : Rat) < w.1 * nbin := by
            have := Rat.mul_lt_mul_of_pos_right hgt hbq
            rwa [Rat.one_mul] at this
          have : (nbin : Rat) < (i : Rat) + 1 := by grind
          have : nbin < i + 1 := by exact_mod_cast this
          omega
        · exact absurd a3.1 (by grind)

/-- C157: each word in its bin belongs to one bin only. -/
theorem inBin_unique (nbin i j : Nat) (c : Rat) (hi : InBin nbin i c) (hj : InBin nbin j c) : i = j := by
  have key : ∀ i j : Nat, InBin nbin i c → InBin nbin j c → ¬ i < j := by
    intro i j hi hj hlt
    obtain ⟨_, _, h | h⟩ := hi
    · have h2 := hj.2.1
      have : ((i + 1 : Nat) : Rat) ≤ (j : Rat) := by exact_mod_cast hlt
      have h3 : (i : Rat) + 1 ≤ j := by exact_mod_cast this
      grind
    · have := hj.1
      omega
  have h1 := key i j hi hj
  have h2 := key j i hj hi
  omega

/-- C157: nothing is lost: the words of all bins and those out of range are all words, whatever the confidences. -/
theorem histogram_total (conf : W → Rat) (isNull : W → Bool) (nbin : Nat) (paths : List (List (Entry W))) :
    ((histogram conf isNull nbin paths).bins.map fun c => c.1 + c.2).sum + (histogram conf isNull nbin paths).errors =
      (paths.flatten.filterMap (heard conf isNull)).length := by
  have key : ∀ (ws : List (Rat × Bool)) (h : Hist), (((ws.foldl Hist.add h).bins.map fun c => c.1 + c.2).sum + (ws.foldl Hist.add h).errors) =
      ((h.bins.map fun c => c.1 + c.2).sum + h.errors) + ws.length := by
    intro ws
    induction ws with
    | nil => intro h; rfl
    | cons w ws ih =>
      intro h
      rw [List.foldl_cons, ih, List.length_cons]
      have : ((h.add w).bins.map fun c => c.1 + c.2).sum + (h.add w).errors = (h.bins.map fun c => c.1 + c.2).sum + h.errors + 1 := by
        unfold Hist.add
        cases hb : bin h.bins.length w.1 with
        | none => dsimp only; omega
        | some i =>
          dsimp only
          have hi : i < h.bins.length := by
            unfold bin at hb
            dsimp only at hb
            by_cases hc : (if w.1 * (h.bins.length : Rat) ≤ h.bins.length ∧ trunc (w.1 * (h.bins.length : Rat)) = h.bins.length then (h.bins.length : Int) - 1
                else trunc (w.1 * (h.bins.length : Rat))) < 0 ∨
                (h.bins.length : Int) ≤ (if w.1 * (h.bins.length : Rat) ≤ h.bins.length ∧ trunc (w.1 * (h.bins.length : Rat)) = h.bins.length then (h.bins.length : Int) - 1
                else trunc (w.1 * (h.bins.length : Rat)))
            · rw [if_pos hc] at hb; cases hb
            · rw [if_neg hc] at hb
              have := Option.some.inj hb
              omega
          have hsum : ∀ (l : List (Nat × Nat)) (i : Nat), i < l.length →
              ((l.modify i fun c => if w.2 then (c.1 + 1, c.2) else (c.1, c.2 + 1)).map fun c => c.1 + c.2).sum = (l.map fun c => c.1 + c.2).sum + 1 := by
            intro l
            induction l with
            | nil => intro i hi; simp at hi
            | cons c l ihl =>
              intro i hi
              cases i with
              | zero =>
                rw [List.modify_zero_cons, List.map_cons, List.sum_cons, List.map_cons, List.sum_cons]
                cases w.2 <;> simp <;> omega
              | succ i =>
                rw [List.modify_succ_cons, List.map_cons, List.sum_cons, List.map_cons, List.sum_cons, ihl i (by simpa using hi)]
                omega
          rw [hsum _ _ hi]; omega
      omega
  unfold histogram
  rw [key, hyps_eq]
  dsimp only
  have : ((List.replicate nbin ((0, 0) : Nat × Nat)).map fun c => c.1 + c.2).sum = 0 := by simp
  rw [this]; omega

/-- C157, violated: a negative confidence above -1/nbin is counted in the first bin, not as out of range. -/
theorem negative_in_first_bin (nbin : Nat) (hb : 0 < nbin) (c : Rat) (h1 : c < 0) (h2 : -1 < c * nbin) : bin nbin c = some 0 ∧ ¬ ∃ i, InBin nbin i c := by
  refine ⟨(bin_neg nbin hb c h1 0).2 ⟨rfl, h2⟩, ?_⟩
  rintro ⟨i, _, h, _⟩
  have hbq : (0 : Rat) < nbin := by exact_mod_cast hb
  have hd := Rat.mul_lt_mul_of_pos_right h1 hbq
  rw [Rat.zero_mul] at hd
  have : ((0 : Nat) : Rat) ≤ (i : Rat) := by exact_mod_cast Nat.zero_le i
  have : (0 : Rat) ≤ (i : Rat) := by exact_mod_cast this
  grind

/-- C157: the percentage of correct words of a bin. -/
theorem bin_percentage (c : Nat × Nat) : (c.1 + c.2 = 0 → pctCorr c = 0) ∧ (0 < c.1 + c.2 → pctCorr c * ((c.1 + c.2 : Nat) : Rat) = 100 * c.1) := by
  unfold pctCorr
  refine ⟨fun h => by rw [if_pos h], fun h => ?_⟩
  rw [if_neg (by omega)]
  have hne : ((c.1 + c.2 : Nat) : Rat) ≠ 0 := by
    have : (0 : Rat) < ((c.1 + c.2 : Nat) : Rat) := by exact_mod_cast h
    grind
  have := Rat.div_mul_cancel (a := (c.1 : Rat)) hne
  grind

example : histogram id (fun x => decide (x = 7)) 10 [[.pair .corr 0 (1/10), .ins 1], [.pair .sub 0 (19/100), .del 0, .ins 7, .ins (11/10)]] =
    ⟨[(0, 0), (1, 1), (0, 0), (0, 0), (0, 0), (0, 0), (0, 0), (0, 0), (0, 0), (0, 1)], 1⟩ := by decide +kernel

example : histogram id (fun _ => false) 10 [[.pair .corr 0 (-1/20)]] = ⟨[(1, 0), (0, 0), (0, 0), (0, 0), (0, 0), (0, 0), (0, 0), (0, 0), (0, 0), (0, 0)], 0⟩ := by
  decide +kernel

/-! ### C158: bins with equal numbers of words -/

theorem mapM_words (words : List (Rat × Bool)) : ∀ (ptr : List Nat), (∀ i ∈ ptr, i < words.length) →
    ∃ ws, (ptr.mapM fun i => words[i]?) = some ws ∧ ws.length = ptr.length ∧ ∀ k : Nat, ws[k]? = (ptr[k]?).bind fun i => words[i]? := by
  intro ptr
  induction ptr with
  | nil => intro _; exact ⟨[], rfl, rfl, fun k => by simp⟩
  | cons i ptr ih =>
    intro h
    obtain ⟨ws, h1, h2, h3⟩ := ih (fun j hj => h j (List.mem_cons_of_mem _ hj))
    have hi := h i List.mem_cons_self
    refine ⟨words[i] :: ws, ?_, by simp [h2], ?_⟩
    · rw [List.mapM_cons, List.getElem?_eq_getElem hi, h1]; rfl
    · intro k
      cases k with
      | zero => simp [hi]
      | succ k => simp [h3 k]

theorem perm_words {words ws : List (Rat × Bool)} {ptr : List Nat} (hp : ptr.Perm (List.range words.length))
    (h : (ptr.mapM fun i => words[i]?) = some ws) : ws.Perm words := by
  have hlt : ∀ i ∈ ptr, i < words.length := fun i hi => List.mem_range.1 (hp.mem_iff.1 hi)
  have e1 : ws = ptr.filterMap fun i => words[i]? := by
    clear hp hlt
    induction ptr generalizing ws with
    | nil => cases h; rfl
    | cons i ptr ih =>
      rw [List.mapM_cons] at h
      cases hi : words[i]? with
      | none => rw [hi] at h; cases h
      | some w =>
        rw [hi] at h
        cases hm : ptr.mapM fun i => words[i]? with
        | none => rw [hm] at h; cases h
        | some r =>
          rw [hm] at h
          cases h
          rw [List.filterMap_cons, hi, ← ih hm]
  rw [e1]
  refine (hp.filterMap _).trans ?_
  have : (List.range words.length).filterMap (fun i => words[i]?) = words := by
    apply List.ext_getElem?
    intro k
    have hall : ∀ n ≤ words.length, (List.range n).filterMap (fun i => words[i]?) = words.take n := by
      intro n
      induction n with
      | zero => intro _; rfl
      | succ n ih =>
        intro hn
        rw [List.range_succ, List.filterMap_append, ih (by omega), List.take_add_one, List.filterMap_cons]
        rw [List.getElem?_eq_getElem (by omega : n < words.length)]
        rfl
    rw [hall _ (Nat.le_refl _), List.take_of_length_le (Nat.le_refl _)]
  rw [this]

/-- C158: with at least as many words as bins, the words, sorted by confidence, are divided into bins of `n / bins` words (the last one up to
twice as many less one), each word in exactly one bin, and each bin gives its numbers of words and the bounds of its confidences. There are
`n / (n / bins)` bins; what is missing: these may be more than asked for. -/
theorem scaled_bins_partial (words : List (Rat × Bool)) (ptr : List Nat) (hp : IsSort words ptr) (bins : Nat) (hb : 0 < bins) (hn : bins ≤ words.length)
    (hr : ∀ w ∈ words, -999999 / 10 ≤ w.1 ∧ w.1 ≤ 99999) :
    ∃ (gs : List (List (Rat × Bool))) (ks : List Chunk), scaled words ptr bins = some ks ∧ ks.length = gs.length ∧
      (∀ (i : Nat) (k : Chunk) (g : List (Rat × Bool)), ks[i]? = some k → gs[i]? = some g → Describes k g) ∧
      gs.flatten.Perm words ∧ (gs.flatten.Pairwise fun v w => v.1 ≤ w.1) ∧ gs.length = words.length / (words.length / bins) ∧
      ∀ (i : Nat) (g : List (Rat × Bool)), gs[i]? = some g → words.length / bins ≤ g.length ∧ g.length < 2 * (words.length / bins) ∧
        (i + 1 < gs.length → g.length = words.length / bins) := by
  obtain ⟨hp1, hp2⟩ := hp
  obtain ⟨ws, h1, h2, h3⟩ := mapM_words words ptr (fun i hi => List.mem_range.1 (hp1.mem_iff.1 hi))
  have hperm := perm_words hp1 h1
  have hlen : ws.length = words.length := hperm.length_eq
  have hstep : 0 < words.length / bins := Nat.div_pos hn hb
  have hle : words.length / bins * bins ≤ words.length := Nat.div_mul_le_self _ _
  obtain ⟨gs, e1, e2, e3, e4⟩ := chunkLoop_ok ws (words.length / bins) hstep (ws.length + 1) 0 (words.length / bins) (by omega) (by omega) (by
    rw [hlen]
    by_cases h1 : bins = 1
    · right; subst h1; rw [Nat.div_one] at *; omega
    · left
      have : words.length / bins * 2 ≤ words.length / bins * bins := Nat.mul_le_mul_left _ (by omega)
      omega)
  rw [List.drop_zero] at e2
  rw [hlen, Nat.sub_zero] at e3
  refine ⟨gs, gs.map chunk, ?_, by simp, ?_, by rw [e2]; exact hperm, ?_, e3, e4⟩
  · unfold scaled
    rw [if_neg (by omega), h1]
    dsimp only
    rw [hlen] at e1 ⊢
    exact e1
  · intro i k g hk hg
    rw [List.getElem?_map, hg] at hk
    cases hk
    have hgm : g ∈ gs := List.mem_of_getElem? hg
    refine chunk_ok g ?_ ?_
    · intro he
      have := (e4 i g hg).1
      rw [he] at this
      simp at this
      omega
    · intro w hw
      exact hr w (hperm.mem_iff.1 (by rw [← e2]; exact List.mem_flatten.2 ⟨g, hgm, hw⟩))
  · rw [e2, List.pairwise_iff_getElem]
    intro i j hi hj hij
    have hil : i < ptr.length := by omega
    have hjl : j < ptr.length := by omega
    have := List.pairwise_iff_getElem.1 hp2 i j hil hjl hij ws[i] ws[j] (by
      have := h3 i
      rw [List.getElem?_eq_getElem hi, List.getElem?_eq_getElem hil] at this
      exact this.symm) (by
      have := h3 j
      rw [List.getElem?_eq_getElem hj, List.getElem?_eq_getElem hjl] at this
      exact this.symm)
    exact this

/-- C158: with fewer words than bins nothing is written. -/
theorem scaled_few_words (words : List (Rat × Bool)) (ptr : List Nat) (hp : IsSort words ptr) (bins : Nat) (hn : words.length < bins) :
    scaled words ptr bins = some [] := by
  obtain ⟨ws, h1, h2, _⟩ := mapM_words words ptr (fun i hi => List.mem_range.1 (hp.1.mem_iff.1 hi))
  have hlen : ws.length = words.length := (perm_words hp.1 h1).length_eq
  unfold scaled
  rw [if_neg (by omega), h1]
  dsimp only
  rw [Nat.div_eq_of_lt (by omega), chunkLoop, if_neg (by omega)]

/-- C158, violated: there are as many bins as asked for only if `n / (n / bins)` is that number; with 20 bins, as in every call, 39 words make 39
bins. -/
theorem scaled_too_many_bins (words : List (Rat × Bool)) (ptr : List Nat) (hp : IsSort words ptr) (hn : words.length = 39)
    (hr : ∀ w ∈ words, -999999 / 10 ≤ w.1 ∧ w.1 ≤ 99999) : ∃ ks, scaled words ptr 20 = some ks ∧ ks.length = 39 := by
  obtain ⟨gs, ks, h1, h2, _, _, _, h6, _⟩ := scaled_bins_partial words ptr hp 20 (by decide) (by omega) hr
  exact ⟨ks, h1, by rw [h2, h6, hn]⟩

example : IsSort [(1/2, true), (1/4, false), (3/4, true), (1/4, true), (1, false)] [1, 3, 0, 2, 4] := by
  refine ⟨by decide, ?_⟩
  rw [List.pairwise_iff_getElem]
  intro i j hi hj hij v w hv hw
  have : ∀ (i j : Fin 5), i < j → ∀ (v w : Rat × Bool),
      ([(1/2, true), (1/4, false), (3/4, true), (1/4, true), (1, false)] : List (Rat × Bool))[([1, 3, 0, 2, 4] : List Nat)[i.1]'i.2]? = some v →
      ([(1/2, true), (1/4, false), (3/4, true), (1/4, true), (1, false)] : List (Rat × Bool))[([1, 3, 0, 2, 4] : List Nat)[j.1]'j.2]? = some w → v.1 ≤ w.1 := by
    intro i j hij v w
    match i, j, hij with
    | 0, 1, _ | 0, 2, _ | 0, 3, _ | 0, 4, _ | 1, 2, _ | 1, 3, _ | 1, 4, _ | 2, 3, _ | 2, 4, _ | 3, 4, _ => intro hv hw; cases hv; cases hw; decide +kernel
    | 0, 0, h | 1, 0, h | 1, 1, h | 2, 0, h | 2, 1, h | 2, 2, h | 3, 0, h | 3, 1, h | 3, 2, h | 3, 3, h | 4, 0, h | 4, 1, h | 4, 2, h | 4, 3, h | 4, 4, h => exact absurd h (by decide)
  exact this ⟨i, hi⟩ ⟨j, hj⟩ hij v w hv hw

example : scaled [(1/2, true), (1/4, false), (3/4, true), (1/4, true), (1, false)] [1, 3, 0, 2, 4] 2 = some [⟨1, 1, 1/4, 1/4⟩, ⟨2, 1, 1/2, 1⟩] := by
  decide +kernel

end Verif.Det
