import Verif.Mapsswe.Swap
/-!
# The verdict from the differences, and the pairing of sentences
-/
set_option autoImplicit false
namespace Verif.Mapsswe

/-- Squared deviations from a point, expanded. -/
theorem dev_sum (m : Rat) : ∀ (d : List Int),
    (d.map (fun (x : Int) => ((x : Rat) - m) * ((x : Rat) - m))).sum =
      ((sumSq d : Int) : Rat) - 2 * m * ((sumZ d : Int) : Rat) + (d.length : Rat) * m * m
  | [] => by simp [sumSq, sumZ]; grind
  | x :: d => by
    have ih := dev_sum m d
    simp only [List.map_cons, List.sum_cons, ih, sumSq, sumZ, List.length_cons, Rat.intCast_add, Rat.intCast_mul,
      Rat.natCast_add]
    have : ((1 : Nat) : Rat) = 1 := rfl
    rw [this]
    grind

theorem sq_nonneg (x : Rat) : 0 ≤ x * x := by
  by_cases h : 0 ≤ x
  · exact Rat.mul_nonneg h h
  · have h1 : 0 ≤ -x := by grind
    have := Rat.mul_nonneg h1 h1
    grind

theorem dev_nonneg (m : Rat) : ∀ (d : List Int), 0 ≤ (d.map (fun (x : Int) => ((x : Rat) - m) * ((x : Rat) - m))).sum
  | [] => by simp
  | x :: d => by
    have := dev_nonneg m d
    have := sq_nonneg ((x : Rat) - m)
    simp only [List.map_cons, List.sum_cons]
    grind

/-- The spread of the numbers, `n` times the sum of squared deviations from the mean. -/
def spread (d : List Int) : Int := d.length * sumSq d - sumZ d * sumZ d

theorem zVerdict_eq (d : List Int) (hd : d ≠ []) : zVerdict d = some (
    if 0 < spread d ∧ 2401 * spread d < 625 * (sumZ d * sumZ d * ((d.length : Int) - 1))
    then (if sumZ d < 0 then -1 else 1) else 0) := by
  have hn : d.length ≠ 0 := fun h => hd (List.length_eq_zero_iff.mp h)
  unfold zVerdict
  rw [if_neg hn]
  simp only
  have n0 : (0 : Rat) < (d.length : Rat) := by
    have : ((0 : Nat) : Rat) < (d.length : Rat) := Rat.natCast_lt_natCast.mpr (by omega)
    simpa using this
  have hS : ((d.sum : Int) : Rat) = ((sumZ d : Int) : Rat) := rfl
  rw [hS]
  have dn := dev_nonneg (((sumZ d : Int) : Rat) / (d.length : Rat)) d
  rw [dev_sum] at dn ⊢
  have hmn : (((sumZ d : Int) : Rat) / (d.length : Rat)) * (d.length : Rat) = ((sumZ d : Int) : Rat) :=
    Rat.div_mul_cancel (by grind)
  generalize hm : (((sumZ d : Int) : Rat) / (d.length : Rat)) = m at hmn dn ⊢
  have hT : (d.length : Rat) * (((sumSq d : Int) : Rat) - 2 * m * ((sumZ d : Int) : Rat) + (d.length : Rat) * m * m) =
      ((spread d : Int) : Rat) := by
    unfold spread
    rw [Rat.intCast_sub, Rat.intCast_mul, Rat.intCast_mul, Rat.intCast_natCast, ← hmn]
    grind
  generalize ((sumSq d : Int) : Rat) - 2 * m * ((sumZ d : Int) : Rat) + (d.length : Rat) * m * m = T at hT dn ⊢
  have hneg : (m < 0) ↔ sumZ d < 0 := by
    rw [← Rat.intCast_lt_intCast, ← hmn]
    constructor
    · intro h
      have := Rat.mul_lt_mul_of_pos_right h n0
      simpa using this
    · intro h
      apply Classical.byContradiction
      intro h2
      have := Rat.mul_nonneg (Rat.not_lt.mp h2) (Rat.le_of_lt n0)
      have h3 : ((0 : Int) : Rat) = 0 := rfl
      grind
  have hTpos : 0 < T ↔ 0 < spread d := by
    rw [← Rat.intCast_lt_intCast, ← hT]
    have h3 : ((0 : Int) : Rat) = 0 := rfl
    rw [h3]
    constructor
    · intro h; exact Rat.mul_pos n0 h
    · intro h
      apply Rat.lt_of_le_of_ne dn
      intro h2
      rw [← h2] at h
      grind
  have hcrit : 0 < T → ((m * m * (d.length : Rat) / (T / ((d.length : Rat) - 1)) > (1960 / 1000) * (1960 / 1000)) ↔
      2401 * spread d < 625 * (sumZ d * sumZ d * ((d.length : Int) - 1))) := by
    intro hT0
    rw [← Rat.intCast_lt_intCast]
    simp only [Rat.intCast_mul, Rat.intCast_sub, Rat.intCast_natCast, ← hT, ← hmn]
    by_cases h1 : d.length = 1
    · rw [h1]
      have e1 : ((1 : Nat) : Rat) - 1 = 0 := by decide +kernel
      have e2 : ((1 : Nat) : Rat) = 1 := rfl
      have e3 : ((1 : Int) : Rat) = 1 := rfl
      rw [e1, e2, e3, Rat.div_def, Rat.div_def]
      have e4 : (0 : Rat)⁻¹ = 0 := Rat.inv_zero
      rw [e4, Rat.mul_zero, Rat.inv_zero, Rat.mul_zero]
      constructor
      · intro h
        exact absurd h (by decide +kernel)
      · intro h
        exfalso
        have e5 : ((2401 : Int) : Rat) = 2401 := rfl
        rw [e5] at h
        grind
    · have hn1 : (0 : Rat) < (d.length : Rat) - 1 := by
        have : ((1 : Nat) : Rat) < (d.length : Rat) := Rat.natCast_lt_natCast.mpr (by omega)
        have e2 : ((1 : Nat) : Rat) = 1 := rfl
        grind
      have hden : (0 : Rat) < T / ((d.length : Rat) - 1) := by
        rw [Rat.div_def]; exact Rat.mul_pos hT0 (Rat.inv_pos.mpr hn1)
      have hdc : T / ((d.length : Rat) - 1) * ((d.length : Rat) - 1) = T := Rat.div_mul_cancel (by grind)
      rw [show ∀ a b : Rat, (a > b) = (b < a) from fun _ _ => rfl, Rat.lt_div_iff hden]
      generalize T / ((d.length : Rat) - 1) = D at hden hdc ⊢
      have e5 : ((2401 : Int) : Rat) = 2401 := rfl
      have e6 : ((625 : Int) : Rat) = 625 := rfl
      have e7 : ((1 : Int) : Rat) = 1 := rfl
      have e8 : (1960 / 1000 : Rat) * (1960 / 1000) = 2401 / 625 := by decide +kernel
      rw [e5, e6, e7, e8, ← hdc]
      generalize (d.length : Rat) = n at n0 hn1 ⊢
      have hk : 0 < n * (n - 1) * 625 := Rat.mul_pos (Rat.mul_pos n0 hn1) (by decide +kernel)
      constructor
      · intro h
        have := Rat.mul_lt_mul_of_pos_right h hk
        grind
      · intro h
        apply Classical.byContradiction
        intro h2
        have := Rat.mul_le_mul_of_nonneg_right (Rat.not_lt.mp h2) (Rat.le_of_lt hk)
        grind
  congr 1
  by_cases h0 : 0 < T
  · have hne : T ≠ 0 := by grind
    rw [if_pos hne]
    by_cases hc : 2401 * spread d < 625 * (sumZ d * sumZ d * ((d.length : Int) - 1))
    · have hb := And.intro (hTpos.mp h0) hc
      rw [if_pos ((hcrit h0).mpr hc), if_pos hb]
      by_cases hs : sumZ d < 0
      · rw [if_pos (hneg.mpr hs), if_pos hs]; rfl
      · have hs' : ¬ m < 0 := fun h => hs (hneg.mp h)
        rw [if_neg hs', if_neg hs]
    · have hb : ¬ (0 < spread d ∧ 2401 * spread d < 625 * (sumZ d * sumZ d * ((d.length : Int) - 1))) := fun h => hc h.2
      have hc' := fun h => hc ((hcrit h0).mp h)
      rw [if_neg hc', if_neg hb]
      split <;> rfl
  · have he : T = 0 := by grind
    have hb : ¬ (0 < spread d ∧ 2401 * spread d < 625 * (sumZ d * sumZ d * ((d.length : Int) - 1))) :=
      fun h => h0 (hTpos.mpr h.1)
    have hT' : ¬ T ≠ 0 := fun h => h he
    have hz : ¬ ((0 : Rat) > 1960 / 1000 * (1960 / 1000)) := by decide +kernel
    rw [if_neg hb, if_neg hT', if_neg hz]
    split <;> rfl

theorem sumZ_neg : ∀ (d : List Int), sumZ (d.map (fun x => -x)) = - sumZ d
  | [] => rfl
  | x :: d => by
    have := sumZ_neg d
    simp only [sumZ, List.map_cons, List.sum_cons] at this ⊢
    omega

theorem sumSq_neg (d : List Int) : sumSq (d.map (fun x => -x)) = sumSq d := by
  unfold sumSq
  rw [List.map_map]
  congr 2
  funext x
  exact Int.neg_mul_neg x x

theorem sum_perm {d d' : List Int} (h : d.Perm d') : d.sum = d'.sum := by
  induction h with
  | nil => rfl
  | cons x _ ih => simp [ih]
  | swap x y l => simp only [List.sum_cons]; omega
  | trans _ _ ih1 ih2 => rw [ih1, ih2]

theorem nodup_of_map {A B : Type} (f : A → B) (l : List A) (h : (l.map f).Nodup) : l.Nodup := by
  rw [List.Nodup, List.pairwise_map] at h
  exact h.imp (fun hab e => hab (by rw [e]))

theorem spread_neg (d : List Int) : spread (d.map (fun x => -x)) = spread d := by
  unfold spread
  rw [sumZ_neg, sumSq_neg, List.length_map, Int.neg_mul_neg]

theorem zVerdict_neg (d : List Int) : zVerdict (d.map (fun x => -x)) = (zVerdict d).map (fun v => -v) := by
  by_cases hd : d = []
  · rw [hd]; rfl
  · rw [zVerdict_eq d hd, zVerdict_eq _ (by simpa using hd), spread_neg, sumZ_neg, Int.neg_mul_neg, List.length_map]
    simp only [Option.map_some]
    congr 1
    by_cases hb : 0 < spread d ∧ 2401 * spread d < 625 * (sumZ d * sumZ d * ((d.length : Int) - 1))
    · rw [if_pos hb, if_pos hb]
      have : sumZ d ≠ 0 := by
        intro h0
        rw [h0] at hb
        omega
      by_cases hs : sumZ d < 0
      · rw [if_pos hs, if_neg (by omega)]; rfl
      · rw [if_neg hs, if_pos (by omega)]
    · rw [if_neg hb, if_neg hb]; rfl

theorem zVerdict_perm (d d' : List Int) (h : d.Perm d') : zVerdict d = zVerdict d' := by
  by_cases hd : d = []
  · subst hd
    rw [List.nil_perm.mp h]
  · have hd' : d' ≠ [] := by intro h2; subst h2; exact hd (List.perm_nil.mp h)
    have h1 : sumZ d = sumZ d' := sum_perm h
    have h2 : sumSq d = sumSq d' := sum_perm (h.map _)
    have h3 := h.length_eq
    have h4 : spread d = spread d' := by unfold spread; rw [h1, h2, h3]
    rw [zVerdict_eq d hd, zVerdict_eq d' hd', h1, h3, h4]

section
variable {N I P : Type} [DecidableEq N] [DecidableEq I]

theorem lookup_some {K X : Type} [DecidableEq K] (k : K) (v : X) : ∀ (l : List (K × X)), (l.map (·.1)).Nodup →
    (lookup k l = some v ↔ (k, v) ∈ l)
  | [], _ => by simp [lookup]
  | g :: gs, h => by
    rw [List.map_cons, List.nodup_cons] at h
    have ih := lookup_some k v gs h.2
    unfold lookup
    by_cases hk : k = g.1
    · rw [if_pos hk]
      constructor
      · intro h2
        rw [Option.some.injEq] at h2
        rw [← h2, hk]; exact List.mem_cons_self
      · intro h2
        rcases List.mem_cons.mp h2 with h2 | h2
        · rw [← h2]
        · exact absurd (List.mem_map.mpr ⟨(k, v), h2, hk⟩) h.1
    · rw [if_neg hk, ih]
      constructor
      · exact fun h2 => List.mem_cons_of_mem _ h2
      · intro h2
        rcases List.mem_cons.mp h2 with h2 | h2
        · exact absurd (by rw [← h2]) hk
        · exact h2

/-- The compared sentences of one speaker. -/
def keyRow (y : System N I P) (g : N × List (I × P)) : List ((N × I) × (P × P)) :=
  match lookup g.1 y with
  | none => []
  | some ss => g.2.filterMap (fun s => (lookup s.1 ss).map (fun q => ((g.1, s.1), (s.2, q))))

/-- The compared sentences with the speaker and the sentence. -/
def keyed (x y : System N I P) : List ((N × I) × (P × P)) := x.flatMap (keyRow y)

theorem pairs_keyed (x y : System N I P) : pairs x y = (keyed x y).map (·.2) := by
  unfold pairs keyed
  rw [List.map_flatMap]
  congr 1
  funext g
  unfold keyRow
  cases lookup g.1 y with
  | none => rfl
  | some ss =>
    simp only [List.map_filterMap, Option.map_map]
    rfl

theorem mem_keyed (x y : System N I P) (hy : Distinct y) (n : N) (i : I) (p q : P) :
    ((n, i), (p, q)) ∈ keyed x y ↔ Has x n i p ∧ Has y n i q := by
  unfold keyed
  rw [List.mem_flatMap]
  constructor
  · rintro ⟨g, hg, hm⟩
    unfold keyRow at hm
    cases hl : lookup g.1 y with
    | none => rw [hl] at hm; simp at hm
    | some ss =>
      rw [hl] at hm
      simp only [List.mem_filterMap, Option.map_eq_some_iff, Prod.mk.injEq] at hm
      obtain ⟨s, hs, q', hq', ⟨h1, h2⟩, h3, h4⟩ := hm
      have hmem := (lookup_some g.1 ss y hy.1).mp hl
      have hmem2 := (lookup_some s.1 q' ss (hy.2 _ hmem)).mp hq'
      subst h1 h2 h3 h4
      exact ⟨⟨g.2, hg, hs⟩, ⟨ss, hmem, hmem2⟩⟩
  · rintro ⟨⟨ss, h1, h2⟩, ⟨tt, h3, h4⟩⟩
    refine ⟨(n, ss), h1, ?_⟩
    unfold keyRow
    rw [(lookup_some n tt y hy.1).mpr h3]
    simp only [List.mem_filterMap, Option.map_eq_some_iff]
    exact ⟨(i, p), h2, q, (lookup_some i q tt (hy.2 _ h3)).mpr h4, rfl⟩

theorem keyed_nodup (x y : System N I P) (hx : Distinct x) : ((keyed x y).map (·.1)).Nodup := by
  unfold keyed
  rw [List.map_flatMap, List.Nodup, List.pairwise_flatMap]
  constructor
  · intro g hg
    unfold keyRow
    cases lookup g.1 y with
    | none => simp
    | some ss =>
      simp only [List.map_filterMap, Option.map_map]
      have h1 := hx.2 g hg
      rw [List.pairwise_filterMap]
      rw [List.Nodup, List.pairwise_map] at h1
      apply h1.imp
      intro a b hab u hu v hv huv
      simp only [Option.map_eq_some_iff, Function.comp] at hu hv
      obtain ⟨_, _, hu⟩ := hu
      obtain ⟨_, _, hv⟩ := hv
      rw [← hu, ← hv] at huv
      exact hab (Prod.mk.inj huv).2
  · have h1 := hx.1
    rw [List.Nodup, List.pairwise_map] at h1
    apply h1.imp
    intro a b hab u hu v hv huv
    have key : ∀ (g : N × List (I × P)) (w : N × I), w ∈ (keyRow y g).map (·.1) → w.1 = g.1 := by
      intro g w hw
      unfold keyRow at hw
      cases hl : lookup g.1 y with
      | none => rw [hl] at hw; simp at hw
      | some ss =>
        rw [hl] at hw
        simp only [List.mem_map, List.mem_filterMap, Option.map_eq_some_iff] at hw
        obtain ⟨z, ⟨s, _, q, _, hz⟩, hw⟩ := hw
        rw [← hw, ← hz]
    exact hab (by rw [← key a u hu, ← key b v hv, huv])

theorem pairs_swap (x y : System N I P) (hx : Distinct x) (hy : Distinct y) :
    (pairs y x).Perm ((pairs x y).map Prod.swap) := by
  rw [pairs_keyed, pairs_keyed, List.map_map]
  have : (fun (z : (N × I) × (P × P)) => z.2) ∘ (fun (z : (N × I) × (P × P)) => (z.1, z.2.swap)) = Prod.swap ∘ (fun (z : (N × I) × (P × P)) => z.2) := rfl
  rw [← this, ← List.map_map]
  apply List.Perm.map
  rw [List.perm_ext_iff_of_nodup]
  · rintro ⟨⟨n, i⟩, ⟨p, q⟩⟩
    rw [mem_keyed y x hx, List.mem_map]
    constructor
    · intro h
      exact ⟨((n, i), (q, p)), (mem_keyed x y hy n i q p).mpr ⟨h.2, h.1⟩, rfl⟩
    · rintro ⟨⟨⟨n', i'⟩, ⟨p', q'⟩⟩, h, e⟩
      simp only [Prod.swap, Prod.mk.injEq] at e
      obtain ⟨⟨e1, e2⟩, e3, e4⟩ := e
      subst e1 e2 e3 e4
      have := (mem_keyed x y hy _ _ _ _).mp h
      exact ⟨this.2, this.1⟩
  · exact nodup_of_map (·.1) _ (keyed_nodup y x hy)
  · apply nodup_of_map (·.1)
    rw [List.map_map]
    exact keyed_nodup x y hx

end

section
variable {W : Type} [DecidableEq W]

/-- The segments of one pair. -/
def segsOf (mg : Nat) (c : List (Entry W) × List (Entry W)) : List Seg := (compSents c.1 c.2 mg []).getD []

theorem allSegs_eq (mg : Nat) (hmg : 1 ≤ mg) : ∀ (prs : List (List (Entry W) × List (Entry W))) (segs : List Seg),
    (∀ c ∈ prs, WellFormed c.1 ∧ WellFormed c.2) → allSegs mg prs segs = some (segs ++ prs.flatMap (segsOf mg))
  | [], segs, _ => by simp [allSegs]
  | c :: cs, segs, h => by
    have hc := h c List.mem_cons_self
    obtain ⟨new, h1, _⟩ := compSents_spec c.1 c.2 hc.1 hc.2 mg hmg []
    unfold allSegs
    rw [compSents_pre c.1 c.2 hc.1 hc.2, h1]
    simp only [Option.map_some]
    rw [allSegs_eq mg hmg cs _ (fun d hd => h d (List.mem_cons_of_mem _ hd))]
    rw [List.flatMap_cons, segsOf, h1]
    simp

theorem segsOf_swap (mg : Nat) (hmg : 1 ≤ mg) (c : List (Entry W) × List (Entry W)) (h1 : WellFormed c.1) (h2 : WellFormed c.2)
    (hr : refWords c.1 = refWords c.2) : segsOf mg c.swap = (segsOf mg c).map Seg.swap := by
  have := compSents_swap c.1 c.2 h1 h2 hr mg []
  obtain ⟨new, e1, _⟩ := compSents_spec c.1 c.2 h1 h2 mg hmg []
  unfold segsOf
  rw [List.map_nil] at this
  show (compSents c.2 c.1 mg []).getD [] = _
  rw [this, e1]
  rfl

end

end Verif.Mapsswe
