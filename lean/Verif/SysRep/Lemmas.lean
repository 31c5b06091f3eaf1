import Verif.SysRep.Model
import Verif.Summary.Lemmas
/-!
# Lemmas for asclite's summary reports
-/
set_option autoImplicit false
namespace Verif.SysRep
open Verif.Range Verif.Stats Verif.Anovar
open Verif.Summary (fRound clamp Shows percent fRound_shows pow_pos10 shows_unique foldl_add clamp_range clamp_mono clamp_id LogLike uncertainty)

/-! ## Sorting and statistics -/

theorem insertR_perm (x : Rat) (l : List Rat) : (insertR x l).Perm (x :: l) := by
  induction l with
  | nil => exact List.Perm.refl _
  | cons y l ih =>
    unfold insertR
    split
    · exact List.Perm.refl _
    · exact (List.Perm.cons y ih).trans (List.Perm.swap x y l)

theorem sortR_perm (l : List Rat) : (sortR l).Perm l := by
  induction l with
  | nil => exact List.Perm.refl _
  | cons x l ih => exact (insertR_perm x (sortR l)).trans (List.Perm.cons x ih)

theorem insertR_sorted (x : Rat) (l : List Rat) (h : l.Pairwise (· ≤ ·)) : (insertR x l).Pairwise (· ≤ ·) := by
  induction l with
  | nil => exact List.pairwise_singleton _ _
  | cons y l ih =>
    have h' := List.pairwise_cons.1 h
    unfold insertR
    split
    · rename_i hxy
      refine List.pairwise_cons.2 ⟨fun z hz => ?_, h⟩
      rcases List.mem_cons.1 hz with rfl | hz
      · exact hxy
      · exact Rat.le_trans hxy (h'.1 z hz)
    · rename_i hxy
      refine List.pairwise_cons.2 ⟨fun z hz => ?_, ih h'.2⟩
      rcases List.mem_cons.1 ((insertR_perm x l).mem_iff.1 hz) with rfl | hz
      · grind
      · exact h'.1 z hz

theorem sortR_sorted (l : List Rat) : (sortR l).Pairwise (· ≤ ·) := by
  induction l with
  | nil => exact List.Pairwise.nil
  | cons x l ih => exact insertR_sorted x (sortR l) ih

theorem sum_perm {l l' : List Rat} (h : l.Perm l') : l.sum = l'.sum := by
  induction h with
  | nil => rfl
  | cons x _ ih => rw [List.sum_cons, List.sum_cons, ih]
  | swap x y l => rw [List.sum_cons, List.sum_cons, List.sum_cons, List.sum_cons]; grind
  | trans _ _ h1 h2 => exact h1.trans h2

theorem splits_perm {l l' : List Rat} (h : l.Perm l') (m : Rat) : Splits l m → Splits l' m := by
  unfold Splits below above
  rw [h.countP_eq, h.countP_eq, h.length_eq]
  exact id

theorem median_perm {l l' : List Rat} (h : l.Perm l') (m : Rat) : IsMedian l m → IsMedian l' m := by
  rintro ⟨h1, lo, hlo, hi, hhi, h2, h3, h4, h5⟩
  exact ⟨splits_perm h m h1, lo, h.mem_iff.1 hlo, hi, h.mem_iff.1 hhi, splits_perm h lo h2, splits_perm h hi h3, h4, fun x hx => h5 x (h.mem_iff.2 hx)⟩

theorem range_ascending (v : List Rat) (h : v.Pairwise (· ≤ ·)) : Ascending v (List.range v.length) := by
  refine ⟨List.Perm.refl _, ?_⟩
  rw [List.pairwise_iff_getElem]
  intro i j hi hj hij
  rw [List.length_range] at hi hj
  rw [List.getElem_range, List.getElem_range, List.getD_eq_getElem?_getD, List.getD_eq_getElem?_getD, List.getElem?_eq_getElem hi, List.getElem?_eq_getElem hj]
  exact List.pairwise_iff_getElem.1 h i j hi hj hij

/-- The median of `Stat.of` as a function of the sorted values. -/
def mid (v : List Rat) : Rat := if v.length % 2 = 0 then (v.getD (v.length / 2) 0 + v.getD (v.length / 2 - 1) 0) / 2 else v.getD (v.length / 2) 0

theorem mid_median (v : List Rat) (hne : v ≠ []) (h : v.Pairwise (· ≤ ·)) : IsMedian v (mid v) := by
  have hm := (mean_median_variance v (List.range v.length) hne (range_ascending v h)).2.1
  have hpos : 0 < v.length := List.length_pos_iff.2 hne
  have e : calcMedian v (List.range v.length) = mid v := by
    unfold calcMedian mid
    rw [if_neg (by omega)]
    have hr : ∀ i, i < v.length → (List.range v.length).getD i 0 = i := by
      intro i hi
      rw [List.getD_eq_getElem?_getD, List.getElem?_eq_getElem (by rw [List.length_range]; exact hi), List.getElem_range]
      rfl
    by_cases h1 : v.length = 1
    · rw [if_pos h1, if_neg (by omega), h1]
    · rw [if_neg h1, hr _ (by omega), hr _ (by omega)]
  rw [e] at hm
  exact hm

theorem foldl_sum' (l : List Rat) : l.foldl (· + ·) 0 = l.sum := by
  have := foldl_add (fun x : Rat => x) l 0
  rw [List.map_id', Rat.zero_add] at this
  exact this

theorem sqr_sum (l : List Rat) (m : Rat) : (l.map fun x => x * x).sum = spread m l + 2 * m * l.sum - (l.length : Rat) * (m * m) := by
  unfold spread
  induction l with
  | nil => simp; grind
  | cons x l ih =>
    have : (((x :: l).length : Nat) : Rat) = (l.length : Rat) + 1 := by rw [List.length_cons]; norm_cast
    rw [this, List.map_cons, List.map_cons, List.sum_cons, List.sum_cons, List.sum_cons, ih]
    grind

theorem spread_id (l : List Rat) (h : l ≠ []) : (l.length : Rat) * (l.map fun x => x * x).sum - l.sum * l.sum = (l.length : Rat) * spread (mean l) l := by
  have hn : (l.length : Rat) ≠ 0 := by
    have := List.length_pos_iff.2 h
    intro hc
    have : l.length = 0 := by exact_mod_cast hc
    omega
  have hm : (l.length : Rat) * mean l = l.sum := by
    unfold mean
    rw [Rat.mul_comm, Rat.div_mul_cancel hn]
  rw [sqr_sum l (mean l)]
  grind

theorem spread_perm {l l' : List Rat} (h : l.Perm l') (c : Rat) : spread c l = spread c l' := sum_perm (h.map _)

theorem mean_perm {l l' : List Rat} (h : l.Perm l') : mean l = mean l' := by
  unfold mean
  rw [sum_perm h, h.length_eq]

theorem stat_sum (sqrt : Rat → Rat) (l : List Rat) : (Stat.of sqrt l).sum = l.sum := by
  unfold Stat.of
  by_cases h : l = []
  · rw [if_pos h, h]; rfl
  · rw [if_neg h]
    dsimp only
    rw [foldl_sum', sum_perm (sortR_perm l)]

theorem stat_mean (sqrt : Rat → Rat) (l : List Rat) : (Stat.of sqrt l).mean = mean l := by
  unfold Stat.of
  by_cases h : l = []
  · rw [if_pos h, h]; decide +kernel
  · rw [if_neg h]
    dsimp only
    rw [foldl_sum', sum_perm (sortR_perm l), (sortR_perm l).length_eq]
    rfl

theorem sort_ne {l : List Rat} (h : l ≠ []) : sortR l ≠ [] := fun hc => h (by
  have := (sortR_perm l).length_eq
  rw [hc] at this
  exact List.length_eq_zero_iff.1 this.symm)

theorem stat_median (sqrt : Rat → Rat) (l : List Rat) (h : l ≠ []) : (Stat.of sqrt l).median = mid (sortR l) := by
  unfold Stat.of
  rw [if_neg h]
  rfl

theorem stat_sd (sqrt : Rat → Rat) (l : List Rat) (h : 2 ≤ l.length) : (Stat.of sqrt l).sd = some (sqrt (spread (mean l) l / ((l.length : Rat) - 1))) := by
  have hne : l ≠ [] := by intro hc; rw [hc] at h; simp at h
  unfold Stat.of
  rw [if_neg hne]
  dsimp only
  rw [if_neg (by rw [(sortR_perm l).length_eq]; omega), foldl_sum', foldl_add (fun x : Rat => x * x), Rat.zero_add, spread_id _ (sort_ne hne), (sortR_perm l).length_eq,
    mean_perm (sortR_perm l), spread_perm (sortR_perm l)]
  have hn : (l.length : Rat) ≠ 0 := by
    intro hc
    have : l.length = 0 := by exact_mod_cast hc
    omega
  congr 2
  rw [Rat.div_def, Rat.div_def, Rat.inv_mul_rev]
  have := Rat.mul_inv_cancel _ hn
  grind

theorem stat_sd_one (sqrt : Rat → Rat) (l : List Rat) (h : l.length = 1) : (Stat.of sqrt l).sd = none := by
  have hne : l ≠ [] := by intro hc; rw [hc] at h; simp at h
  unfold Stat.of
  rw [if_neg hne]
  dsimp only
  rw [if_pos (by rw [(sortR_perm l).length_eq]; omega)]

/-! ## Widths -/

theorem ceilLog_spec (v : Rat) (k : Nat) : ceilLog v ≤ k ↔ v ≤ (10 : Rat) ^ k := by
  unfold ceilLog
  by_cases h : v ≤ 1
  · rw [if_pos h]
    refine ⟨fun _ => ?_, fun _ => Nat.zero_le _⟩
    have : (1 : Rat) ≤ (10 : Rat) ^ k := by
      have : 1 ≤ 10 ^ k := Nat.pow_pos (by decide)
      exact_mod_cast this
    grind
  · rw [if_neg h]
    have hc : (1 : Int) < v.ceil := by
      have h1 : v ≤ (v.ceil : Rat) := Rat.le_ceil
      have : ((1 : Int) : Rat) < (v.ceil : Rat) := by
        have : (((1 : Int)) : Rat) = 1 := rfl
        grind
      exact Rat.intCast_lt_intCast.1 this
    have key : v ≤ (10 : Rat) ^ k ↔ v.ceil.toNat ≤ 10 ^ k := by
      have e : ((((10 ^ k : Nat)) : Int) : Rat) = (10 : Rat) ^ k := by norm_cast
      constructor
      · intro hv
        have : v.ceil ≤ ((10 ^ k : Nat) : Int) := Rat.ceil_le_iff.2 (by rw [e]; exact hv)
        omega
      · intro hv
        have : v.ceil ≤ ((10 ^ k : Nat) : Int) := by omega
        have := Rat.ceil_le_iff.1 this
        rw [e] at this
        exact this
    rw [key]
    by_cases hk : k = 0
    · subst hk
      have := Nat.length_toDigits_pos (b := 10) (n := v.ceil.toNat - 1)
      simp only [Nat.pow_zero]
      omega
    · rw [Nat.length_toDigits_le_iff (by decide) (by omega)]
      omega

theorem ceilLog_mono {v w : Rat} (h : v ≤ w) : ceilLog v ≤ ceilLog w :=
  (ceilLog_spec v _).2 (Rat.le_trans h ((ceilLog_spec w _).1 (Nat.le_refl _)))

theorem size_sum (sqrt : Rat → Rat) (l : List Rat) (h : l ≠ []) : ceilLog l.sum + 2 ≤ (Stat.of sqrt l).size := by
  have e := stat_sum sqrt l
  revert e
  unfold Stat.of
  rw [if_neg h]
  dsimp only
  intro e
  rw [e]
  omega

/-! ## Texts -/

theorem textN_le {n : Nat} {k : Nat} (hk : 0 < k) : (textN n).length ≤ k ↔ n < 10 ^ k := Nat.length_toDigits_le_iff (by decide) hk

theorem textN_size (n : Nat) {x : Rat} (h : (n : Rat) ≤ x) : (textN n).length ≤ ceilLog x + 1 := by
  rw [textN_le (by omega)]
  have h1 := (ceilLog_spec x _).1 (Nat.le_refl _)
  have h2 : (n : Rat) ≤ (10 : Rat) ^ (ceilLog x) := Rat.le_trans h h1
  have h3 : n ≤ 10 ^ ceilLog x := by exact_mod_cast h2
  have : 10 ^ (ceilLog x + 1) = 10 ^ ceilLog x * 10 := rfl
  have : 0 < 10 ^ ceilLog x := Nat.pow_pos (by decide)
  omega

theorem digit_one (n : Nat) : (Nat.toDigits 10 (n % 10)).length = 1 := by
  have h1 : (Nat.toDigits 10 (n % 10)).length ≤ 1 := (Nat.length_toDigits_le_iff (by decide) (by decide)).2 (Nat.mod_lt _ (by decide))
  have h2 := Nat.length_toDigits_pos (b := 10) (n := n % 10)
  omega

theorem oneDecimal_length {k : Int} (h : 0 ≤ k) : (oneDecimal k).length = (textN (k.natAbs / 10)).length + 2 := by
  unfold oneDecimal textN
  rw [if_neg (by omega), List.length_append, List.length_append, List.length_append, digit_one]
  simp only [List.length_nil, List.length_cons]
  omega

theorem fRound_nonneg {x : Rat} (p : Nat) (h : 0 ≤ x) : 0 ≤ fRound x p := by
  have hs := (fRound_shows p h).2
  have hp := pow_pos10 p
  have hx : 0 ≤ x * (10 : Rat) ^ p := Rat.mul_nonneg h (Rat.le_of_lt hp)
  have : ((-1 : Int) : Rat) < (fRound x p : Rat) := by
    have : (((-1 : Int)) : Rat) = -1 := rfl
    grind
  have := Rat.intCast_lt_intCast.1 this
  omega

/-- A number with half of which a total is larger needs no more places than the total with two more. -/
theorem text_half {x s : Rat} (hx : 0 ≤ x) (h : 2 * x ≤ s) (t : Str) (ht : text1 x = some t) : t.length ≤ max 3 (ceilLog s + 2) := by
  unfold text1 toInt at ht
  split at ht
  · simp only [Option.map_some, Option.some.injEq] at ht
    subst ht
    have hk := fRound_nonneg 1 hx
    have hs := (fRound_shows 1 hx).1
    rw [oneDecimal_length hk]
    generalize fRound x 1 = k at hk hs ⊢
    obtain ⟨n, rfl⟩ := Int.eq_ofNat_of_zero_le hk
    rw [Int.natAbs_natCast]
    have e : ((n : Int) : Rat) = (n : Rat) := rfl
    rw [e] at hs
    have p1 : (10 : Rat) ^ 1 = 10 := by decide +kernel
    rw [p1] at hs
    by_cases hz : n / 10 = 0
    · rw [hz]
      have : (textN 0).length = 1 := by decide
      omega
    · have : (textN (n / 10)).length ≤ ceilLog s := by
        have hn : ((n / 10 : Nat) : Rat) * 10 ≤ (n : Rat) := by
          have : n / 10 * 10 ≤ n := Nat.div_mul_le_self n 10
          exact_mod_cast this
        have h1 : (1 : Rat) ≤ ((n / 10 : Nat) : Rat) := by
          have : 1 ≤ n / 10 := by omega
          exact_mod_cast this
        have hlt : ((n / 10 : Nat) : Rat) < s := by grind
        have hle := (ceilLog_spec s _).1 (Nat.le_refl _)
        have hlt2 : ((n / 10 : Nat) : Rat) < (10 : Rat) ^ ceilLog s := by grind
        have hlt3 : n / 10 < 10 ^ ceilLog s := by exact_mod_cast hlt2
        have hpos : 0 < ceilLog s := by
          rcases Nat.eq_zero_or_pos (ceilLog s) with h0 | h0
          · rw [h0, Nat.pow_zero] at hlt3
            omega
          · exact h0
        exact (textN_le hpos).2 hlt3
      omega
  · simp at ht

theorem text1_some {x : Rat} (h0 : 0 ≤ x) (h : x ≤ 214748364) : text1 x = some (oneDecimal (fRound x 1)) := by
  unfold text1 toInt
  have h1 := fRound_nonneg 1 h0
  have h2 := (fRound_shows 1 h0).1
  have p1 : (10 : Rat) ^ 1 = 10 := by decide +kernel
  rw [p1] at h2
  have : (fRound x 1 : Rat) ≤ ((2147483641 : Int) : Rat) := by
    have : (((2147483641 : Int)) : Rat) = 2147483641 := rfl
    grind
  have := Rat.intCast_le_intCast.1 this
  rw [if_pos (by omega)]
  rfl

/-! ## Layout -/

theorem place_length (j : Just) (w : Nat) (v : Str) (h : 3 ≤ w) : (place j w v).length = w := by
  unfold place
  split
  · rw [List.length_append, List.length_drop]
    have : "...".toList.length = 3 := rfl
    omega
  · cases j
    · dsimp only; rw [List.length_append, List.length_replicate]; omega
    · dsimp only; rw [List.length_append, List.length_append, List.length_replicate, List.length_replicate]; omega
    · dsimp only; rw [List.length_append, List.length_replicate]; omega

theorem place_right (w : Nat) (v : Str) (h : v.length ≤ w) : place .right w v = rightIn w v := by
  unfold place rightIn
  rw [if_neg (by omega)]

theorem wName_ge (ss : List Spk) : 7 ≤ wName ss := by
  unfold wName
  have : ∀ (l : List Spk) (a : Nat), a ≤ l.foldl (fun m s => max m s.name.length) a := by
    intro l
    induction l with
    | nil => intro a; exact Nat.le_refl _
    | cons x l ih => intro a; exact Nat.le_trans (Nat.le_max_left _ _) (ih _)
  exact this ss 7

theorem wName_name (ss : List Spk) (s : Spk) (h : s ∈ ss) : s.name.length ≤ wName ss := by
  unfold wName
  have g : ∀ (l : List Spk) (a : Nat), a ≤ l.foldl (fun m s => max m s.name.length) a := by
    intro l
    induction l with
    | nil => intro a; exact Nat.le_refl _
    | cons x l ih => intro a; exact Nat.le_trans (Nat.le_max_left _ _) (ih _)
  have : ∀ (l : List Spk) (a : Nat), s ∈ l → s.name.length ≤ l.foldl (fun m s => max m s.name.length) a := by
    intro l
    induction l with
    | nil => intro a h; exact absurd h (by simp)
    | cons x l ih =>
      intro a h
      rcases List.mem_cons.1 h with rfl | h
      · exact Nat.le_trans (Nat.le_max_right _ _) (g _ _)
      · exact ih _ h
  exact this ss 7 h

theorem wSeg_ge (sqrt : Rat → Rat) (ss : List Spk) : 5 ≤ wSeg sqrt ss := Nat.le_max_left _ _
theorem wRef_ge (sqrt : Rat → Rat) (ss : List Spk) : 6 ≤ wRef sqrt ss := Nat.le_max_left _ _
theorem wErr_ge (sqrt : Rat → Rat) (ss : List Spk) : 6 ≤ wErr sqrt ss := by unfold wErr; omega
theorem wCol_ge (sqrt : Rat → Rat) (c : Col) (ss : List Spk) : 6 + (if flagged ss then 1 else 0) ≤ wCol sqrt c ss := by unfold wCol; omega

theorem cells_length (sqrt : Rat → Rat) (ss : List Spk) (cells : Col → Str) (l : List Col) :
    ((l.map fun c => place .right (wCol sqrt c ss) (cells c) ++ " ".toList).flatten).length = (l.map fun c => wCol sqrt c ss).sum + l.length := by
  induction l with
  | nil => rfl
  | cons c l ih =>
    have := wCol_ge sqrt c ss
    rw [List.map_cons, List.flatten_cons, List.length_append, List.length_append, ih, place_length _ _ _ (by omega), List.map_cons, List.sum_cons, List.length_cons]
    have : " ".toList.length = 1 := rfl
    omega

theorem row_length (sqrt : Rat → Rat) (o : Opt) (ss : List Spk) (j : Just) (name seg ref : Str) (cells : Col → Str) (serr nce : Str) :
    (rowText sqrt o ss j name seg ref cells serr nce).length = wLine sqrt o ss := by
  unfold rowText wLine
  have h1 := wName_ge ss
  have h2 := wSeg_ge sqrt ss
  have h3 := wRef_ge sqrt ss
  have h4 := wErr_ge sqrt ss
  simp only [List.length_append, cells_length]
  rw [place_length _ _ _ (by omega), place_length _ _ _ (by omega), place_length _ _ _ (by omega), place_length _ _ _ (by omega), place_length _ _ _ (by omega)]
  have e1 : "| ".toList.length = 2 := rfl
  have e2 : " | ".toList.length = 3 := rfl
  have e3 : " ".toList.length = 1 := rfl
  have e4 : " |".toList.length = 2 := rfl
  rw [e1, e2, e3, e4]
  have e5 : (columns o.withSpk).length = 5 + (if o.withSpk then 1 else 0) := by cases o.withSpk <;> rfl
  rw [e5]
  omega

theorem wLine_ge (sqrt : Rat → Rat) (o : Opt) (ss : List Spk) : 40 ≤ wLine sqrt o ss := by
  unfold wLine
  have h1 := wName_ge ss
  have h2 := wSeg_ge sqrt ss
  have h3 := wRef_ge sqrt ss
  have h4 := wErr_ge sqrt ss
  omega

/-! ## Fields of a row -/

/-- Where the column of words `c` begins. -/
def start (sqrt : Rat → Rat) (o : Opt) (ss : List Spk) (c : Col) : Nat :=
  9 + wName ss + wSeg sqrt ss + wRef sqrt ss + (((columns o.withSpk).takeWhile (· ≠ c)).map fun d => wCol sqrt d ss + 1).sum

theorem field_mid {A : Type} (a x b : List A) (n w : Nat) (hn : n = a.length) (hw : w = x.length) : ((a ++ (x ++ b)).drop n).take w = x := by
  subst hn hw
  rw [List.drop_left, List.take_left]

theorem take_split (l : List Col) (c : Col) (h : c ∈ l) : ∃ b, l = l.takeWhile (· ≠ c) ++ c :: b := by
  induction l with
  | nil => exact absurd h (by simp)
  | cons d l ih =>
    by_cases hd : d = c
    · subst hd
      exact ⟨l, by simp⟩
    · obtain ⟨b, hb⟩ := ih (by rcases List.mem_cons.1 h with rfl | h; exact absurd rfl hd; exact h)
      refine ⟨b, ?_⟩
      rw [List.takeWhile_cons_of_pos (by simpa using hd), List.cons_append, ← hb]

theorem sum_succ (f : Col → Nat) (l : List Col) : (l.map fun d => f d + 1).sum = (l.map f).sum + l.length := by
  induction l with
  | nil => rfl
  | cons x l ih => rw [List.map_cons, List.sum_cons, ih, List.map_cons, List.sum_cons, List.length_cons]; omega

/-- The field of a column of words in a row. -/
theorem row_field (sqrt : Rat → Rat) (o : Opt) (ss : List Spk) (j : Just) (name seg ref : Str) (cells : Col → Str) (serr nce : Str) (c : Col) (hc : c ∈ columns o.withSpk) :
    ((rowText sqrt o ss j name seg ref cells serr nce).drop (start sqrt o ss c)).take (wCol sqrt c ss) = place .right (wCol sqrt c ss) (cells c) := by
  obtain ⟨b, hb⟩ := take_split _ c hc
  have h1 := wName_ge ss
  have h2 := wSeg_ge sqrt ss
  have h3 := wRef_ge sqrt ss
  have h4 := wCol_ge sqrt c ss
  have key : ∃ pre post, rowText sqrt o ss j name seg ref cells serr nce = pre ++ (place .right (wCol sqrt c ss) (cells c) ++ post) ∧ start sqrt o ss c = pre.length := by
    refine ⟨"| ".toList ++ place j (wName ss) name ++ " | ".toList ++ place .right (wSeg sqrt ss) seg ++ " ".toList ++ place .right (wRef sqrt ss) ref ++ " | ".toList ++
      (((columns o.withSpk).takeWhile (· ≠ c)).map fun c => place .right (wCol sqrt c ss) (cells c) ++ " ".toList).flatten,
      " ".toList ++ (b.map fun c => place .right (wCol sqrt c ss) (cells c) ++ " ".toList).flatten ++ place .right (wErr sqrt ss) serr ++ " | ".toList ++ place .middle 9 nce ++ " |".toList, ?_, ?_⟩
    · unfold rowText
      have hm : ((columns o.withSpk).map fun c => place .right (wCol sqrt c ss) (cells c) ++ " ".toList).flatten =
          (((columns o.withSpk).takeWhile (· ≠ c)).map fun c => place .right (wCol sqrt c ss) (cells c) ++ " ".toList).flatten ++
            (place .right (wCol sqrt c ss) (cells c) ++ " ".toList ++ (b.map fun c => place .right (wCol sqrt c ss) (cells c) ++ " ".toList).flatten) := by
        conv => lhs; rw [hb]
        rw [List.map_append, List.flatten_append, List.map_cons, List.flatten_cons]
      rw [hm]
      simp only [List.append_assoc]
    · unfold start
      simp only [List.length_append, cells_length]
      rw [place_length _ _ _ (by omega), place_length _ _ _ (by omega), place_length _ _ _ (by omega), sum_succ]
      have e1 : "| ".toList.length = 2 := rfl
      have e2 : " | ".toList.length = 3 := rfl
      have e3 : " ".toList.length = 1 := rfl
      rw [e1, e2, e3]
      omega
  obtain ⟨pre, post, hk, hs⟩ := key
  rw [hk]
  exact field_mid pre _ post _ _ hs (place_length _ _ _ (by omega)).symm

theorem allCells_some {o : Opt} {f : Col → Option Str} {g : Col → Str} (h : allCells o f = some g) (c : Col) (hc : c ∈ columns o.withSpk) : f c = some (g c) := by
  unfold allCells at h
  split at h
  · rename_i ha
    have := List.all_eq_true.1 ha c hc
    obtain ⟨t, ht⟩ := Option.isSome_iff_exists.1 this
    simp only [Option.some.injEq] at h
    rw [← h]
    dsimp only
    rw [ht]
    rfl
  · simp at h

/-! ## Counts -/

theorem num_sum_le {A : Type} (f : A → Nat) (l : List A) (s : A) (h : s ∈ l) : f s ≤ (l.map f).sum := by
  induction l with
  | nil => exact absurd h (by simp)
  | cons x l ih =>
    rw [List.map_cons, List.sum_cons]
    rcases List.mem_cons.1 h with rfl | h
    · omega
    · have := ih h; omega

theorem cast_sum {A : Type} (f : A → Nat) (l : List A) : (l.map fun s => (f s : Rat)).sum = (((l.map f).sum : Nat) : Rat) := by
  induction l with
  | nil => rfl
  | cons x l ih => rw [List.map_cons, List.sum_cons, ih, List.map_cons, List.sum_cons]; norm_cast

theorem statAll_sum (sqrt : Rat → Rat) (f : Spk → Nat) (ss : List Spk) : (statAll sqrt f ss).sum = (((ss.map f).sum : Nat) : Rat) := by
  unfold statAll
  rw [stat_sum, cast_sum]

theorem statAll_size (sqrt : Rat → Rat) (f : Spk → Nat) (ss : List Spk) (h : ss ≠ []) (n : Nat) (hn : n ≤ (ss.map f).sum) : (textN n).length + 1 ≤ (statAll sqrt f ss).size := by
  have h1 := size_sum sqrt (ss.map fun s => (f s : Rat)) (by simpa using h)
  rw [cast_sum] at h1
  have h2 := textN_size n (x := (((ss.map f).sum : Nat) : Rat)) (by exact_mod_cast hn)
  unfold statAll
  omega

theorem countP_four (l : List W) : l.countP (fun w => decide (w.verdict ≠ .insertion)) =
    l.countP (fun w => decide (w.verdict = .correct)) + l.countP (fun w => decide (w.verdict = .substitution)) + l.countP (fun w => decide (w.verdict = .speaker)) +
      l.countP (fun w => decide (w.verdict = .deletion)) := by
  induction l with
  | nil => rfl
  | cons x l ih =>
    rw [List.countP_cons, List.countP_cons, List.countP_cons, List.countP_cons, List.countP_cons, ih]
    obtain ⟨v, c⟩ := x
    cases v <;> simp <;> omega

theorem refWords_eq (s : Spk) : refWords s = num .corr s + num .sub s + num .spk s + num .del s := countP_four s.words

theorem errors_eq (s : Spk) : num .err s = num .sub s + num .spk s + num .del s + num .ins s := by
  unfold num
  dsimp only
  omega

theorem floor_nat (n : Nat) : ((n : Rat)).floor.toNat = n := by
  have : ((n : Rat)) = (((n : Int)) : Rat) := rfl
  rw [this, Rat.floor_intCast]
  rfl

end Verif.SysRep
