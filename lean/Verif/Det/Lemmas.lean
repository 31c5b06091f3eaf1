import Verif.Det.Spec
/-!
# Lemmas on curves and histograms
-/
set_option autoImplicit false
namespace Verif.Det
open Verif.Sgml (Entry)

/-! ## Sorting -/

theorem insertR_perm (x : Rat) (l : List Rat) : (insertR x l).Perm (x :: l) := by
  induction l with
  | nil => exact List.Perm.refl _
  | cons y l ih =>
    unfold insertR
    by_cases h : x ≤ y
    · rw [if_pos h]
    · rw [if_neg h]
      exact (List.Perm.cons y ih).trans (List.Perm.swap x y l)

theorem sortR_perm (l : List Rat) : (sortR l).Perm l := by
  induction l with
  | nil => exact List.Perm.refl _
  | cons x l ih => exact (insertR_perm x (sortR l)).trans (List.Perm.cons x ih)

theorem insertR_sorted (x : Rat) (l : List Rat) (h : l.Pairwise (· ≤ ·)) : (insertR x l).Pairwise (· ≤ ·) := by
  induction l with
  | nil => simp [insertR]
  | cons y l ih =>
    rw [List.pairwise_cons] at h
    unfold insertR
    by_cases hxy : x ≤ y
    · rw [if_pos hxy, List.pairwise_cons, List.pairwise_cons]
      refine ⟨?_, h⟩
      intro z hz
      rcases List.mem_cons.1 hz with rfl | hz
      · exact hxy
      · exact Rat.le_trans hxy (h.1 z hz)
    · rw [if_neg hxy, List.pairwise_cons]
      refine ⟨?_, ih h.2⟩
      intro z hz
      rcases List.mem_cons.1 ((insertR_perm x l).mem_iff.1 hz) with rfl | hz
      · rcases Rat.le_total (a := y) (b := z) with h1 | h1
        · exact h1
        · exact absurd h1 hxy
      · exact h.1 z hz

theorem sortR_sorted (l : List Rat) : (sortR l).Pairwise (· ≤ ·) := by
  induction l with
  | nil => exact List.Pairwise.nil
  | cons x l ih => exact insertR_sorted x _ ih

theorem sortR_length (l : List Rat) : (sortR l).length = l.length := (sortR_perm l).length_eq

theorem sorted_get {s : List Rat} (hs : s.Pairwise (· ≤ ·)) {i j : Nat} (hij : i ≤ j) (hj : j < s.length) : s[i]'(by omega) ≤ s[j] := by
  by_cases h : i = j
  · subst h; exact Rat.le_refl
  · exact List.pairwise_iff_getElem.1 hs i j (by omega) hj (by omega)

theorem cells_get (a : Arr) (i : Nat) (h : i < a.used.length) : (cells a)[i]? = some (some ((sortR a.used)[i]'(by rw [sortR_length]; exact h))) := by
  unfold cells
  rw [List.getElem?_append_left (by simp [sortR_length, h]), List.getElem?_map, List.getElem?_eq_getElem (by rw [sortR_length]; exact h)]
  rfl

theorem cells_last (a : Arr) : (cells a)[a.used.length]? = some none := by
  unfold cells
  rw [List.getElem?_append_right (by simp [sortR_length])]
  simp [sortR_length]

/-! ## Counting in sorted lists -/

theorem countP_le_of_tail (p : Rat → Bool) : ∀ (s : List Rat) (k : Nat), (∀ (i : Nat) (h : i < s.length), k ≤ i → p s[i] = false) → s.countP p ≤ k := by
  intro s
  induction s with
  | nil => intro k _; simp
  | cons x s ih =>
    intro k h
    rw [List.countP_cons]
    cases k with
    | zero =>
      have h0 := h 0 (by simp) (by omega)
      have := ih 0 (fun i hi _ => h (i + 1) (by simp; omega) (by omega))
      simp only [List.getElem_cons_zero] at h0
      rw [h0]
      simpa using this
    | succ k =>
      have := ih k (fun i hi hk => h (i + 1) (by simp; omega) (by omega))
      by_cases hx : p x = true
      · rw [if_pos hx]; omega
      · rw [if_neg hx]; omega

theorem le_countP_of_init (p : Rat → Bool) : ∀ (s : List Rat) (k : Nat), k ≤ s.length → (∀ (i : Nat) (h : i < s.length), i < k → p s[i] = true) → k ≤ s.countP p := by
  intro s
  induction s with
  | nil => intro k hk _; simpa using hk
  | cons x s ih =>
    intro k hk h
    cases k with
    | zero => omega
    | succ k =>
      have h0 := h 0 (by simp) (by omega)
      have := ih k (by simpa using hk) (fun i hi hk => h (i + 1) (by simp; omega) (by omega))
      simp only [List.getElem_cons_zero] at h0
      rw [List.countP_cons, if_pos h0]
      omega

theorem le_countP_of_middle (p : Rat → Bool) (s : List Rat) (k : Nat) (hk : k ≤ s.length) (h1 : 1 ≤ k)
    (h : ∀ (i : Nat) (h : i < s.length), 1 ≤ i → i < k → p s[i] = true) : k - 1 ≤ s.countP p := by
  cases s with
  | nil => simp at hk; omega
  | cons x s =>
    have := le_countP_of_init p s (k - 1) (by simp at hk; omega) (fun i hi hk' => by
      have := h (i + 1) (by simp; omega) (by omega) (by omega)
      simpa using this)
    rw [List.countP_cons]
    omega

/-! ## The loop -/

/-- A threshold between what has been passed and what has not. -/
structure Cut (T F : List Rat) (θ : Rat) (nt nf : Nat) : Prop where
  t1 : ∀ (i : Nat) (h : i < T.length), 1 ≤ i → i < nt → T[i] ≤ θ
  t2 : ∀ (i : Nat) (h : i < T.length), nt ≤ i → θ ≤ T[i]
  f1 : ∀ (i : Nat) (h : i < F.length), 1 ≤ i → i < nf → F[i] ≤ θ
  f2 : ∀ (i : Nat) (h : i < F.length), nf ≤ i → θ ≤ F[i]

theorem Cut.near {T F : List Rat} {θ : Rat} {nt nf : Nat} (h : Cut T F θ nt nf) (hn : 1 ≤ nt) (hn' : nt ≤ T.length) (hm : 1 ≤ nf) (hm' : nf ≤ F.length) :
    NearThreshold T F θ (nt - 1) (nf - 1) := by
  refine ⟨⟨?_, ?_⟩, ?_, ?_⟩
  · have := countP_le_of_tail (fun x => decide (x < θ)) T nt (fun i hi hk => decide_eq_false (Rat.not_lt.2 (h.t2 i hi hk)))
    omega
  · exact le_countP_of_middle _ T nt hn' hn (fun i hi h1 hk => decide_eq_true (h.t1 i hi h1 hk))
  · have := countP_le_of_tail (fun x => decide (x < θ)) F nf (fun i hi hk => decide_eq_false (Rat.not_lt.2 (h.f2 i hi hk)))
    omega
  · exact le_countP_of_middle _ F nf hm' hm (fun i hi h1 hk => decide_eq_true (h.f1 i hi h1 hk))

theorem NearThreshold.perm {T T' F F' : List Rat} (hT : T.Perm T') (hF : F.Perm F') {θ : Rat} {a b : Nat} (h : NearThreshold T F θ a b) :
    NearThreshold T' F' θ a b := by
  unfold NearThreshold at h ⊢
  rw [← hT.countP_eq, ← hT.countP_eq, ← hF.countP_eq, ← hF.countP_eq]
  exact h

theorem exists_low (l : List Rat) : ∃ θ : Rat, ∀ x ∈ l, θ ≤ x := by
  induction l with
  | nil => exact ⟨0, nofun⟩
  | cons y l ih =>
    obtain ⟨θ, h⟩ := ih
    rcases Rat.le_total (a := θ) (b := y) with hy | hy
    · exact ⟨θ, fun x hx => by rcases List.mem_cons.1 hx with rfl | hx; exact hy; exact h x hx⟩
    · exact ⟨y, fun x hx => by
        rcases List.mem_cons.1 hx with rfl | hx
        · exact Rat.le_refl
        · exact Rat.le_trans hy (h x hx)⟩

theorem rocLoop_ok (t f : Arr) : ∀ (fuel nt nf npts : Nat) (θ : Rat), 1 ≤ nt → nt ≤ t.used.length → 1 ≤ nf → nf ≤ f.used.length →
    npts + 2 = nt + nf → t.used.length + f.used.length + 1 ≤ fuel + nt + nf → Cut (sortR t.used) (sortR f.used) θ nt nf →
    ∃ ab : List (Nat × Nat), rocLoop (cells t) (cells f) t.used.length f.used.length (t.used.length + f.used.length) fuel nt nf npts =
        some (ab.map fun p => Pt.frac p.1 ((f.used.length : Int) - p.2)) ∧
      ab.length + nt + nf = t.used.length + f.used.length ∧
      (∀ (i : Nat) (p : Nat × Nat), ab[i]? = some p → p.1 + p.2 + 1 = nt + nf + i ∧ nt ≤ p.1 + 1 ∧ nf ≤ p.2 + 1 ∧
        ∃ θ, NearThreshold (sortR t.used) (sortR f.used) θ p.1 p.2) ∧
      ab.Pairwise fun p q => p.1 ≤ q.1 ∧ p.2 ≤ q.2 := by
  intro fuel
  induction fuel with
  | zero => intro nt nf npts θ h1 h2 h3 h4 h5 h6; omega
  | succ fuel ih =>
    intro nt nf npts θ h1 h2 h3 h4 h5 h6 hc
    rw [rocLoop]
    by_cases hend : ¬ (nt < t.used.length ∨ nf < f.used.length)
    · rw [if_pos hend]
      exact ⟨[], rfl, by simp; omega, nofun, List.Pairwise.nil⟩
    · rw [if_neg hend]
      have hTs := sortR_sorted t.used
      have hFs := sortR_sorted f.used
      have hTl := sortR_length t.used
      have hFl := sortR_length f.used
      have hrows : npts + 1 < t.used.length + f.used.length := by omega
      -- the two ways to go on
      have goT : ∀ (hnt : nt < t.used.length), (∀ (j : Nat) (hj : j < (sortR f.used).length), nf ≤ j → (sortR t.used)[nt]'(by omega) ≤ (sortR f.used)[j]) →
          ∃ ab : List (Nat × Nat), ((rocLoop (cells t) (cells f) t.used.length f.used.length (t.used.length + f.used.length) fuel (nt + 1) nf (npts + 1)).map
              fun r => Pt.frac nt ((f.used.length : Int) - ((nf : Int) - 1)) :: r) = some (ab.map fun p => Pt.frac p.1 ((f.used.length : Int) - p.2)) ∧
            ab.length + nt + nf = t.used.length + f.used.length ∧
            (∀ (i : Nat) (p : Nat × Nat), ab[i]? = some p → p.1 + p.2 + 1 = nt + nf + i ∧ nt ≤ p.1 + 1 ∧ nf ≤ p.2 + 1 ∧
              ∃ θ, NearThreshold (sortR t.used) (sortR f.used) θ p.1 p.2) ∧
            ab.Pairwise fun p q => p.1 ≤ q.1 ∧ p.2 ≤ q.2 := by
        intro hnt hle
        have hcut : Cut (sortR t.used) (sortR f.used) ((sortR t.used)[nt]'(by omega)) (nt + 1) nf := by
          refine ⟨?_, ?_, ?_, hle⟩
          · intro i hi _ hk; exact sorted_get hTs (by omega) (by omega)
          · intro i hi hk; exact sorted_get hTs (by omega) hi
          · intro i hi h1' hk; exact Rat.le_trans (hc.f1 i hi h1' hk) (hc.t2 nt (by omega) (Nat.le_refl _))
        obtain ⟨ab, e1, e2, e3, e4⟩ := ih (nt + 1) nf (npts + 1) _ (by omega) (by omega) h3 h4 (by omega) (by omega) hcut
        rw [e1]
        refine ⟨(nt, nf - 1) :: ab, ?_, by simp; omega, ?_, ?_⟩
        · rw [Option.map_some, List.map_cons, show ((f.used.length : Int) - ((nf : Int) - 1)) = (f.used.length : Int) - ((nf - 1 : Nat) : Int) by omega]
        · intro i p hp
          cases i with
          | zero =>
            have : (nt, nf - 1) = p := by simpa using hp
            subst this
            refine ⟨by dsimp only; omega, by dsimp only; omega, by dsimp only; omega, _, hcut.near (by omega) (by omega) h3 (by omega)⟩
          | succ i =>
            obtain ⟨a1, a2, a3, a4⟩ := e3 i p (by simpa using hp)
            exact ⟨by omega, by omega, a3, a4⟩
        · rw [List.pairwise_cons]
          refine ⟨?_, e4⟩
          intro q hq
          obtain ⟨i, hi⟩ := List.mem_iff_getElem?.1 hq
          obtain ⟨_, a2, a3, _⟩ := e3 i q hi
          exact ⟨by show nt ≤ q.1; omega, by show nf - 1 ≤ q.2; omega⟩
      have goF : ∀ (hnf : nf < f.used.length), (∀ (j : Nat) (hj : j < (sortR t.used).length), nt ≤ j → (sortR f.used)[nf]'(by omega) ≤ (sortR t.used)[j]) →
          ∃ ab : List (Nat × Nat), ((rocLoop (cells t) (cells f) t.used.length f.used.length (t.used.length + f.used.length) fuel nt (nf + 1) (npts + 1)).map
              fun r => Pt.frac ((nt : Int) - 1) ((f.used.length : Int) - nf) :: r) = some (ab.map fun p => Pt.frac p.1 ((f.used.length : Int) - p.2)) ∧
            ab.length + nt + nf = t.used.length + f.used.length ∧
            (∀ (i : Nat) (p : Nat × Nat), ab[i]? = some p → p.1 + p.2 + 1 = nt + nf + i ∧ nt ≤ p.1 + 1 ∧ nf ≤ p.2 + 1 ∧
              ∃ θ, NearThreshold (sortR t.used) (sortR f.used) θ p.1 p.2) ∧
            ab.Pairwise fun p q => p.1 ≤ q.1 ∧ p.2 ≤ q.2 := by
        intro hnf hle
        have hcut : Cut (sortR t.used) (sortR f.used) ((sortR f.used)[nf]'(by omega)) nt (nf + 1) := by
          refine ⟨?_, hle, ?_, ?_⟩
          · intro i hi h1' hk; exact Rat.le_trans (hc.t1 i hi h1' hk) (hc.f2 nf (by omega) (Nat.le_refl _))
          · intro i hi _ hk; exact sorted_get hFs (by omega) (by omega)
          · intro i hi hk; exact sorted_get hFs (by omega) hi
        obtain ⟨ab, e1, e2, e3, e4⟩ := ih nt (nf + 1) (npts + 1) _ h1 h2 (by omega) (by omega) (by omega) (by omega) hcut
        rw [e1]
        refine ⟨(nt - 1, nf) :: ab, ?_, by simp; omega, ?_, ?_⟩
        · rw [Option.map_some, List.map_cons, show ((nt : Int) - 1) = ((nt - 1 : Nat) : Int) by omega]
        · intro i p hp
          cases i with
          | zero =>
            have : (nt - 1, nf) = p := by simpa using hp
            subst this
            refine ⟨by dsimp only; omega, by dsimp only; omega, by dsimp only; omega, _, hcut.near h1 (by omega) (by omega) (by omega)⟩
          | succ i =>
            obtain ⟨a1, a2, a3, a4⟩ := e3 i p (by simpa using hp)
            exact ⟨by omega, a2, by omega, a4⟩
        · rw [List.pairwise_cons]
          refine ⟨?_, e4⟩
          intro q hq
          obtain ⟨i, hi⟩ := List.mem_iff_getElem?.1 hq
          obtain ⟨_, a2, a3, _⟩ := e3 i q hi
          exact ⟨by show nt - 1 ≤ q.1; omega, by show nf ≤ q.2; omega⟩
      by_cases hnt : nt < t.used.length
      · rw [cells_get t nt hnt]
        by_cases hnf : nf < f.used.length
        · rw [cells_get f nf hnf]
          dsimp only
          rw [if_pos hrows]
          by_cases hle : (sortR t.used)[nt]'(by omega) ≤ (sortR f.used)[nf]'(by omega)
          · rw [if_pos ⟨decide_eq_true hle, hnt⟩]
            exact goT hnt (fun j hj hk => Rat.le_trans hle (sorted_get hFs hk hj))
          · rw [if_neg (fun h => hle (of_decide_eq_true h.1))]
            refine goF hnf (fun j hj hk => Rat.le_trans ?_ (sorted_get hTs hk hj))
            exact Rat.le_of_lt (Rat.not_le.1 hle)
        · have : nf = f.used.length := by omega
          rw [show (cells f)[nf]? = some none by rw [this]; exact cells_last f]
          dsimp only
          rw [if_pos hrows, if_pos ⟨rfl, hnt⟩]
          exact goT hnt (fun j hj hk => by omega)
      · have hnte : nt = t.used.length := by omega
        have hnf : nf < f.used.length := by omega
        rw [cells_get f nf hnf, show (cells t)[nt]? = some none by rw [hnte]; exact cells_last t]
        dsimp only
        rw [if_pos hrows, if_neg (fun h => hnt h.2)]
        exact goF hnf (fun j hj hk => by omega)

/-! ## Filling the arrays -/

theorem fill_used (xs : List Rat) : ∀ a : Arr, (a.fill xs).used = a.used ++ xs := by
  induction xs with
  | nil => intro a; simp [Arr.fill]
  | cons x xs ih =>
    intro a
    have := ih (a.push x)
    unfold Arr.fill at this ⊢
    rw [List.foldl_cons, this]
    simp [Arr.push]

/-- The size of the array. -/
structure Sized (b : Nat) (a : Arr) : Prop where
  fits : a.used.length ≤ a.max
  pow : ∃ k, a.max = b * 2 ^ k
  tight : a.max = b ∨ a.max < 2 * a.used.length

theorem push_sized {b : Nat} (hb : 0 < b) {a : Arr} (h : Sized b a) (x : Rat) : Sized b (a.push x) := by
  have hpos : 0 < a.max := by
    obtain ⟨k, hk⟩ := h.pow
    rw [hk]
    exact Nat.mul_pos hb (Nat.two_pow_pos k)
  have hl : (a.push x).used.length = a.used.length + 1 := by simp [Arr.push]
  by_cases hm : a.max ≤ a.used.length
  · have : (a.push x).max = a.max * 2 := by unfold Arr.push; exact if_pos hm
    refine ⟨by have := h.fits; omega, ?_, ?_⟩
    · obtain ⟨k, hk⟩ := h.pow
      exact ⟨k + 1, by rw [this, hk, Nat.pow_succ, Nat.mul_assoc]⟩
    · right; have := h.fits; omega
  · have : (a.push x).max = a.max := by unfold Arr.push; exact if_neg hm
    refine ⟨by omega, by rw [this]; exact h.pow, ?_⟩
    rcases h.tight with ht | ht
    · left; omega
    · right; omega

theorem fill_sized {b : Nat} (hb : 0 < b) (xs : List Rat) : ∀ {a : Arr}, Sized b a → Sized b (a.fill xs) := by
  induction xs with
  | nil => intro a h; exact h
  | cons x xs ih => intro a h; exact ih (push_sized hb h x)

theorem fresh_sized (b : Nat) : Sized b (fresh 0 b) := ⟨by simp [fresh], ⟨0, by simp [fresh]⟩, Or.inl rfl⟩

/-! ## Histograms -/

theorem hyps_eq {W : Type} (conf : W → Rat) (isNull : W → Bool) (es : List (Entry W)) : hyps conf isNull es = es.filterMap (heard conf isNull) := by
  induction es with
  | nil => rfl
  | cons e es ih =>
    cases e with
    | del a => rw [hyps, ih, List.filterMap_cons]; rfl
    | ins b => by_cases h : isNull b = true <;> simp [hyps, heard, ih, h]
    | pair ev a b => by_cases h : isNull b = true <;> simp [hyps, heard, ih, h]

theorem trunc_nonneg {q : Rat} (h : 0 ≤ q) : trunc q = q.floor := by
  unfold trunc
  rw [if_neg (Rat.not_lt.2 h)]

theorem floor_eq_iff (q : Rat) (i : Int) : q.floor = i ↔ (i : Rat) ≤ q ∧ q < (i : Rat) + 1 := by
  constructor
  · rintro rfl
    refine ⟨Rat.floor_le q, ?_⟩
    have : q.floor < q.floor + 1 := by omega
    rw [Rat.floor_lt_iff] at this
    grind
  · rintro ⟨h1, h2⟩
    have a : q.floor < i + 1 := by rw [Rat.floor_lt_iff]; grind
    have b : ¬ q.floor < i := by rw [Rat.floor_lt_iff]; exact Rat.not_lt.2 h1
    omega

theorem bin_nonneg (nbin : Nat) (hb : 0 < nbin) (c : Rat) (hc : 0 ≤ c) (i : Nat) : bin nbin c = some i ↔ InBin nbin i c := by
  have hbq : (0 : Rat) < nbin := by exact_mod_cast hb
  have hd : 0 ≤ c * nbin := Rat.mul_nonneg hc (Rat.le_of_lt hbq)
  unfold bin
  dsimp only
  rw [trunc_nonneg hd]
  have hf : 0 ≤ (c * nbin).floor := by
    have : ¬ (c * nbin).floor < 0 := by rw [Rat.floor_lt_iff]; exact Rat.not_lt.2 hd
    omega
  have hone : c * nbin ≤ nbin ∧ (c * nbin).floor = (nbin : Int) ↔ c = 1 := by
    constructor
    · rintro ⟨h1, h2⟩
      have h3 := ((floor_eq_iff _ _).1 h2).1
      have h3 : (nbin : Rat) ≤ c * nbin := by exact_mod_cast h3
      have h4 : c * nbin = 1 * nbin := by grind
      have hne : (nbin : Rat) ≠ 0 := by grind
      have h5 : c * nbin / nbin = 1 * nbin / nbin := by rw [h4]
      rw [Rat.mul_div_cancel hne, Rat.mul_div_cancel hne] at h5
      exact h5
    · rintro rfl
      rw [Rat.one_mul]
      exact ⟨Rat.le_refl, by exact_mod_cast Rat.floor_intCast (nbin : Int)⟩
  by_cases h1 : c = 1
  · rw [if_pos (hone.2 h1), if_neg (by omega)]
    subst h1
    unfold InBin
    rw [Rat.one_mul]
    constructor
    · intro h
      have h : ((nbin : Int) - 1).toNat = i := Option.some.inj h
      have hi : i + 1 = nbin := by omega
      refine ⟨by omega, ?_, Or.inr ⟨rfl, hi⟩⟩
      exact_mod_cast (by omega : i ≤ nbin)
    · rintro ⟨h1, _, h | ⟨_, h⟩⟩
      · have : nbin < i + 1 := by exact_mod_cast h
        omega
      · rw [show ((nbin : Int) - 1).toNat = i by omega]
  · rw [if_neg (fun h => h1 (hone.1 h))]
    unfold InBin
    by_cases hr : (c * nbin).floor < 0 ∨ (nbin : Int) ≤ (c * nbin).floor
    · rw [if_pos hr]
      constructor
      · intro h; cases h
      · rintro ⟨h2, h3, h4 | h4⟩
        · have : (c * nbin).floor = (i : Int) := (floor_eq_iff _ _).2 ⟨by exact_mod_cast h3, by exact_mod_cast h4⟩
          omega
        · exact absurd h4.1 h1
    · rw [if_neg hr]
      constructor
      · intro h
        have h : ((c * nbin).floor).toNat = i := Option.some.inj h
        have : (c * nbin).floor = (i : Int) := by omega
        obtain ⟨a, b⟩ := (floor_eq_iff _ _).1 this
        exact ⟨by omega, by exact_mod_cast a, Or.inl (by exact_mod_cast b)⟩
      · rintro ⟨h2, h3, h4 | h4⟩
        · have : (c * nbin).floor = (i : Int) := (floor_eq_iff _ _).2 ⟨by exact_mod_cast h3, by exact_mod_cast h4⟩
          rw [this]; rfl
        · exact absurd h4.1 h1

end Verif.Det
