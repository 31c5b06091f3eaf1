import Verif.Diar.Sums
/-!
# The matching: what the check guarantees
-/
set_option autoImplicit false
namespace Verif.Diar

theorem perm_sum {l l' : List Int} (h : l.Perm l') : l.sum = l'.sum := by
  induction h with
  | nil => rfl
  | cons a _ ih => rw [List.sum_cons, List.sum_cons, ih]
  | swap a b l => rw [List.sum_cons, List.sum_cons, List.sum_cons, List.sum_cons]; omega
  | trans _ _ h1 h2 => exact h1.trans h2

theorem sum_add_map {α : Type} (l : List α) (f g : α → Int) : (l.map (fun a => f a + g a)).sum = (l.map f).sum + (l.map g).sum := by
  induction l with
  | nil => rfl
  | cons a l ih => simp only [List.map_cons, List.sum_cons, ih]; omega

theorem sum_le_map {α : Type} {l : List α} {f g : α → Int} (h : ∀ a ∈ l, f a ≤ g a) : (l.map f).sum ≤ (l.map g).sum := by
  induction l with
  | nil => exact Int.le_refl _
  | cons a l ih =>
    simp only [List.map_cons, List.sum_cons]
    have := h a (List.mem_cons_self ..)
    have := ih (fun b hb => h b (List.mem_cons_of_mem _ hb))
    omega

theorem sum_const {α : Type} (l : List α) (c : Int) : (l.map (fun _ => c)).sum = l.length * c := by
  induction l with
  | nil => simp
  | cons a l ih => simp only [List.map_cons, List.sum_cons, ih, List.length_cons, Int.natCast_add, Int.add_mul]; omega

theorem pair_bound (u w : Nat → Int) (B : Int) : ∀ (A C : List Nat), A.length = C.length → (∀ a ∈ A, ∀ c ∈ C, u a + w c ≤ B) →
    (A.map u).sum + (C.map w).sum ≤ A.length * B
  | [], [], _, _ => by simp
  | [], _ :: _, h, _ => by simp at h
  | _ :: _, [], h, _ => by simp at h
  | a :: A, c :: C, hl, h => by
    have ih := pair_bound u w B A C (by simpa using hl) (fun a ha c hc => h a (List.mem_cons_of_mem _ ha) c (List.mem_cons_of_mem _ hc))
    have h0 := h a (List.mem_cons_self ..) c (List.mem_cons_self ..)
    simp only [List.map_cons, List.sum_cons, List.length_cons, Int.natCast_add, Int.add_mul]
    omega

/-- The mates of rows and columns belong together. -/
def Mates (f : Found) (n : Nat) : Prop :=
  (∀ k, k < n → ∀ l, f.colMate k = some l → l < n ∧ f.rowMate l = some k) ∧
  (∀ l, l < n → ∀ k, f.rowMate l = some k → k < n ∧ f.colMate k = some l)

/-- A choice of pairs: no row twice, no column twice. -/
def Pairing (n : Nat) (P : List (Nat × Nat)) : Prop :=
  (P.map Prod.fst).Nodup ∧ (P.map Prod.snd).Nodup ∧ ∀ p ∈ P, p.1 < n ∧ p.2 < n

theorem rest_perm {n : Nat} {P : List Nat} (hn : P.Nodup) (hl : ∀ p ∈ P, p < n) :
    (P ++ (List.range n).filter (fun a => !P.contains a)).Perm (List.range n) := by
  refine (List.perm_ext_iff_of_nodup ?_ List.nodup_range).2 (fun a => ?_)
  · rw [List.nodup_append]
    refine ⟨hn, List.nodup_range.sublist List.filter_sublist, fun a ha b hb hab => ?_⟩
    have := (List.mem_filter.1 hb).2
    rw [← hab] at this
    simp [ha] at this
  · rw [List.mem_append, List.mem_filter, List.mem_range]
    constructor
    · rintro (h | h)
      · exact hl a h
      · exact h.1
    · intro h
      by_cases hm : a ∈ P
      · exact Or.inl hm
      · exact Or.inr ⟨h, by simp [hm]⟩

/-- Weak duality: pairs cannot gain more than the duals allow. -/
theorem dual_bound (n : Nat) (u w : Nat → Int) (B : Int) (c : Nat → Nat → Int) (hc : ∀ k, k < n → ∀ l, l < n → u k + w l ≤ c k l ∧ c k l ≤ B)
    (P : List (Nat × Nat)) (hP : Pairing n P) :
    ((List.range n).map u).sum + ((List.range n).map w).sum ≤ n * B - (P.map (fun p => B - c p.1 p.2)).sum := by
  obtain ⟨h1, h2, h3⟩ := hP
  have r1 := rest_perm h1 (fun p hp => by obtain ⟨q, hq, rfl⟩ := List.mem_map.1 hp; exact (h3 q hq).1)
  have r2 := rest_perm h2 (fun p hp => by obtain ⟨q, hq, rfl⟩ := List.mem_map.1 hp; exact (h3 q hq).2)
  have l1 := r1.length_eq
  have l2 := r2.length_eq
  rw [List.length_append, List.length_map, List.length_range] at l1 l2
  have s1 := perm_sum (r1.map u)
  have s2 := perm_sum (r2.map w)
  rw [List.map_append, List.sum_append, List.map_map] at s1 s2
  have hb := pair_bound u w B _ _ (by omega : ((List.range n).filter (fun a => !(P.map Prod.fst).contains a)).length =
      ((List.range n).filter (fun a => !(P.map Prod.snd).contains a)).length) (fun a ha b hb => by
    have ha := List.mem_range.1 (List.mem_filter.1 ha).1
    have hb := List.mem_range.1 (List.mem_filter.1 hb).1
    have := hc a ha b hb
    omega)
  have hp : (P.map (u ∘ Prod.fst)).sum + (P.map (w ∘ Prod.snd)).sum ≤ P.length * B - (P.map (fun p => B - c p.1 p.2)).sum := by
    rw [← sum_add_map]
    have e : (P.length : Int) * B = (P.map (fun p => c p.1 p.2)).sum + (P.map (fun p => B - c p.1 p.2)).sum := by
      rw [← sum_add_map, ← sum_const]
      congr 1
      exact List.map_congr_left (fun p _ => by omega)
    have le : (P.map (fun p => (u ∘ Prod.fst) p + (w ∘ Prod.snd) p)).sum ≤ (P.map (fun p => c p.1 p.2)).sum :=
      sum_le_map (fun p hp => (hc p.1 (h3 p hp).1 p.2 (h3 p hp).2).1)
    omega
  have e : (n : Int) * B = P.length * B + (((List.range n).filter (fun a => !(P.map Prod.fst).contains a)).length : Int) * B := by
    rw [← Int.add_mul]; congr 1; omega
  omega

theorem foldl_min_le (c : Nat → Int) : ∀ (l : List Nat) (m : Int), (l.foldl (fun m k => min m (c k)) m ≤ m) ∧ ∀ k ∈ l, l.foldl (fun m k => min m (c k)) m ≤ c k
  | [], m => ⟨Int.le_refl _, by simp⟩
  | a :: l, m => by
    have ih := foldl_min_le c l (min m (c a))
    rw [List.foldl_cons]
    refine ⟨by omega, fun k hk => ?_⟩
    rcases List.mem_cons.1 hk with rfl | hk
    · omega
    · exact ih.2 k hk

/-- What a pair gains over no pair. -/
def gain (K M : Int) (ov : Nat → Nat → Option Int) (k l : Nat) : Int := ((ov k l).map (fun o => K * o + M)).getD 0

theorem cell_gain (K M : Int) (ov : Nat → Nat → Option Int) (k l : Nat) : K * M + M - cell K M ov k l = gain K M ov k l := by
  unfold cell gain
  cases ov k l with
  | none => simp
  | some o => simp only [Option.map_some, Option.getD_some, Int.mul_sub]; omega

theorem gain_filter (K M : Int) (ov : Nat → Nat → Option Int) (mate : Nat → Nat) (L : List Nat) :
    (L.map (fun k => gain K M ov k (mate k))).sum =
      (((L.map (fun k => (k, mate k))).filter (fun p => (ov p.1 p.2).isSome)).map (fun p => gain K M ov p.1 p.2)).sum := by
  induction L with
  | nil => rfl
  | cons k L ih =>
    rw [List.map_cons, List.map_cons, List.sum_cons, List.filter_cons, ih]
    by_cases hs : (ov k (mate k)).isSome
    · rw [if_pos hs, List.map_cons, List.sum_cons]
    · rw [if_neg hs]
      have : gain K M ov k (mate k) = 0 := by
        unfold gain
        cases ho : ov k (mate k) with
        | none => rfl
        | some o => rw [ho] at hs; simp at hs
      rw [this]; omega

/-- The pairs handed back after the check form a pairing and gain the most. -/
theorem bgm_optimal (K M : Int) (hK : 0 ≤ K) (hM : 0 ≤ M) (ov : Nat → Nat → Option Int) (hov : ∀ k l o, ov k l = some o → 0 ≤ o)
    (n : Nat) (f : Found) (hf : Mates f n) (R : List (Nat × Nat)) (h : bgm K M ov n f = some R) :
    Pairing n R ∧ (∀ p ∈ R, (ov p.1 p.2).isSome = true) ∧
      ∀ P, Pairing n P → (P.map (fun p => gain K M ov p.1 p.2)).sum ≤ (R.map (fun p => gain K M ov p.1 p.2)).sum := by
  unfold bgm at h
  have hchk : checkResult n (fun k l => cell K M ov k l - colMin K M ov n l) f = true := by
    cases hc : checkResult n (fun k l => cell K M ov k l - colMin K M ov n l) f
    · rw [hc, if_neg (by decide)] at h; cases h
    · rfl
  rw [if_pos hchk] at h
  obtain rfl := Option.some.inj h
  unfold checkResult at hchk
  rw [Bool.and_eq_true, List.all_eq_true, List.all_eq_true] at hchk
  obtain ⟨hd, he⟩ := hchk
  -- mates of the rows
  have hmate : ∀ k, k < n → ∃ l, l < n ∧ f.colMate k = some l ∧ f.rowMate l = some k ∧
      cell K M ov k l - colMin K M ov n l = f.rowDec k - f.colInc l := by
    intro k hk
    have := he k (List.mem_range.2 hk)
    cases hm : f.colMate k with
    | none => rw [hm] at this; cases this
    | some l =>
      rw [hm] at this
      obtain ⟨hl, hr⟩ := hf.1 k hk l hm
      exact ⟨l, hl, rfl, hr, by simpa using this⟩
  let mate : Nat → Nat := fun k => (f.colMate k).getD 0
  have hmate' : ∀ k, k < n → mate k < n ∧ f.rowMate (mate k) = some k ∧
      cell K M ov k (mate k) - colMin K M ov n (mate k) = f.rowDec k - f.colInc (mate k) := by
    intro k hk
    obtain ⟨l, hl, hc, hr, hv⟩ := hmate k hk
    have : mate k = l := by show (f.colMate k).getD 0 = l; rw [hc]; rfl
    rw [this]; exact ⟨hl, hr, hv⟩
  have mnd : ((List.range n).map mate).Nodup := nodup_map_on List.nodup_range (fun a ha b hb hab => by
    have h1 := (hmate' a (List.mem_range.1 ha)).2.1
    have h2 := (hmate' b (List.mem_range.1 hb)).2.1
    rw [hab, h2] at h1
    exact (Option.some.inj h1).symm)
  have mperm : ((List.range n).map mate).Perm (List.range n) := by
    have hsub : ∀ a ∈ (List.range n).map mate, a ∈ List.range n := by
      intro a ha
      obtain ⟨k, hk, rfl⟩ := List.mem_map.1 ha
      exact List.mem_range.2 (hmate' k (List.mem_range.1 hk)).1
    refine (List.perm_ext_iff_of_nodup mnd List.nodup_range).2 (fun a => ⟨hsub a, fun ha => ?_⟩)
    apply Classical.byContradiction
    intro hno
    have h2 : ∀ b ∈ (List.range n).map mate, b ∈ (List.range n).erase a := by
      intro b hb
      rw [List.nodup_range.mem_erase_iff]
      exact ⟨fun e => hno (e ▸ hb), hsub b hb⟩
    have h3 := List.Nodup.length_le_of_subset mnd h2
    rw [List.length_erase_of_mem ha, List.length_map, List.length_range] at h3
    have := List.mem_range.1 ha
    omega
  -- the result
  have mem_R : ∀ k l, (k, l) ∈ matched n ov f ↔ l < n ∧ f.rowMate l = some k ∧ (ov k l).isSome = true := by
    intro k l
    unfold matched
    rw [List.mem_filterMap]
    constructor
    · rintro ⟨l', hl', hb⟩
      cases hr : f.rowMate l' with
      | none => rw [hr] at hb; cases hb
      | some k' =>
        rw [hr, Option.bind_some] at hb
        split at hb
        · rename_i hs
          obtain ⟨rfl, rfl⟩ := Prod.mk.inj (Option.some.inj hb)
          exact ⟨List.mem_range.1 hl', hr, hs⟩
        · cases hb
    · rintro ⟨hl, hr, hs⟩
      exact ⟨l, List.mem_range.2 hl, by rw [hr, Option.bind_some, if_pos hs]⟩
  have Rsnd : ((matched n ov f).map Prod.snd).Nodup := by
    have : ((matched n ov f).map Prod.snd) = (List.range n).filter (fun l => ((f.rowMate l).bind (fun k => if (ov k l).isSome then some (k, l) else none)).isSome) := by
      unfold matched
      generalize List.range n = L
      induction L with
      | nil => rfl
      | cons l L ih =>
        rw [List.filterMap_cons, List.filter_cons]
        cases hr : f.rowMate l with
        | none => simpa [hr] using ih
        | some k =>
          by_cases hs : (ov k l).isSome
          · simp [hr, hs]; simpa using ih
          · simp [hr, hs]; simpa using ih
    rw [this]
    exact List.nodup_range.sublist List.filter_sublist
  have Rnd : (matched n ov f).Nodup := by
    have := Rsnd
    unfold List.Nodup at this ⊢
    rw [List.pairwise_map] at this
    exact this.imp (fun h e => h (by rw [e]))
  have Rp : Pairing n (matched n ov f) := by
    refine ⟨nodup_map_on Rnd (fun a ha b hb hab => ?_), Rsnd, fun p hp => ?_⟩
    · have h1 := (mem_R a.1 a.2).1 ha
      have h2 := (mem_R b.1 b.2).1 hb
      have c1 := (hf.2 a.2 h1.1 a.1 h1.2.1).2
      have c2 := (hf.2 b.2 h2.1 b.1 h2.2.1).2
      rw [hab, c2] at c1
      exact Prod.ext hab (Option.some.inj c1).symm
    · have h1 := (mem_R p.1 p.2).1 hp
      exact ⟨(hf.2 p.2 h1.1 p.1 h1.2.1).1, h1.1⟩
  refine ⟨Rp, fun p hp => ((mem_R p.1 p.2).1 hp).2.2, fun P hP => ?_⟩
  have hB : ∀ k l, cell K M ov k l ≤ K * M + M := by
    intro k l
    have := cell_gain K M ov k l
    have hg : 0 ≤ gain K M ov k l := by
      unfold gain
      cases ho : ov k l with
      | none => exact Int.le_refl _
      | some o =>
        have h1 : 0 ≤ K * o := Int.mul_nonneg hK (hov k l o ho)
        show 0 ≤ K * o + M
        omega
    omega
  have bound := dual_bound n f.rowDec (fun l => colMin K M ov n l - f.colInc l) (K * M + M) (cell K M ov) (fun k hk l hl => by
    have h1 := List.all_eq_true.1 (hd k (List.mem_range.2 hk)) l (List.mem_range.2 hl)
    have h1 : f.rowDec k - f.colInc l ≤ cell K M ov k l - colMin K M ov n l := by simpa using h1
    exact ⟨by omega, hB k l⟩) P hP
  -- with equality for the mates
  have eq1 : ((List.range n).map f.rowDec).sum + ((List.range n).map (fun l => colMin K M ov n l - f.colInc l)).sum =
      ((List.range n).map (fun k => cell K M ov k (mate k))).sum := by
    rw [← perm_sum (mperm.map (fun l => colMin K M ov n l - f.colInc l)), List.map_map, ← sum_add_map]
    congr 1
    refine List.map_congr_left (fun k hk => ?_)
    have := (hmate' k (List.mem_range.1 hk)).2.2
    show f.rowDec k + (colMin K M ov n (mate k) - f.colInc (mate k)) = _
    omega
  have eq2 : ((List.range n).map (fun k => cell K M ov k (mate k))).sum = n * (K * M + M) - ((List.range n).map (fun k => gain K M ov k (mate k))).sum := by
    have : ((List.range n).map (fun k => cell K M ov k (mate k))).sum + ((List.range n).map (fun k => gain K M ov k (mate k))).sum = n * (K * M + M) := by
      rw [← sum_add_map]
      have := sum_const (List.range n) (K * M + M)
      rw [List.length_range] at this
      rw [← this]
      congr 1
      refine List.map_congr_left (fun k _ => ?_)
      have := cell_gain K M ov k (mate k)
      omega
    omega
  have eq3 : ((List.range n).map (fun k => gain K M ov k (mate k))).sum = ((matched n ov f).map (fun p => gain K M ov p.1 p.2)).sum := by
    have hperm : (((List.range n).map (fun k => (k, mate k))).filter (fun p => (ov p.1 p.2).isSome)).Perm (matched n ov f) := by
      refine (List.perm_ext_iff_of_nodup ?_ Rnd).2 (fun p => ?_)
      · refine List.Nodup.sublist List.filter_sublist (nodup_map_on List.nodup_range (fun a _ b _ hab => (Prod.mk.inj hab).1))
      · rw [List.mem_filter, List.mem_map]
        obtain ⟨k, l⟩ := p
        rw [mem_R k l]
        constructor
        · rintro ⟨⟨k', hk', he'⟩, hs⟩
          obtain ⟨rfl, rfl⟩ := Prod.mk.inj he'
          have := hmate' k' (List.mem_range.1 hk')
          exact ⟨this.1, this.2.1, hs⟩
        · rintro ⟨hl, hr, hs⟩
          have := hf.2 l hl k hr
          refine ⟨⟨k, List.mem_range.2 this.1, ?_⟩, hs⟩
          have hm : mate k = l := by show (f.colMate k).getD 0 = l; rw [this.2]; rfl
          rw [hm]
    rw [← perm_sum (hperm.map (fun p => gain K M ov p.1 p.2))]
    exact gain_filter K M ov mate (List.range n)
  have eq4 : (P.map (fun p => gain K M ov p.1 p.2)).sum = (P.map (fun p => K * M + M - cell K M ov p.1 p.2)).sum := by
    congr 1
    exact List.map_congr_left (fun p _ => (cell_gain K M ov p.1 p.2).symm)
  rw [eq4]
  omega

end Verif.Diar
