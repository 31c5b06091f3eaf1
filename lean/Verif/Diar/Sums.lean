import Verif.Diar.Sweep
/-!
# Sums over segments are sums over instants
-/
set_option autoImplicit false
namespace Verif.Diar

theorem total_succ (lo : Int) (n : Nat) (f : Int → Int) : total lo (n + 1) f = total lo n f + f (lo + n) := by
  unfold total
  rw [List.range_succ, List.map_append, List.sum_append]
  simp

theorem total_add (lo : Int) (n : Nat) (f g : Int → Int) : total lo n (fun x => f x + g x) = total lo n f + total lo n g := by
  induction n with
  | zero => rfl
  | succ n ih => rw [total_succ, total_succ, total_succ, ih]; omega

theorem total_zero (lo : Int) (n : Nat) : total lo n (fun _ => 0) = 0 := by
  induction n with
  | zero => rfl
  | succ n ih => rw [total_succ, ih]; rfl

theorem total_congr (lo : Int) (n : Nat) (f g : Int → Int) (h : ∀ x, f x = g x) : total lo n f = total lo n g := by
  rw [show f = g from funext h]

theorem total_box (lo a b c : Int) (ha : lo ≤ a) (hab : a ≤ b) (n : Nat) :
    total lo n (fun x => if a ≤ x ∧ x < b then c else 0) = (if lo + n ≤ a then 0 else if lo + n ≤ b then (lo + n - a) else b - a) * c := by
  induction n with
  | zero => rw [if_pos (by omega)]; simp [total]
  | succ n ih =>
    rw [total_succ, ih]
    by_cases h1 : lo + n < a
    · rw [if_pos (by omega), if_neg (by omega), if_pos (by omega)]; simp
    · by_cases h2 : lo + n < b
      · rw [if_pos (show a ≤ lo + (n : Int) ∧ lo + (n : Int) < b by omega)]
        have e1 : (if lo + (n : Int) ≤ a then 0 else if lo + (n : Int) ≤ b then (lo + n - a) else b - a) = lo + n - a := by
          by_cases h3 : lo + (n : Int) ≤ a
          · rw [if_pos h3]; omega
          · rw [if_neg h3, if_pos (by omega)]
        have e2 : (if lo + ((n + 1 : Nat) : Int) ≤ a then 0 else if lo + ((n + 1 : Nat) : Int) ≤ b then (lo + ((n + 1 : Nat) : Int) - a) else b - a) = (lo + n - a) + 1 := by
          rw [if_neg (by omega), if_pos (by omega)]; omega
        rw [e1, e2, Int.add_mul]; omega
      · rw [if_neg (show ¬ (a ≤ lo + (n : Int) ∧ lo + (n : Int) < b) by omega)]
        have e1 : (if lo + (n : Int) ≤ a then 0 else if lo + (n : Int) ≤ b then (lo + n - a) else b - a) = b - a := by
          by_cases h3 : lo + (n : Int) ≤ a
          · rw [if_pos h3]; omega
          · rw [if_neg h3]
            by_cases h4 : lo + (n : Int) ≤ b
            · rw [if_pos h4]; omega
            · rw [if_neg h4]
        have e2 : (if lo + ((n + 1 : Nat) : Int) ≤ a then 0 else if lo + ((n + 1 : Nat) : Int) ≤ b then (lo + ((n + 1 : Nat) : Int) - a) else b - a) = b - a := by
          rw [if_neg (by omega), if_neg (by omega)]
        rw [e1, e2]; omega

/-- The contributions of the segments at an instant. -/
def contrib (f : Sg → Int) (l : List Sg) (x : Int) : Int := (l.map (fun g => if g.tb ≤ x ∧ x < g.te then f g else 0)).sum

theorem weigh_cons (f : Sg → Int) (g : Sg) (l : List Sg) : weigh f (g :: l) = (g.te - g.tb) * f g + weigh f l := by
  unfold weigh; rw [List.map_cons, List.sum_cons]

theorem weigh_contrib (f : Sg → Int) (lo : Int) (n : Nat) : ∀ l : List Sg, (∀ g ∈ l, lo ≤ g.tb ∧ g.tb < g.te ∧ g.te ≤ lo + n) →
    weigh f l = total lo n (contrib f l)
  | [], _ => (total_zero lo n).symm
  | g :: l, h => by
    have hg := h g (List.mem_cons_self ..)
    rw [weigh_cons, weigh_contrib f lo n l (fun a ha => h a (List.mem_cons_of_mem _ ha))]
    have : contrib f (g :: l) = fun x => (if g.tb ≤ x ∧ x < g.te then f g else 0) + contrib f l x := by
      funext x; unfold contrib; rw [List.map_cons, List.sum_cons]
    rw [this, total_add, total_box lo g.tb g.te (f g) hg.1 (by omega) n, if_neg (by omega)]
    by_cases h2 : lo + (n : Int) ≤ g.te
    · rw [if_pos h2, show lo + (n : Int) = g.te by omega]
    · rw [if_neg h2]

theorem contrib_none (f : Sg → Int) (l : List Sg) (x : Int) (h : ∀ g ∈ l, ¬ (g.tb ≤ x ∧ x < g.te)) : contrib f l x = 0 := by
  induction l with
  | nil => rfl
  | cons g l ih =>
    have : contrib f (g :: l) x = (if g.tb ≤ x ∧ x < g.te then f g else 0) + contrib f l x := by
      unfold contrib; rw [List.map_cons, List.sum_cons]
    rw [this, if_neg (h g (List.mem_cons_self ..)), ih (fun a ha => h a (List.mem_cons_of_mem _ ha))]
    rfl

theorem contrib_one (f : Sg → Int) (x v : Int) : ∀ l : List Sg, l.Pairwise (fun g h => g.te ≤ h.tb) → (∀ g ∈ l, g.tb < g.te) →
    (∃ g ∈ l, (g.tb ≤ x ∧ x < g.te) ∧ f g = v) → contrib f l x = v
  | [], _, _, h => by obtain ⟨g, hg, _⟩ := h; cases hg
  | g :: l, hp, hpos, h => by
    have hp' := List.pairwise_cons.1 hp
    have : contrib f (g :: l) x = (if g.tb ≤ x ∧ x < g.te then f g else 0) + contrib f l x := by
      unfold contrib; rw [List.map_cons, List.sum_cons]
    rw [this]
    by_cases hx : g.tb ≤ x ∧ x < g.te
    · rw [if_pos hx, contrib_none f l x (fun a ha hax => by have := hp'.1 a ha; omega)]
      obtain ⟨a, ha, hax, hv⟩ := h
      rcases List.mem_cons.1 ha with rfl | ha
      · omega
      · have := hp'.1 a ha; omega
    · rw [if_neg hx]
      obtain ⟨a, ha, hax, hv⟩ := h
      rcases List.mem_cons.1 ha with rfl | ha
      · exact absurd hax hx
      · rw [contrib_one f x v l hp'.2 (fun b hb => hpos b (List.mem_cons_of_mem _ hb)) ⟨a, ha, hax, hv⟩]
        omega

theorem nodup_eraseDups : ∀ (n : Nat) (l : List Nat), l.length ≤ n → l.eraseDups.Nodup
  | _, [], _ => by simp
  | 0, _ :: _, h => by simp at h
  | n + 1, a :: l, h => by
    rw [List.eraseDups_cons, List.nodup_cons]
    refine ⟨fun hm => ?_, nodup_eraseDups n _ (Nat.le_trans (List.length_filter_le ..) (by simpa using h))⟩
    rw [List.mem_eraseDups, List.mem_filter] at hm
    simp at hm

theorem mem_at (l : List Turn) (x : Int) (s : Nat) : s ∈ at_ l x ↔ Speaks l x s := by
  unfold at_ Speaks
  rw [List.mem_eraseDups, List.mem_map]
  constructor
  · rintro ⟨t, ht, hs⟩
    have := List.mem_filter.1 ht
    exact ⟨t, this.1, hs, by simpa using this.2⟩
  · rintro ⟨t, ht, hs, h⟩
    exact ⟨t, List.mem_filter.2 ⟨ht, by simpa using h⟩, hs⟩

theorem at_nodup (l : List Turn) (x : Int) : (at_ l x).Nodup := nodup_eraseDups _ _ (Nat.le_refl _)

/-- A sum over the segments of what depends on the speakers only is the sum over the instants of the partition. -/
theorem weigh_total (sort : List Ev → List Ev) (hs : Sorts endFirst sort) (uem : List (Int × Int)) (ref sys : List Turn)
    (hpos : ∀ u ∈ uem, u.1 < u.2) (hap : Apart uem) (lo : Int) (n : Nat) (hin : ∀ u ∈ uem, lo ≤ u.1 ∧ u.2 ≤ lo + n)
    (F : List Nat → List Nat → Int) (hF : ∀ R R' S S', R.Perm R' → S.Perm S' → F R S = F R' S') :
    weigh (fun g => F g.ref g.sys) (createSegs sort uem ref sys) =
      total lo n (fun x => if Inside uem x then F (at_ ref x) (at_ sys x) else 0) := by
  have ho := sweep_order (sort (segEvents uem ref sys)) ⟨false, 0, [], []⟩ (end_time (hs _).2)
  have inU : ∀ g ∈ createSegs sort uem ref sys, ∀ x, g.tb ≤ x ∧ x < g.te → Inside uem x := by
    intro g hg x hx
    obtain ⟨R, S, _, _, _, _, h⟩ := createSegs_at sort hs uem ref sys hpos hap x
    exact ((h (fun _ _ => True)).1 ⟨g, hg, hx, trivial⟩).1
  rw [weigh_contrib _ lo n]
  · refine total_congr lo n _ _ (fun x => ?_)
    obtain ⟨R, S, nR, nS, mR, mS, h⟩ := createSegs_at sort hs uem ref sys hpos hap x
    by_cases hx : Inside uem x
    · rw [if_pos hx]
      refine contrib_one _ x _ _ ho.2 ho.1 ?_
      have pR : R.Perm (at_ ref x) := (List.perm_ext_iff_of_nodup nR (at_nodup ref x)).2 (fun s => by rw [mR, mem_at])
      have pS : S.Perm (at_ sys x) := (List.perm_ext_iff_of_nodup nS (at_nodup sys x)).2 (fun s => by rw [mS, mem_at])
      exact (h (fun R' S' => F R' S' = F (at_ ref x) (at_ sys x))).2 ⟨hx, hF _ _ _ _ pR pS⟩
    · rw [if_neg hx]
      exact contrib_none _ _ _ (fun g hg hgx => hx (inU g hg x hgx))
  · intro g hg
    have hlt := ho.1 g hg
    obtain ⟨u, hu, h1, h2⟩ := inU g hg g.tb ⟨by omega, hlt⟩
    obtain ⟨u', hu', h1', h2'⟩ := inU g hg (g.te - 1) ⟨by omega, by omega⟩
    have := hin u hu
    have := hin u' hu'
    exact ⟨by omega, hlt, by omega⟩

/-! ## Speakers of the segments -/

theorem seg_speakers (sort : List Ev → List Ev) (hs : Sorts endFirst sort) (uem : List (Int × Int)) (ref sys : List Turn)
    (hpos : ∀ u ∈ uem, u.1 < u.2) (hap : Apart uem) (g : Sg) (hg : g ∈ createSegs sort uem ref sys) :
    g.tb < g.te ∧ g.ref.Nodup ∧ g.sys.Nodup ∧
      ∀ x, g.tb ≤ x ∧ x < g.te → Inside uem x ∧ (∀ s, s ∈ g.ref ↔ Speaks ref x s) ∧ (∀ s, s ∈ g.sys ↔ Speaks sys x s) := by
  have ho := sweep_order (sort (segEvents uem ref sys)) ⟨false, 0, [], []⟩ (end_time (hs _).2)
  have hlt := ho.1 g hg
  have key : ∀ x, g.tb ≤ x ∧ x < g.te → Inside uem x ∧ g.ref.Nodup ∧ g.sys.Nodup ∧ (∀ s, s ∈ g.ref ↔ Speaks ref x s) ∧ (∀ s, s ∈ g.sys ↔ Speaks sys x s) := by
    intro x hx
    obtain ⟨R, S, nR, nS, mR, mS, h⟩ := createSegs_at sort hs uem ref sys hpos hap x
    have := (h (fun R' S' => R' = g.ref ∧ S' = g.sys)).1 ⟨g, hg, hx, rfl, rfl⟩
    obtain ⟨hi, rfl, rfl⟩ := this
    exact ⟨hi, nR, nS, mR, mS⟩
  have h0 := key g.tb ⟨Int.le_refl _, hlt⟩
  exact ⟨hlt, h0.2.1, h0.2.2.1, fun x hx => ⟨(key x hx).1, (key x hx).2.2.2.1, (key x hx).2.2.2.2⟩⟩

/-! ## Mapped speakers -/

/-- The number of speakers of `R` mapped into `S`. -/
def mapped (map : Nat → Option Nat) (R S : List Nat) : Nat := (R.filter (fun r => (map r).any (fun s => S.contains s))).length

theorem mapped_perm (map : Nat → Option Nat) {R R' S S' : List Nat} (hR : R.Perm R') (hS : S.Perm S') : mapped map R S = mapped map R' S' := by
  unfold mapped
  have : (fun r => (map r).any (fun s => S.contains s)) = (fun r => (map r).any (fun s => S'.contains s)) := by
    funext r
    congr 1
    funext s
    rw [Bool.eq_iff_iff, List.contains_iff_mem, List.contains_iff_mem, hS.mem_iff]
  rw [this]
  exact (hR.filter _).length_eq

theorem mapped_le_left (map : Nat → Option Nat) (R S : List Nat) : mapped map R S ≤ R.length := List.length_filter_le ..

theorem nodup_map_on {α β : Type} {f : α → β} {l : List α} (hn : l.Nodup) (hi : ∀ a ∈ l, ∀ b ∈ l, f a = f b → a = b) : (l.map f).Nodup := by
  induction l with
  | nil => simp
  | cons a l ih =>
    have hn' := List.nodup_cons.1 hn
    rw [List.map_cons, List.nodup_cons]
    refine ⟨fun hm => ?_, ih hn'.2 (fun x hx y hy => hi x (List.mem_cons_of_mem _ hx) y (List.mem_cons_of_mem _ hy))⟩
    obtain ⟨b, hb, hbe⟩ := List.mem_map.1 hm
    have := hi a (List.mem_cons_self ..) b (List.mem_cons_of_mem _ hb) hbe.symm
    rw [this] at hn'
    exact hn'.1 hb

/-- The images of the mapped speakers. -/
def images (map : Nat → Option Nat) (R S : List Nat) : List Nat :=
  (R.filter (fun r => (map r).any (fun s => S.contains s))).map (fun r => (map r).getD 0)

theorem images_spec (map : Nat → Option Nat) (h1 : OneToOne map) {R : List Nat} (hR : R.Nodup) (S : List Nat) :
    (images map R S).Nodup ∧ (images map R S).length = mapped map R S ∧
      ∀ s, s ∈ images map R S ↔ s ∈ S ∧ ∃ r ∈ R, map r = some s := by
  refine ⟨nodup_map_on (hR.sublist List.filter_sublist) ?_, by simp [images, mapped], fun s => ?_⟩
  · intro a ha b hb hab
    have ha := (List.mem_filter.1 ha).2
    have hb := (List.mem_filter.1 hb).2
    cases hma : map a with
    | none => rw [hma] at ha; cases ha
    | some s =>
      cases hmb : map b with
      | none => rw [hmb] at hb; cases hb
      | some t =>
        rw [hma, hmb] at hab
        have hst : s = t := hab
        exact h1 a b s hma (by rw [hmb, hst])
  · unfold images
    rw [List.mem_map]
    constructor
    · rintro ⟨r, hr, hs⟩
      have hr := List.mem_filter.1 hr
      cases hm : map r with
      | none => rw [hm] at hr; cases hr.2
      | some t =>
        rw [hm] at hr hs
        have hts : t = s := hs
        subst hts
        exact ⟨by simpa using hr.2, r, hr.1, hm⟩
    · rintro ⟨hs, r, hr, hm⟩
      exact ⟨r, List.mem_filter.2 ⟨hr, by rw [hm]; simpa using hs⟩, by rw [hm]; rfl⟩

theorem mapped_le_right (map : Nat → Option Nat) (h1 : OneToOne map) {R : List Nat} (hR : R.Nodup) (S : List Nat) :
    mapped map R S ≤ S.length := by
  obtain ⟨n, l, m⟩ := images_spec map h1 hR S
  rw [← l]
  exact List.Nodup.length_le_of_subset n (fun s hs => ((m s).1 hs).1)

/-- All are mapped, onto all. -/
theorem mapped_all (map : Nat → Option Nat) (h1 : OneToOne map) {R S : List Nat} (hR : R.Nodup) (hS : S.Nodup) :
    (mapped map R S = R.length ∧ mapped map R S = S.length) ↔
      (∀ r ∈ R, ∃ s ∈ S, map r = some s) ∧ (∀ s ∈ S, ∃ r ∈ R, map r = some s) := by
  obtain ⟨n, l, m⟩ := images_spec map h1 hR S
  have hfilt : mapped map R S = R.length ↔ ∀ r ∈ R, ∃ s ∈ S, map r = some s := by
    unfold mapped
    rw [List.length_filter_eq_length_iff]
    constructor
    · intro h r hr
      have := h r hr
      cases hm : map r with
      | none => rw [hm] at this; cases this
      | some s => rw [hm] at this; exact ⟨s, by simpa using this, rfl⟩
    · intro h r hr
      obtain ⟨s, hs, hm⟩ := h r hr
      rw [hm]; simpa using hs
  have himg : mapped map R S = S.length ↔ ∀ s ∈ S, ∃ r ∈ R, map r = some s := by
    rw [← l]
    constructor
    · intro h s hs
      -- otherwise the images are among the others
      apply Classical.byContradiction
      intro hno
      have hsub : ∀ t ∈ images map R S, t ∈ S.erase s := by
        intro t ht
        rw [hS.mem_erase_iff]
        exact ⟨fun e => hno (by rw [← e]; exact ((m t).1 ht).2), ((m t).1 ht).1⟩
      have h2 := List.Nodup.length_le_of_subset n hsub
      rw [List.length_erase_of_mem hs] at h2
      have := List.length_pos_iff.2 (List.ne_nil_of_mem hs)
      omega
    · intro h
      have h2 := List.Nodup.length_le_of_subset hS (fun s hs => (m s).2 ⟨hs, h s hs⟩)
      have h3 := List.Nodup.length_le_of_subset n (fun s hs => ((m s).1 hs).1)
      omega
  rw [hfilt, himg]

/-! ## Weighted sums -/

theorem weigh_add (f g : Sg → Int) (l : List Sg) : weigh (fun x => f x + g x) l = weigh f l + weigh g l := by
  induction l with
  | nil => rfl
  | cons a l ih => rw [weigh_cons, weigh_cons, weigh_cons, ih, Int.mul_add]; omega

theorem weigh_congr {f g : Sg → Int} {l : List Sg} (h : ∀ a ∈ l, f a = g a) : weigh f l = weigh g l := by
  unfold weigh
  rw [List.map_congr_left (fun a ha => by rw [h a ha])]

theorem weigh_nonneg {f : Sg → Int} {l : List Sg} (h : ∀ a ∈ l, 0 ≤ f a ∧ a.tb < a.te) : 0 ≤ weigh f l := by
  induction l with
  | nil => exact Int.le_refl _
  | cons a l ih =>
    rw [weigh_cons]
    have := h a (List.mem_cons_self ..)
    have h2 := ih (fun b hb => h b (List.mem_cons_of_mem _ hb))
    have : 0 ≤ (a.te - a.tb) * f a := Int.mul_nonneg (by omega) this.1
    omega

theorem weigh_eq_zero {f : Sg → Int} {l : List Sg} (h : ∀ a ∈ l, 0 ≤ f a ∧ a.tb < a.te) : weigh f l = 0 ↔ ∀ a ∈ l, f a = 0 := by
  induction l with
  | nil => simp [weigh]
  | cons a l ih =>
    have ha := h a (List.mem_cons_self ..)
    have hl := fun b hb => h b (List.mem_cons_of_mem a hb)
    have h1 : 0 ≤ (a.te - a.tb) * f a := Int.mul_nonneg (by omega) ha.1
    have h2 := weigh_nonneg hl
    rw [weigh_cons, List.forall_mem_cons, ← ih hl]
    constructor
    · intro h
      have h3 : (a.te - a.tb) * f a = 0 := by omega
      rcases Int.mul_eq_zero.1 h3 with h4 | h4
      · omega
      · exact ⟨h4, by omega⟩
    · rintro ⟨h3, h4⟩
      rw [h3, h4]; simp

end Verif.Diar
