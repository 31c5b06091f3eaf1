import Verif.Detail.Search
/-!
# Counting texts and printing the list
-/
set_option autoImplicit false
namespace Verif.Detail
open Verif.Text

/-! ## Counting -/

structure Counts (lex : Lex) (ws : List (List Nat)) : Prop where
  counts : ∀ (i : Nat) (s : List Nat), lex.str[i]? = some s → lex.cnt[i]? = some (ws.count s)
  mem : ∀ w : List Nat, w ∈ lex.str ↔ w ∈ ws

theorem ok_init (e : Enc) (size : Nat) (h : 0 < size) : Ok e (initLex size) :=
  ⟨List.Perm.refl _, rfl, h, nofun, List.Pairwise.nil⟩

theorem counts_init (size : Nat) : Counts (initLex size) [] := ⟨fun i s h => by simp [initLex] at h, fun w => by simp [initLex]⟩

theorem ok_bump {e : Enc} {lex : Lex} (h : Ok e lex) (i : Nat) : Ok e (bump lex i) :=
  ⟨h.perm, by show (lex.cnt.modify i (· + 1)).length = _; rw [List.length_modify]; exact h.clen, h.max, h.valid, h.sorted⟩

/-- Counting the text with the right number. -/
theorem counts_bump {lex : Lex} {ws : List (List Nat)} (hn : lex.str.Nodup) {k : Nat} {w : List Nat} (hk : lex.str[k]? = some w)
    (hc : ∀ (i : Nat) (s : List Nat), lex.str[i]? = some s → lex.cnt[i]? = some (ws.count s))
    (hm : ∀ v : List Nat, v ∈ lex.str ↔ v ∈ ws ∨ v = w) : Counts (bump lex k) (ws ++ [w]) := by
  refine ⟨?_, ?_⟩
  · intro i s hs
    have hs : lex.str[i]? = some s := hs
    show (lex.cnt.modify k (· + 1))[i]? = _
    rw [List.getElem?_modify, hc i s hs, List.count_append, List.count_singleton]
    by_cases hik : k = i
    · subst hik
      rw [hs] at hk
      cases hk
      simp
    · have : ¬ (w = s) := by
        intro he
        subst he
        obtain ⟨h1, h2⟩ := List.getElem?_eq_some_iff.1 hk
        obtain ⟨h3, h4⟩ := List.getElem?_eq_some_iff.1 hs
        exact hik ((List.getElem_inj hn).1 (h2.trans h4.symm))
      simp [hik, this]
  · intro v
    rw [show (bump lex k).str = lex.str from rfl, hm v]
    simp

theorem count_ok {e : Enc} {lex : Lex} {ws : List (List Nat)} (h : Ok e lex) (hc : Counts lex ws) {w : List Nat} (hw : Valid e w) :
    ∃ lex', count e lex w = some lex' ∧ Ok e lex' ∧ Counts lex' (ws ++ [w]) := by
  obtain ⟨lex', k, h1, h2, h3, h4⟩ := insert_ok h hw
  unfold count
  rw [h1]
  refine ⟨_, rfl, ok_bump h2 k, ?_⟩
  rcases h4 with ⟨m, e1, _, e3⟩ | ⟨m, e1, e2, e3, _⟩
  · refine counts_bump h2.nodup h3 ?_ ?_
    · intro i s hs
      rw [e1] at hs
      rw [e3]
      exact hc.counts i s hs
    · intro v
      rw [e1, hc.mem]
      constructor
      · exact Or.inl
      · rintro (hv | rfl)
        · exact hv
        · exact (hc.mem v).1 m
  · refine counts_bump h2.nodup h3 ?_ ?_
    · intro i s hs
      rw [e1] at hs
      rw [e2]
      by_cases hi : i < lex.str.length
      · rw [List.getElem?_append_left hi] at hs
        rw [List.getElem?_append_left (by rw [h.clen]; exact hi)]
        exact hc.counts i s hs
      · rw [List.getElem?_append_right (by omega)] at hs
        rw [List.getElem?_append_right (by rw [h.clen]; omega)]
        obtain ⟨h5, h6⟩ := List.getElem?_eq_some_iff.1 hs
        simp at h5
        have h7 : i - lex.str.length = 0 := by omega
        simp only [h7] at h6
        simp only [List.getElem_cons_zero] at h6
        rw [h.clen, h7, ← h6, List.count_eq_zero.2 (fun hm => m ((hc.mem w).2 hm))]
        rfl
    · intro v
      rw [e1, List.mem_append, hc.mem, List.mem_singleton]

theorem countAll_ok {e : Enc} : ∀ (vs : List (List Nat)) (lex : Lex) (ws : List (List Nat)), Ok e lex → Counts lex ws →
    (∀ v ∈ vs, Valid e v) → ∃ lex', countAll e lex vs = some lex' ∧ Ok e lex' ∧ Counts lex' (ws ++ vs) := by
  intro vs
  induction vs with
  | nil => intro lex ws h hc _; exact ⟨lex, rfl, h, by simpa using hc⟩
  | cons v vs ih =>
    intro lex ws h hc hv
    obtain ⟨l1, h1, h2, h3⟩ := count_ok h hc (hv v List.mem_cons_self)
    obtain ⟨l2, g1, g2, g3⟩ := ih l1 _ h2 h3 (fun x hx => hv x (List.mem_cons_of_mem _ hx))
    refine ⟨l2, ?_, g2, by simpa using g3⟩
    unfold countAll
    rw [h1]
    exact g1

/-! ## Printing -/

theorem put_perm (x : Nat) (l : List Nat) : (put x l).Perm (x :: l) := by
  induction l with
  | nil => exact List.Perm.refl _
  | cons y l ih =>
    unfold put
    by_cases h : x ≤ y
    · rw [if_pos h]
    · rw [if_neg h]; exact (ih.cons y).trans (List.Perm.swap x y l)

theorem put_sorted (x : Nat) (l : List Nat) (h : l.Pairwise (· ≤ ·)) : (put x l).Pairwise (· ≤ ·) := by
  induction l with
  | nil => exact List.pairwise_singleton _ _
  | cons y l ih =>
    obtain ⟨h1, h2⟩ := List.pairwise_cons.1 h
    unfold put
    by_cases hx : x ≤ y
    · rw [if_pos hx]
      refine List.pairwise_cons.2 ⟨?_, h⟩
      intro z hz
      rcases List.mem_cons.1 hz with rfl | hz
      · exact hx
      · exact Nat.le_trans hx (h1 z hz)
    · rw [if_neg hx]
      refine List.pairwise_cons.2 ⟨?_, ih h2⟩
      intro z hz
      rcases List.mem_cons.1 ((put_perm x l).mem_iff.1 hz) with rfl | hz
      · omega
      · exact h1 z hz

theorem sortNum_perm (l : List Nat) : (sortNum l).Perm l := by
  induction l with
  | nil => exact List.Perm.refl _
  | cons x l ih => exact (put_perm x _).trans (ih.cons x)

theorem sortNum_sorted (l : List Nat) : (sortNum l).Pairwise (· ≤ ·) := by
  induction l with
  | nil => exact List.Pairwise.nil
  | cons x l ih => exact put_sorted x _ ih

theorem mapM_map {α β : Type} (f : α → Option β) (g : α → β) (l : List α) (h : ∀ x ∈ l, f x = some (g x)) : l.mapM f = some (l.map g) := by
  induction l with
  | nil => rfl
  | cons x l ih =>
    rw [List.mapM_cons, h x List.mem_cons_self, ih (fun y hy => h y (List.mem_cons_of_mem _ hy))]
    rfl

theorem getElem?_idxOf {l : List Nat} {x : Nat} (hx : x ∈ l) : l[l.idxOf x]? = some x := by
  have := List.idxOf_lt_length_iff.2 hx
  rw [List.getElem?_eq_getElem this, List.getElem_idxOf this]

theorem idxOf_inj {l : List Nat} {x y : Nat} (hx : x ∈ l) (h : l.idxOf x = l.idxOf y) (hy : y ∈ l) : x = y := by
  have h1 := getElem?_idxOf hx
  have h2 := getElem?_idxOf hy
  rw [h, h2] at h1
  cases h1; rfl

/-- The order of the printed texts. -/
def Before (lex : Lex) (i j : Nat) : Prop := lex.at j < lex.at i ∨ (lex.at i = lex.at j ∧ lex.sort.idxOf i < lex.sort.idxOf j)

theorem secondary_ok (lex : Lex) (hns : lex.sort.Nodup) : ∀ (fuel : Nat) (ptr : List Nat), ptr.length ≤ fuel → ptr.Nodup →
    (∀ i ∈ ptr, i ∈ lex.sort) → (ptr.Pairwise fun i j => lex.at j ≤ lex.at i) →
    ∃ ord, secondary lex fuel ptr = some ord ∧ ord.Perm ptr ∧ ord.Pairwise (Before lex) := by
  intro fuel
  induction fuel with
  | zero =>
    intro ptr hl _ _ _
    cases ptr with
    | nil => exact ⟨[], rfl, List.Perm.refl _, List.Pairwise.nil⟩
    | cons p r => simp at hl
  | succ fuel ih =>
    intro ptr hl hn hm hp
    cases ptr with
    | nil => exact ⟨[], rfl, List.Perm.refl _, List.Pairwise.nil⟩
    | cons p rest =>
      unfold secondary
      dsimp only
      generalize hq : (fun q => decide (lex.at p = lex.at q)) = q
      have hqe : ∀ x, q x = true ↔ lex.at p = lex.at x := by intro x; rw [← hq]; simp
      have hsplit : p :: rest = (p :: rest.takeWhile q) ++ rest.dropWhile q := by
        rw [List.cons_append, List.takeWhile_append_dropWhile]
      generalize hrun : p :: rest.takeWhile q = run at hsplit
      have hrunat : ∀ x ∈ run, lex.at x = lex.at p := by
        intro x hx
        rw [← hrun] at hx
        rcases List.mem_cons.1 hx with rfl | hx
        · rfl
        · have := List.all_takeWhile (p := q) (l := rest)
          exact ((hqe x).1 (List.all_eq_true.1 this x hx)).symm
      rw [hsplit] at hn hm hp
      obtain ⟨n1, n2, n3⟩ := List.nodup_append.1 hn
      obtain ⟨p1, p2, p3⟩ := List.pairwise_append.1 hp
      have hbelow : ∀ x ∈ rest.dropWhile q, lex.at x < lex.at p := by
        intro x hx
        cases hd : rest.dropWhile q with
        | nil => rw [hd] at hx; cases hx
        | cons y l =>
          have hy : q y = false := by
            have hne : rest.dropWhile q ≠ [] := by rw [hd]; simp
            have h0 := List.head_dropWhile_not q hne
            have h1 : (rest.dropWhile q).head hne = y := by simp [hd]
            rw [h1] at h0
            exact h0
          have hy' : lex.at y < lex.at p := by
            have h1 : lex.at p ≠ lex.at y := fun he => by rw [(hqe y).2 he] at hy; cases hy
            have h2 := p3 p (by rw [← hrun]; exact List.mem_cons_self) y (by rw [hd]; exact List.mem_cons_self)
            omega
          rw [hd] at hx p2
          rcases List.mem_cons.1 hx with rfl | hx
          · exact hy'
          · have := (List.pairwise_cons.1 p2).1 x hx
            omega
      have hm1 : run.mapM (fun x => lex.sort.idxOf? x) = some (run.map fun x => lex.sort.idxOf x) := by
        apply mapM_map
        intro x hx
        rw [List.idxOf?_eq_some_iff]
        have hxm := hm x (List.mem_append_left _ hx)
        refine ⟨List.idxOf_lt_length_iff.2 hxm, ?_, ?_⟩
        · exact List.getElem_idxOf _
        · intro j hj hjj
          have hlt := List.idxOf_lt_length_iff.2 hxm
          have h1 := (List.getElem_inj (h₀ := Nat.lt_trans hj hlt) (h₁ := hlt) hns).1 (hjj.trans (List.getElem_idxOf hlt).symm)
          omega
      rw [hm1]
      dsimp only
      generalize his : sortNum (run.map fun x => lex.sort.idxOf x) = is
      have hisp : is.Perm (run.map fun x => lex.sort.idxOf x) := by rw [← his]; exact sortNum_perm _
      have hiss : is.Pairwise (· ≤ ·) := by rw [← his]; exact sortNum_sorted _
      have hlt : ∀ i ∈ is, i < lex.sort.length := by
        intro i hi
        obtain ⟨x, hx, rfl⟩ := List.mem_map.1 (hisp.mem_iff.1 hi)
        exact List.idxOf_lt_length_iff.2 (hm x (List.mem_append_left _ hx))
      have hm2 : is.mapM (fun i => lex.sort[i]?) = some (is.map fun i => lex.sort.getD i 0) := by
        apply mapM_map
        intro i hi
        have := hlt i hi
        simp [this]
      rw [hm2]
      dsimp only
      have hback : (is.map fun i => lex.sort.getD i 0).Perm run := by
        refine (hisp.map _).trans ?_
        rw [List.map_map]
        have : run.map ((fun i => lex.sort.getD i 0) ∘ fun x => lex.sort.idxOf x) = run.map id := by
          apply List.map_congr_left
          intro x hx
          have hxm := hm x (List.mem_append_left _ hx)
          have := getElem?_idxOf hxm
          simp [List.getD_eq_getElem?_getD, this]
        rw [this, List.map_id]
      have hisn : is.Nodup := by
        rw [hisp.nodup_iff]
        refine List.pairwise_map.2 (List.Pairwise.imp_of_mem ?_ n1)
        intro a b ha hb hab he
        exact hab (idxOf_inj (hm a (List.mem_append_left _ ha)) he (hm b (List.mem_append_left _ hb)))
      obtain ⟨ord, o1, o2, o3⟩ := ih (rest.dropWhile q) (by
        have h1 := congrArg List.length hsplit
        have h2 : 0 < run.length := by rw [← hrun]; simp
        rw [List.length_append] at h1
        simp only [List.length_cons] at h1 hl
        omega) n2 (fun i hi => hm i (List.mem_append_right _ hi)) p2
      refine ⟨_, by rw [o1]; rfl, ?_, ?_⟩
      · rw [hsplit]
        exact hback.append o2
      · rw [List.pairwise_append]
        refine ⟨?_, o3, ?_⟩
        · refine List.pairwise_map.2 ?_
          refine List.Pairwise.imp_of_mem ?_ (hiss.and hisn)
          intro a b ha hb hab
          refine Or.inr ⟨?_, ?_⟩
          · rw [hrunat _ (hback.mem_iff.1 (List.mem_map.2 ⟨a, ha, rfl⟩)), hrunat _ (hback.mem_iff.1 (List.mem_map.2 ⟨b, hb, rfl⟩))]
          · have h1 := hlt a ha
            have h2 := hlt b hb
            have ia : lex.sort.idxOf (lex.sort.getD a 0) = a := by
              simp only [List.getD_eq_getElem?_getD, List.getElem?_eq_getElem h1, Option.getD_some]
              exact hns.idxOf_getElem a h1
            have ib : lex.sort.idxOf (lex.sort.getD b 0) = b := by
              simp only [List.getD_eq_getElem?_getD, List.getElem?_eq_getElem h2, Option.getD_some]
              exact hns.idxOf_getElem b h2
            rw [ia, ib]
            have := hab.1
            have := hab.2
            omega
        · intro a ha b hb
          refine Or.inl ?_
          rw [hrunat a (hback.mem_iff.1 ha)]
          exact hbelow b (o2.mem_iff.1 hb)

end Verif.Detail
