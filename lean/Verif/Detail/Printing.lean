import Verif.Detail.Counting
/-!
# The printed list
-/
set_option autoImplicit false
namespace Verif.Detail
open Verif.Text

theorem sum_perm {l l' : List Nat} (h : l.Perm l') : l.sum = l'.sum := by
  induction h with
  | nil => rfl
  | cons x _ ih => simp [ih]
  | swap x y l => simp; omega
  | trans _ _ ih1 ih2 => exact ih1.trans ih2

theorem map_at (lex : Lex) (h : lex.cnt.length = lex.str.length) : (List.range lex.str.length).map lex.at = lex.cnt := by
  rw [← h]
  apply List.ext_getElem?
  intro i
  rw [List.getElem?_map]
  unfold Lex.at
  by_cases hi : i < lex.cnt.length
  · rw [List.getElem?_range hi, List.getElem?_eq_getElem hi]
    simp [hi]
  · rw [List.getElem?_eq_none (by simp; omega), List.getElem?_eq_none (by omega)]
    rfl

theorem printout_ok {e : Enc} {lex : Lex} (h : Ok e lex) {ptr : List Nat} (hp : IsSort lex ptr) (hpos : ∀ n ∈ lex.cnt, 0 < n) :
    ∃ (p : Printout) (ord : List Nat), printout lex ptr 1 = some p ∧ ord.Perm (List.range lex.str.length) ∧ ord.Pairwise (Before lex) ∧
      p.lines = ord.map (fun i => (lex.at i, lex.str.getD i [])) ∧ p.total = lex.str.length ∧ p.reaching = lex.str.length ∧
      p.sum = lex.cnt.sum := by
  obtain ⟨hp1, hp2⟩ := hp
  obtain ⟨ord, o1, o2, o3⟩ := secondary_ok lex h.sort_nodup lex.str.length ptr (by simpa using Nat.le_of_eq hp1.length_eq)
    (hp1.nodup_iff.2 List.nodup_range) (fun i hi => h.perm.mem_iff.2 (hp1.mem_iff.1 hi)) hp2
  have ho := o2.trans hp1
  have hat : ∀ i, i < lex.str.length → 1 ≤ lex.at i := by
    intro i hi
    have h1 : i < lex.cnt.length := by rw [h.clen]; exact hi
    unfold Lex.at
    rw [List.getD_eq_getElem?_getD, List.getElem?_eq_getElem h1]
    exact hpos _ (List.getElem_mem h1)
  have hf1 : (ord.filter fun i => decide (1 ≤ lex.at (lex.sort.getD i 0))) = ord := by
    rw [List.filter_eq_self]
    intro i hi
    have h1 : i < lex.sort.length := by rw [h.sort_len]; exact List.mem_range.1 (ho.mem_iff.1 hi)
    rw [List.getD_eq_getElem?_getD, List.getElem?_eq_getElem h1]
    exact decide_eq_true (hat _ (h.lt (List.getElem_mem h1)))
  have hf2 : (lex.sort.filter fun i => decide (1 ≤ lex.at i)) = lex.sort := by
    rw [List.filter_eq_self]
    intro i hi
    exact decide_eq_true (hat _ (h.lt hi))
  unfold printout
  simp only [o1]
  rw [hf1, hf2]
  refine ⟨_, ord, rfl, ho, o3, rfl, rfl, h.sort_len, ?_⟩
  show (ord.map lex.at).sum = lex.cnt.sum
  rw [sum_perm (ho.map lex.at), map_at lex h.clen]

theorem texts_idxOf {e : Enc} {lex : Lex} (h : Ok e lex) {i : Nat} (hi : i < lex.str.length) :
    (texts lex)[lex.sort.idxOf i]? = some (lex.str.getD i []) := by
  unfold texts
  rw [List.getElem?_map, getElem?_idxOf (h.perm.mem_iff.2 (List.mem_range.2 hi))]
  rfl

theorem before_above {e : Enc} {lex : Lex} (h : Ok e lex) {i j : Nat} (hi : i < lex.str.length) (hj : j < lex.str.length)
    (hb : Before lex i j) : Above e (lex.at i, lex.str.getD i []) (lex.at j, lex.str.getD j []) := by
  rcases hb with hb | ⟨h1, h2⟩
  · exact Or.inl hb
  · refine Or.inr ⟨h1, ?_⟩
    obtain ⟨g1, g2⟩ := List.getElem?_eq_some_iff.1 (texts_idxOf h hi)
    obtain ⟨g3, g4⟩ := List.getElem?_eq_some_iff.1 (texts_idxOf h hj)
    have := List.pairwise_iff_getElem.1 h.sorted _ _ g1 g3 h2
    rw [g2, g4] at this
    exact this

theorem sum_indicator (l : List (List Nat)) (w : List Nat) (hn : l.Nodup) (hw : w ∈ l) :
    (l.map fun s => if w = s then 1 else 0).sum = 1 := by
  induction l with
  | nil => cases hw
  | cons x l ih =>
    obtain ⟨h1, h2⟩ := List.nodup_cons.1 hn
    rw [List.map_cons, List.sum_cons]
    by_cases hx : w = x
    · subst hx
      rw [if_pos rfl]
      have : (l.map fun s => if w = s then 1 else 0) = l.map fun _ => 0 := by
        apply List.map_congr_left
        intro s hs
        rw [if_neg (fun he : w = s => h1 (he ▸ hs))]
      rw [this]
      have : ∀ m : List (List Nat), (m.map fun _ => 0).sum = 0 := by intro m; induction m with | nil => rfl | cons _ _ ih => simpa using ih
      rw [this]
    · rw [if_neg hx]
      have := ih h2 ((List.mem_cons.1 hw).resolve_left hx)
      omega

theorem sum_map_add (l : List (List Nat)) (f g : List Nat → Nat) : (l.map fun s => f s + g s).sum = (l.map f).sum + (l.map g).sum := by
  induction l with
  | nil => rfl
  | cons x l ih => simp only [List.map_cons, List.sum_cons, ih]; omega

/-- The counts of the distinct texts add up to the number of occurrences. -/
theorem sum_counts (l ws : List (List Nat)) (hn : l.Nodup) (hm : ∀ w ∈ ws, w ∈ l) : (l.map fun s => ws.count s).sum = ws.length := by
  induction ws with
  | nil =>
    have : ∀ m : List (List Nat), (m.map fun s => List.count s []).sum = 0 := by
      intro m; induction m with | nil => rfl | cons _ _ ih => simpa using ih
    exact this l
  | cons w ws ih =>
    have h1 : (l.map fun s => (w :: ws).count s) = l.map fun s => ws.count s + if w = s then 1 else 0 := by
      apply List.map_congr_left
      intro s _
      rw [List.count_cons]
      by_cases hx : w = s <;> simp [hx]
    rw [h1, sum_map_add, ih (fun v hv => hm v (List.mem_cons_of_mem _ hv)), sum_indicator l w hn (hm w List.mem_cons_self)]
    rfl

theorem counts_cnt {e : Enc} {lex : Lex} {ws : List (List Nat)} (h : Ok e lex) (hc : Counts lex ws) :
    lex.cnt = lex.str.map fun s => ws.count s := by
  apply List.ext_getElem?
  intro i
  rw [List.getElem?_map]
  cases hs : lex.str[i]? with
  | none =>
    rw [List.getElem?_eq_none_iff] at hs
    rw [List.getElem?_eq_none (by rw [h.clen]; exact hs)]
    rfl
  | some s => rw [hc.counts i s hs]; rfl

/-- A list with the right counts is printed as the table of the occurrences. -/
theorem printout_table {e : Enc} {lex : Lex} {ws : List (List Nat)} (h : Ok e lex) (hc : Counts lex ws) {ptr : List Nat}
    (hp : IsSort lex ptr) : ∃ p, printout lex ptr 1 = some p ∧ IsTable e ws p := by
  have hcnt := counts_cnt h hc
  obtain ⟨p, ord, h1, h2, h3, h4, h5, h6, h7⟩ := printout_ok h hp (by
    intro n hn
    rw [hcnt] at hn
    obtain ⟨s, hs, rfl⟩ := List.mem_map.1 hn
    exact List.count_pos_iff.2 ((hc.mem s).1 hs))
  have hlen : p.lines.length = lex.str.length := by rw [h4]; simpa using h2.length_eq
  have hatc : ∀ i, i < lex.str.length → lex.at i = ws.count (lex.str.getD i []) := by
    intro i hi
    unfold Lex.at
    rw [List.getD_eq_getElem?_getD, List.getD_eq_getElem?_getD, hc.counts i lex.str[i] (List.getElem?_eq_getElem hi),
      List.getElem?_eq_getElem hi]
    rfl
  refine ⟨p, h1, ⟨?_, ?_, by rw [h5, hlen], by rw [h6, hlen], ?_⟩⟩
  · intro n w
    rw [h4, List.mem_map]
    constructor
    · rintro ⟨i, hi, he⟩
      cases he
      have hi := List.mem_range.1 (h2.mem_iff.1 hi)
      refine ⟨(hc.mem _).1 ?_, hatc i hi⟩
      rw [List.getD_eq_getElem?_getD, List.getElem?_eq_getElem hi]
      exact List.getElem_mem hi
    · rintro ⟨hw, rfl⟩
      obtain ⟨i, hi, rfl⟩ := List.mem_iff_getElem.1 ((hc.mem w).2 hw)
      refine ⟨i, h2.mem_iff.2 (List.mem_range.2 hi), ?_⟩
      rw [hatc i hi, List.getD_eq_getElem?_getD, List.getElem?_eq_getElem hi]
      rfl
  · rw [h4]
    refine List.pairwise_map.2 (List.Pairwise.imp_of_mem ?_ h3)
    intro a b ha hb hab
    exact before_above h (List.mem_range.1 (h2.mem_iff.1 ha)) (List.mem_range.1 (h2.mem_iff.1 hb)) hab
  · rw [h7, hcnt]
    exact sum_counts lex.str ws h.nodup (fun w hw => (hc.mem w).2 hw)

theorem IsTable.congr {e : Enc} {ws ws' : List (List Nat)} {p : Printout} (h : IsTable e ws p) (hp : ws.Perm ws') : IsTable e ws' p :=
  ⟨fun n w => by rw [h.lines, hp.mem_iff, hp.count_eq], h.order, h.total, h.reaching, by rw [h.sum, hp.length_eq]⟩

theorem table_ok {W : Type} {e : Enc} {qs : Lex → List Nat} (hq : ∀ lex, IsSort lex (qs lex)) (f : Verif.Sgml.Entry W → Option (List Nat))
    (grps : List (Verif.Score.Grp W)) (ws : List (List Nat)) (hws : ((grps.flatMap fun g => g.paths.flatten).filterMap f).Perm ws)
    (hv : ∀ w ∈ ws, Valid e w) : ∃ p, table e qs f grps = some p ∧ IsTable e ws p := by
  obtain ⟨lex, h1, h2, h3⟩ := countAll_ok ((grps.flatMap fun g => g.paths.flatten).filterMap f) (initLex 200) [] (ok_init e 200 (by omega))
    (counts_init 200) (fun v hx => hv v (hws.mem_iff.1 hx))
  rw [List.nil_append] at h3
  obtain ⟨p, g1, g2⟩ := printout_table h2 h3 (hq lex)
  refine ⟨p, ?_, g2.congr hws⟩
  unfold table
  rw [h1]
  exact g1

/-! ## Uniqueness -/

theorem above_asymm {e : Enc} {x y : Nat × List Nat} (hx : Valid e x.2) (hy : Valid e y.2) (h1 : Above e x y) (h2 : Above e y x) : False := by
  rcases h1 with h1 | ⟨h1, l1⟩ <;> rcases h2 with h2 | ⟨h2, l2⟩
  · omega
  · omega
  · omega
  · exact (l1.trans hx hy hx l2).irrefl hx

theorem sorted_unique {α : Type} (R : α → α → Prop) : ∀ (l l' : List α), (∀ x y, x ∈ l → y ∈ l → R x y → R y x → False) → l.Pairwise R →
    l'.Pairwise R → (∀ x, x ∈ l ↔ x ∈ l') → l = l' := by
  intro l
  induction l with
  | nil =>
    intro l' _ _ _ hm
    cases l' with
    | nil => rfl
    | cons y l' => exact absurd ((hm y).2 List.mem_cons_self) List.not_mem_nil
  | cons x l ih =>
    intro l' has hp hp' hm
    cases l' with
    | nil => exact absurd ((hm x).1 List.mem_cons_self) List.not_mem_nil
    | cons y l' =>
      obtain ⟨p1, p2⟩ := List.pairwise_cons.1 hp
      obtain ⟨q1, q2⟩ := List.pairwise_cons.1 hp'
      have hxy : x = y := by
        rcases List.mem_cons.1 ((hm x).1 List.mem_cons_self) with h | h
        · exact h
        · rcases List.mem_cons.1 ((hm y).2 List.mem_cons_self) with h' | h'
          · exact h'.symm
          · exact (has x y List.mem_cons_self (List.mem_cons_of_mem _ h') (p1 y h') (q1 x h)).elim
      subst hxy
      congr 1
      refine ih l' (fun a b ha hb => has a b (List.mem_cons_of_mem _ ha) (List.mem_cons_of_mem _ hb)) p2 q2 ?_
      intro z
      constructor
      · intro hz
        rcases List.mem_cons.1 ((hm z).1 (List.mem_cons_of_mem _ hz)) with h | h
        · subst h
          exact (has z z (List.mem_cons_self) List.mem_cons_self (p1 z hz) (p1 z hz)).elim
        · exact h
      · intro hz
        rcases List.mem_cons.1 ((hm z).2 (List.mem_cons_of_mem _ hz)) with h | h
        · subst h
          exact (has z z (List.mem_cons_self) List.mem_cons_self (q1 z hz) (q1 z hz)).elim
        · exact h

/-! ## All groups together -/

theorem groups_perm {α : Type} : ∀ (names : List (List Nat)) (us : List (List Nat × α)), names.Nodup → (∀ u ∈ us, u.1 ∈ names) →
    (names.flatMap fun n => (us.filter (·.1 = n)).map (·.2)).Perm (us.map (·.2)) := by
  intro names
  induction names with
  | nil =>
    intro us _ h
    cases us with
    | nil => exact List.Perm.refl _
    | cons u us => exact absurd (h u List.mem_cons_self) List.not_mem_nil
  | cons n names ih =>
    intro us hn h
    obtain ⟨h1, h2⟩ := List.nodup_cons.1 hn
    have hperm := (List.filter_append_perm (fun u : List Nat × α => decide (u.1 = n)) us).map (·.2)
    refine List.Perm.trans ?_ hperm
    rw [List.map_append, List.flatMap_cons]
    refine List.Perm.append (List.Perm.refl _) ?_
    refine List.Perm.trans ?_ (ih (us.filter fun u => !decide (u.1 = n)) h2 ?_)
    · refine List.Perm.of_eq ?_
      rw [List.flatMap_def, List.flatMap_def]
      congr 1
      apply List.map_congr_left
      intro m hm
      congr 1
      rw [List.filter_filter]
      apply List.filter_congr
      intro u _
      by_cases hu : u.1 = m
      · have : u.1 ≠ n := fun he => h1 (by rw [← he, hu]; exact hm)
        simp [hu, show m ≠ n from fun he => this (hu.trans he)]
      · simp [hu]
    · intro u hu
      rw [List.mem_filter] at hu
      have hne : u.1 ≠ n := by simpa using hu.2
      exact (List.mem_cons.1 (h u hu.1)).resolve_left hne

end Verif.Detail
