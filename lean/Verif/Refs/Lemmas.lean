import Verif.Refs.Model
import Verif.Text.Props
/-!
# Lemmas about the loading of transcripts
-/
set_option autoImplicit false
namespace Verif.Refs
open Verif.Text

theorem bind_ok {A B : Type} {r : Res A} {f : A → Res B} {b : B} (h : r.bind f = .ok b) : ∃ a, r = .ok a ∧ f a = .ok b := by
  cases r with
  | ok a => exact ⟨a, rfl, h⟩
  | exit => cases h
  | undefined => cases h

theorem each_ok {A B : Type} (f : A → Res B) : ∀ (l : List A) (bs : List B), Res.each f l = .ok bs ↔ l.map f = bs.map Res.ok
  | [], bs => by
    unfold Res.each
    constructor
    · intro h; injection h with h; subst h; rfl
    · intro h
      cases bs with
      | nil => rfl
      | cons b bs => cases h
  | a :: l, bs => by
    unfold Res.each
    constructor
    · intro h
      obtain ⟨b, h1, h2⟩ := bind_ok h
      obtain ⟨bs', h3, h4⟩ := bind_ok h2
      injection h4 with h4
      subst h4
      simp [h1, (each_ok f l bs').mp h3]
    · intro h
      cases bs with
      | nil => simp at h
      | cons b bs =>
        simp only [List.map_cons, List.cons.injEq] at h
        rw [h.1, (each_ok f l bs).mpr h.2]
        rfl

/-! ## Finding the first text -/

theorem firstText_nil (h : List Nat) : firstText [] h = none := rfl

theorem firstText_snoc (P : List (List Nat × List Nat)) (r : List Nat × List Nat) (h : List Nat) :
    firstText (P ++ [r]) h = (firstText P h).or (if r.1 = h then some r.2 else none) := by
  unfold firstText
  rw [List.find?_append]
  cases hf : P.find? (fun r => decide (r.1 = h)) with
  | some x => simp
  | none =>
    by_cases hr : r.1 = h
    · simp [List.find?_cons, hr]
    · simp [List.find?_cons, hr]

theorem firstText_mem {P : List (List Nat × List Nat)} {h t : List Nat} (hf : firstText P h = some t) : (h, t) ∈ P := by
  unfold firstText at hf
  rw [Option.map_eq_some_iff] at hf
  obtain ⟨x, h1, h2⟩ := hf
  have hm := List.mem_of_find?_eq_some h1
  have hx := List.find?_some h1
  simp only [decide_eq_true_eq] at hx
  rw [← hx, ← h2]
  exact hm

theorem firstText_none {P : List (List Nat × List Nat)} {h : List Nat} : firstText P h = none ↔ ∀ t, (h, t) ∉ P := by
  unfold firstText
  rw [Option.map_eq_none_iff, List.find?_eq_none]
  constructor
  · intro hh t ht; exact hh _ ht (by simp)
  · intro hh x hx hd
    simp only [decide_eq_true_eq] at hd
    exact hh x.2 (by rw [← hd]; exact hx)

/-- Some identifier has a text that is no beginning of its first one. -/
def Bad (ids : List (List Nat)) (P : List (List Nat × List Nat)) : Prop :=
  ∃ h ∈ ids, ∃ t, firstText P h = some t ∧ ∃ t', (h, t') ∈ P ∧ ¬ t' <+: t

theorem bad_snoc (ids : List (List Nat)) (P : List (List Nat × List Nat)) (r : List Nat × List Nat) :
    Bad ids (P ++ [r]) ↔ Bad ids P ∨ (r.1 ∈ ids ∧ ∃ t, firstText P r.1 = some t ∧ ¬ r.2 <+: t) := by
  constructor
  · rintro ⟨h, hh, t, hf, t', hm, hn⟩
    rw [firstText_snoc] at hf
    cases hp : firstText P h with
    | some t0 =>
      rw [hp] at hf
      simp only [Option.some_or, Option.some.injEq] at hf
      subst hf
      rcases List.mem_append.mp hm with hm | hm
      · exact Or.inl ⟨h, hh, t0, hp, t', hm, hn⟩
      · simp only [List.mem_singleton] at hm
        subst hm
        exact Or.inr ⟨hh, t0, hp, hn⟩
    | none =>
      exfalso
      rcases List.mem_append.mp hm with hm | hm
      · exact firstText_none.mp hp t' hm
      · simp only [List.mem_singleton] at hm
        subst hm
        rw [hp] at hf
        simp only [if_true, Option.none_or, Option.some.injEq] at hf
        subst hf
        exact hn (List.prefix_refl _)
  · rintro (⟨h, hh, t, hf, t', hm, hn⟩ | ⟨hh, t, hf, hn⟩)
    · exact ⟨h, hh, t, by rw [firstText_snoc, hf]; rfl, t', by simp [hm], hn⟩
    · exact ⟨r.1, hh, t, by rw [firstText_snoc, hf]; rfl, r.2, by simp, hn⟩

/-! ## Reading the references -/

/-- A lookup in the sorted identifiers answers, and rightly. -/
theorem lookup_cases (e : Enc) (ids : List (List Nat)) (hv : ∀ x ∈ ids, Valid e x) (hs : SortedBy e ids) (k : List Nat) (hk : Valid e k) :
    (inTextList e ids k = some none ∧ k ∉ ids) ∨ ∃ i, inTextList e ids k = some (some i) ∧ ids[i]? = some k := by
  obtain ⟨r, h1, h2, h3⟩ := lookup_finds_exactly e k ids hk hv hs
  cases r with
  | none => exact Or.inl ⟨h1, h3 rfl⟩
  | some i => exact Or.inr ⟨i, h1, h2 i rfl⟩

structure Inv (e : Enc) (ids : List (List Nat)) (P : List (List Nat × List Nat)) (st : St) : Prop where
  len : st.refset.length = ids.length
  here : ∀ i h, ids[i]? = some h → inTextList e ids h = some (some i) → st.refset[i]? = some (firstText P h)
  there : ∀ i h, ids[i]? = some h → inTextList e ids h ≠ some (some i) → st.refset[i]? = some none
  num : st.num = st.refset.countP (fun o => o.isSome)
  fail : st.failure = true ↔ Bad ids P

theorem countP_set_some (l : List (Option (List Nat))) (i : Nat) (t : List Nat) (h : l[i]? = some none) :
    (l.set i (some t)).countP (fun o => o.isSome) = l.countP (fun o => o.isSome) + 1 := by
  induction l generalizing i with
  | nil => simp at h
  | cons x l ih =>
    cases i with
    | zero => simp at h; subst h; simp
    | succ i =>
      simp only [List.getElem?_cons_succ] at h
      simp only [List.set_cons_succ, List.countP_cons, ih i h]
      omega

theorem addRef_inv (e : Enc) (ids : List (List Nat)) (hv : ∀ x ∈ ids, Valid e x) (hs : SortedBy e ids) (P : List (List Nat × List Nat))
    (st : St) (hi : Inv e ids P st) (r : List Nat × List Nat) (hk : Valid e r.1) :
    ∃ st', addRef e ids st r = .ok st' ∧ Inv e ids (P ++ [r]) st' := by
  unfold addRef
  rcases lookup_cases e ids hv hs r.1 hk with ⟨h1, h2⟩ | ⟨i, h1, h2⟩
  · rw [h1]
    refine ⟨st, rfl, hi.len, ?_, hi.there, hi.num, ?_⟩
    · intro j h hj hp
      rw [hi.here j h hj hp, firstText_snoc]
      have : r.1 ≠ h := fun heq => h2 (heq ▸ List.mem_of_getElem? hj)
      simp [this]
    · rw [bad_snoc, hi.fail]
      constructor
      · exact Or.inl
      · rintro (h | ⟨h, _⟩)
        · exact h
        · exact absurd h h2
  · rw [h1]
    simp only
    have hset := hi.here i r.1 h2 h1
    rw [hset]
    cases hf : firstText P r.1 with
    | some t =>
      simp only
      refine ⟨_, rfl, hi.len, ?_, hi.there, hi.num, ?_⟩
      · intro j h hj hp
        rw [firstText_snoc]
        show st.refset[j]? = _
        rw [hi.here j h hj hp]
        by_cases hr : r.1 = h
        · subst hr; rw [hf]; rfl
        · simp [hr]
      · show (st.failure || decide (t.take r.2.length ≠ r.2)) = true ↔ _
        rw [bad_snoc, Bool.or_eq_true, hi.fail, decide_eq_true_eq]
        have hpre : (t.take r.2.length ≠ r.2) ↔ ¬ r.2 <+: t := by
          rw [List.prefix_iff_eq_take]
          exact ⟨fun h h' => h h'.symm, fun h h' => h h'.symm⟩
        rw [hpre]
        constructor
        · rintro (h | h)
          · exact Or.inl h
          · exact Or.inr ⟨List.mem_of_getElem? h2, t, hf, h⟩
        · rintro (h | ⟨_, t', ht', h⟩)
          · exact Or.inl h
          · rw [hf] at ht'
            injection ht' with ht'
            subst ht'
            exact Or.inr h
    | none =>
      simp only
      refine ⟨_, rfl, ?_, ?_, ?_, ?_, ?_⟩
      · simp [hi.len]
      · intro j h hj hp
        show (st.refset.set i (some r.2))[j]? = _
        rw [firstText_snoc]
        by_cases hij : i = j
        · subst hij
          have : r.1 = h := by rw [h2] at hj; injection hj
          subst this
          rw [List.getElem?_set_self (by rw [hi.len]; exact (List.getElem?_eq_some_iff.mp h2).1), hf]
          simp
        · rw [List.getElem?_set_ne hij, hi.here j h hj hp]
          have : r.1 ≠ h := by
            intro heq
            subst heq
            rw [h1] at hp
            injection hp with hp
            injection hp with hp
            exact hij hp
          simp [this]
      · intro j h hj hp
        show (st.refset.set i (some r.2))[j]? = _
        by_cases hij : i = j
        · subst hij
          have : r.1 = h := by rw [h2] at hj; injection hj
          subst this
          exact absurd h1 hp
        · rw [List.getElem?_set_ne hij]; exact hi.there j h hj hp
      · show st.num + 1 = (st.refset.set i (some r.2)).countP _
        rw [countP_set_some _ _ _ (by rw [hset, hf]), hi.num]
      · show st.failure = true ↔ _
        rw [bad_snoc, hi.fail]
        constructor
        · exact Or.inl
        · rintro (h | ⟨_, t, ht, _⟩)
          · exact h
          · rw [hf] at ht; cases ht

theorem addRefs_inv (e : Enc) (ids : List (List Nat)) (hv : ∀ x ∈ ids, Valid e x) (hs : SortedBy e ids) :
    ∀ (Q P : List (List Nat × List Nat)) (st : St), Inv e ids P st → (∀ r ∈ Q, Valid e r.1) →
      ∃ st', addRefs e ids st Q = .ok st' ∧ Inv e ids (P ++ Q) st'
  | [], P, st, hi, _ => ⟨st, rfl, by simpa using hi⟩
  | r :: Q, P, st, hi, hq => by
    obtain ⟨st1, h1, h2⟩ := addRef_inv e ids hv hs P st hi r (hq r (by simp))
    obtain ⟨st2, h3, h4⟩ := addRefs_inv e ids hv hs Q (P ++ [r]) st1 h2 (fun x hx => hq x (by simp [hx]))
    refine ⟨st2, ?_, by simpa using h4⟩
    unfold addRefs
    rw [h1]
    exact h3

theorem countP_eq_length_iff (l : List (Option (List Nat))) : l.countP (fun o => o.isSome) = l.length ↔ ∀ (i : Nat) (o : Option (List Nat)), l[i]? = some o → o ≠ none := by
  rw [List.countP_eq_length]
  constructor
  · intro h i o ho hn
    have := h o (List.mem_of_getElem? ho)
    rw [hn] at this; cases this
  · intro h o ho
    obtain ⟨i, hi⟩ := List.getElem?_of_mem ho
    have := h i o hi
    cases o with
    | none => exact absurd rfl this
    | some x => rfl

/-- All of the loading. -/
theorem loadRecs_spec (e : Enc) (sort : List (List Nat) → List (List Nat)) (hids : List (List Nat)) (refs : List (List Nat × List Nat))
    (hp : (sort hids).Perm hids) (hsort : SortedBy e (sort hids)) (hv : ∀ x ∈ hids, Valid e x) (hr : ∀ r ∈ refs, Valid e r.1) :
    (∃ st, addRefs e (sort hids) ⟨List.replicate (sort hids).length none, 0, false⟩ refs = .ok st ∧ Inv e (sort hids) refs st ∧
      loadRecs e sort hids refs = if st.num ≠ (sort hids).length ∨ st.failure = true then .exit else .ok (sort hids, st.refset)) ∧
    ((∃ out, loadRecs e sort hids refs = .ok out) ↔
      hids.Nodup ∧ (∀ h ∈ hids, ∃ t, (h, t) ∈ refs) ∧ ∀ h ∈ hids, ∀ t t', firstText refs h = some t → (h, t') ∈ refs → t' <+: t) ∧
    (∀ ids rs, loadRecs e sort hids refs = .ok (ids, rs) → ids = sort hids ∧
      ∀ h ∈ hids, ∃ i t, inTextList e ids h = some (some i) ∧ rs[i]? = some (some t) ∧ firstText refs h = some t) := by
  have hv' : ∀ x ∈ sort hids, Valid e x := fun x hx => hv x (hp.mem_iff.mp hx)
  have hinit : Inv e (sort hids) [] ⟨List.replicate (sort hids).length none, 0, false⟩ := by
    refine ⟨by simp, ?_, ?_, by simp [List.countP_replicate], ?_⟩
    · intro i h hi _
      have := (List.getElem?_eq_some_iff.mp hi).1
      simp [List.getElem?_replicate, this, firstText]
    · intro i h hi _
      have := (List.getElem?_eq_some_iff.mp hi).1
      simp [List.getElem?_replicate, this]
    · constructor
      · intro h; cases h
      · rintro ⟨h, _, t, hf, _⟩; cases hf
  obtain ⟨st, h1, h2⟩ := addRefs_inv e (sort hids) hv' hsort refs [] _ hinit hr
  rw [List.nil_append] at h2
  have heq : loadRecs e sort hids refs = if st.num ≠ (sort hids).length ∨ st.failure = true then .exit else .ok (sort hids, st.refset) := by
    unfold loadRecs
    simp only
    rw [h1]
    rfl
  have hnum : st.num = (sort hids).length ↔ hids.Nodup ∧ ∀ h ∈ hids, ∃ t, (h, t) ∈ refs := by
    rw [h2.num, ← h2.len, countP_eq_length_iff]
    constructor
    · intro hall
      have hpos : ∀ i h, (sort hids)[i]? = some h → inTextList e (sort hids) h = some (some i) := by
        intro i h hi
        apply Classical.byContradiction
        intro hn
        exact hall i none (h2.there i h hi hn) rfl
      constructor
      · rw [← hp.nodup_iff, List.nodup_iff_pairwise_ne, List.pairwise_iff_getElem]
        intro i j hi hj hij he
        have a := hpos i _ (List.getElem?_eq_getElem hi)
        have b := hpos j _ (List.getElem?_eq_getElem hj)
        rw [he, b] at a
        injection a with a
        injection a with a
        omega
      · intro h hh
        obtain ⟨i, hi⟩ := List.getElem?_of_mem (hp.mem_iff.mpr hh)
        have a := h2.here i h hi (hpos i h hi)
        have := hall i _ a
        cases hf : firstText refs h with
        | none => exact absurd hf this
        | some t => exact ⟨t, firstText_mem hf⟩
    · rintro ⟨hnd, hex⟩ i o ho hn
      subst hn
      have hil : i < (sort hids).length := by rw [← h2.len]; exact (List.getElem?_eq_some_iff.mp ho).1
      have hi := List.getElem?_eq_getElem hil
      have hm : (sort hids)[i] ∈ hids := hp.mem_iff.mp (List.getElem_mem hil)
      rcases lookup_cases e (sort hids) hv' hsort _ (hv _ hm) with ⟨_, hno⟩ | ⟨j, hj, hj'⟩
      · exact hno (List.getElem_mem hil)
      · have hij : j = i := by
          have hjl := (List.getElem?_eq_some_iff.mp hj').1
          rw [List.getElem?_eq_getElem hjl] at hj'
          injection hj' with hj'
          exact (List.getElem_inj (hp.nodup_iff.mpr hnd)).mp hj'
        subst hij
        rw [h2.here j _ hi hj] at ho
        injection ho with ho
        obtain ⟨t, ht⟩ := hex _ hm
        exact firstText_none.mp ho t ht
  have hbad : st.failure = true ↔ ¬ ∀ h ∈ hids, ∀ t t', firstText refs h = some t → (h, t') ∈ refs → t' <+: t := by
    rw [h2.fail]
    constructor
    · rintro ⟨h, hh, t, hf, t', hm, hn⟩ hall
      exact hn (hall h (hp.mem_iff.mp hh) t t' hf hm)
    · intro hn
      apply Classical.byContradiction
      intro hb
      apply hn
      intro h hh t t' hf hm
      apply Classical.byContradiction
      intro hpre
      exact hb ⟨h, hp.mem_iff.mpr hh, t, hf, t', hm, hpre⟩
  refine ⟨⟨st, h1, h2, heq⟩, ?_, ?_⟩
  · rw [heq]
    constructor
    · rintro ⟨out, ho⟩
      by_cases hc : st.num ≠ (sort hids).length ∨ st.failure = true
      · rw [if_pos hc] at ho; cases ho
      · have a : st.num = (sort hids).length := Classical.byContradiction fun h => hc (Or.inl h)
        have b : ¬ st.failure = true := fun h => hc (Or.inr h)
        obtain ⟨c, d⟩ := hnum.mp a
        refine ⟨c, d, ?_⟩
        apply Classical.byContradiction
        intro hn
        exact b (hbad.mpr hn)
    · rintro ⟨a, b, c⟩
      refine ⟨_, if_neg ?_⟩
      rintro (h | h)
      · exact h (hnum.mpr ⟨a, b⟩)
      · exact hbad.mp h c
  · intro ids rs ho
    rw [heq] at ho
    by_cases hc : st.num ≠ (sort hids).length ∨ st.failure = true
    · rw [if_pos hc] at ho; cases ho
    · rw [if_neg hc] at ho
      injection ho with ho
      injection ho with e1 e2
      subst e1 e2
      refine ⟨rfl, ?_⟩
      intro h hh
      have a : st.num = (sort hids).length := Classical.byContradiction fun h => hc (Or.inl h)
      obtain ⟨c, d⟩ := hnum.mp a
      rcases lookup_cases e (sort hids) hv' hsort h (hv h hh) with ⟨_, hno⟩ | ⟨i, hi, hi'⟩
      · exact absurd (hp.mem_iff.mpr hh) hno
      · obtain ⟨t, ht⟩ := d h hh
        cases hf : firstText refs h with
        | none => exact absurd ht (firstText_none.mp hf t)
        | some t0 => exact ⟨i, t0, hi, by rw [h2.here i h hi' hi, hf], rfl⟩

end Verif.Refs
