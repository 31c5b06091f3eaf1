import Verif.Store.Lemmas
set_option autoImplicit false
namespace Verif.Store
open Verif.Scorer

/-! ### One token -/

theorem get_add_same {t : TA} {k : Str} {h : Option Token} (hg : t.get k = none) : (t.add k h).get k = some h := by
  unfold TA.add
  rw [hg]
  have hk : ¬ k = refKey := by
    intro e
    unfold TA.get at hg
    rw [if_pos e] at hg; cases hg
  unfold TA.get
  rw [if_neg hk]
  simp

theorem add_ref (t : TA) (k : Str) (h : Option Token) : (t.add k h).ref = t.ref := by
  unfold TA.add
  cases t.get k <;> rfl

theorem get_add_other {t : TA} {k k' : Str} {h : Option Token} (hk : k' ≠ k) :
    (t.add k h).get k' = t.get k' := by
  unfold TA.add
  cases t.get k with
  | some x => rfl
  | none =>
    unfold TA.get
    by_cases e : k' = refKey
    · rw [if_pos e, if_pos e]
    · rw [if_neg e, if_neg e]
      simp [Ne.symm hk]

theorem get_new {r : Option Token} {k : Str} (hk : k ≠ refKey) : (TA.mk r []).get k = none := by
  unfold TA.get
  rw [if_neg hk]; rfl

/-! ### The tokens of a segment -/

theorem rowsOfToks_put_same {k : Str} (hk : k ≠ refKey) (r h : Option Token) : ∀ (ts : List TA),
    (∀ t, r = some t → ∀ p ∈ rowsOfToks k ts, p.1 ≠ some t) →
    (rowsOfToks k (putTok ts r k h)).Perm ((r, h) :: rowsOfToks k ts) := by
  intro ts
  induction ts with
  | nil =>
    intro _
    unfold putTok rowsOfToks
    simp [get_add_same (get_new hk), add_ref]
  | cons t ts ih =>
    intro hno
    unfold putTok
    by_cases c : r.isSome ∧ t.ref = r
    · rw [if_pos c]
      obtain ⟨c1, c2⟩ := c
      have hg : t.get k = none := by
        cases hg : t.get k with
        | none => rfl
        | some x =>
          cases r with
          | none => cases c1
          | some r =>
            exfalso
            refine hno r rfl (t.ref, x) ?_ c2
            unfold rowsOfToks
            rw [List.mem_filterMap]
            exact ⟨t, by simp, by rw [hg]; rfl⟩
      unfold rowsOfToks
      rw [List.filterMap_cons, List.filterMap_cons, get_add_same hg, hg, add_ref, c2]
      exact .refl _
    · rw [if_neg c]
      have hsub : ∀ t', r = some t' → ∀ p ∈ rowsOfToks k ts, p.1 ≠ some t' := by
        intro t' e p hp
        refine hno t' e p ?_
        unfold rowsOfToks at hp ⊢
        rw [List.filterMap_cons]
        cases (t.get k).map (fun h => (t.ref, h)) with
        | none => exact hp
        | some x => exact List.mem_cons_of_mem _ hp
      have := ih hsub
      unfold rowsOfToks at this ⊢
      rw [List.filterMap_cons, List.filterMap_cons]
      cases (t.get k).map (fun h => (t.ref, h)) with
      | none => exact this
      | some x => exact (List.Perm.cons x this).trans (List.Perm.swap _ _ _)

theorem rowsOfToks_put_other {k k' : Str} (hk : k' ≠ refKey) (hkk : k' ≠ k) (r h : Option Token) : ∀ (ts : List TA),
    rowsOfToks k' (putTok ts r k h) = rowsOfToks k' ts := by
  intro ts
  induction ts with
  | nil =>
    unfold putTok rowsOfToks
    simp [get_add_other hkk, get_new hk]
  | cons t ts ih =>
    unfold putTok
    by_cases c : r.isSome ∧ t.ref = r
    · rw [if_pos c]
      unfold rowsOfToks
      rw [List.filterMap_cons, List.filterMap_cons, get_add_other hkk, add_ref]
    · rw [if_neg c]
      unfold rowsOfToks at ih ⊢
      rw [List.filterMap_cons, List.filterMap_cons, ih]

/-! ### Segments and speeches -/

/-- Rows of some aligned segments. -/
def rowsSegs (k : Str) (as : List ASeg) : List Row :=
  as.flatMap fun a => (rowsOfToks k a.toks).map fun p => (a.seg, p)

theorem rowsOf_eq (k : Str) (A : Alignment) : rowsOf k A = A.flatMap fun p => rowsSegs k p.segs := by
  unfold rowsOf segsOf rowsSegs
  rw [List.flatMap_assoc]

/-- The aligned segments after an update whose effect on the tokens is to add the pairs `y`. -/
theorem rowsSegs_putSeg {k : Str} {s : Seg} {f : List TA → List TA} {y : List Pair} : ∀ (as : List ASeg),
    (∀ ts, (∀ p ∈ rowsOfToks k ts, (s, p) ∈ rowsSegs k as) →
      (rowsOfToks k (f ts)).Perm (y ++ rowsOfToks k ts)) →
    (rowsSegs k (putSeg as s f)).Perm (y.map (fun p => (s, p)) ++ rowsSegs k as) := by
  intro as
  induction as with
  | nil =>
    intro hf
    have := hf [] (by simp [rowsOfToks])
    unfold putSeg rowsSegs
    simp only [List.flatMap_cons, List.flatMap_nil, List.append_nil]
    have h2 := this.map (fun p => (s, p))
    simpa [rowsOfToks] using h2
  | cons a as ih =>
    intro hf
    unfold putSeg
    by_cases c : a.seg = s
    · rw [if_pos c]
      have := hf a.toks (fun p hp => by
        unfold rowsSegs
        rw [List.flatMap_cons]
        exact List.mem_append_left _ (List.mem_map.2 ⟨p, hp, by rw [c]⟩))
      unfold rowsSegs
      rw [List.flatMap_cons, List.flatMap_cons, c]
      have h2 := (this.map (fun p => (s, p))).append_right
        (as.flatMap fun a => (rowsOfToks k a.toks).map fun p => (a.seg, p))
      rw [List.map_append, List.append_assoc] at h2
      exact h2
    · rw [if_neg c]
      have := ih (fun ts ht => hf ts (fun p hp => by
        unfold rowsSegs
        rw [List.flatMap_cons]
        exact List.mem_append_right _ (ht p hp)))
      unfold rowsSegs at this ⊢
      rw [List.flatMap_cons, List.flatMap_cons]
      refine (List.Perm.append_left _ this).trans ?_
      rw [← List.append_assoc, ← List.append_assoc]
      exact List.Perm.append_right _ List.perm_append_comm

theorem rowsOf_putSpeech {k : Str} {p : Nat} {f : List ASeg → List ASeg} {y : List Row} : ∀ (A : Alignment),
    (∀ as, (∀ w ∈ rowsSegs k as, w ∈ rowsOf k A) → (rowsSegs k (f as)).Perm (y ++ rowsSegs k as)) →
    (rowsOf k (putSpeech A p f)).Perm (y ++ rowsOf k A) := by
  intro A
  induction A with
  | nil =>
    intro hf
    have := hf [] (by simp [rowsSegs])
    rw [rowsOf_eq, rowsOf_eq]
    unfold putSpeech
    simpa [rowsSegs] using this
  | cons a A ih =>
    intro hf
    unfold putSpeech
    by_cases c : a.speech = p
    · rw [if_pos c]
      have := hf a.segs (fun w hw => by
        rw [rowsOf_eq, List.flatMap_cons]
        exact List.mem_append_left _ hw)
      rw [rowsOf_eq, rowsOf_eq, List.flatMap_cons, List.flatMap_cons, ← List.append_assoc]
      exact this.append_right _
    · rw [if_neg c]
      have := ih (fun as ht => hf as (fun w hw => by
        have := ht w hw
        rw [rowsOf_eq] at this ⊢
        rw [List.flatMap_cons]
        exact List.mem_append_right _ this))
      rw [rowsOf_eq] at this ⊢
      rw [rowsOf_eq] at this ⊢
      rw [List.flatMap_cons, List.flatMap_cons]
      refine (List.Perm.append_left _ this).trans ?_
      rw [← List.append_assoc, ← List.append_assoc]
      exact List.Perm.append_right _ List.perm_append_comm

/-- Storing a pair adds one row for that system, if the reference word has no entry yet. -/
theorem rowsOf_storeAt_same {k : Str} (hk : k ≠ refKey) (A : Alignment) (s : Seg) (r h : Option Token)
    (hno : ∀ t, r = some t → ∀ w ∈ rowsOf k A, w.2.1 ≠ some t) :
    (rowsOf k (storeAt A s r k h)).Perm ((s, r, h) :: rowsOf k A) := by
  unfold storeAt
  refine rowsOf_putSpeech (y := [(s, r, h)]) A ?_
  intro as has
  refine rowsSegs_putSeg (y := [(r, h)]) as ?_
  intro ts hts
  refine rowsOfToks_put_same hk r h ts ?_
  intro t e p hp
  exact hno t e (s, p) (has _ (hts p hp))

/-- The rows of other systems stay. -/
theorem rowsOf_storeAt_other {k k' : Str} (hk : k' ≠ refKey) (hkk : k' ≠ k) (A : Alignment) (s : Seg)
    (r h : Option Token) : (rowsOf k' (storeAt A s r k h)).Perm (rowsOf k' A) := by
  unfold storeAt
  refine rowsOf_putSpeech (y := []) A ?_
  intro as _
  refine rowsSegs_putSeg (y := []) as ?_
  intro ts _
  rw [rowsOfToks_put_other hk hkk]
  exact .refl _

theorem rowsOf_touchAt (k : Str) (A : Alignment) (s : Seg) : (rowsOf k (touchAt A s)).Perm (rowsOf k A) := by
  unfold touchAt
  refine rowsOf_putSpeech (y := []) A ?_
  intro as _
  refine rowsSegs_putSeg (y := []) as ?_
  intro ts _
  exact .refl _

theorem rowsOf_touch (k : Str) : ∀ (ss : List Seg) (A : Alignment), (rowsOf k (ss.foldl touchAt A)).Perm (rowsOf k A) := by
  intro ss
  induction ss with
  | nil => intro A; exact .refl _
  | cons s ss ih => intro A; exact (ih _).trans (rowsOf_touchAt k A s)

end Verif.Store
