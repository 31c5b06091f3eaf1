import Verif.Sih.Primes
/-!
# Lemmas on the table
-/
set_option autoImplicit false
namespace Verif.Sih

/-- The loop stops at a slot. -/
def Stop (l : List Slot) (s : List Char) (i : Nat) : Prop := ∃ x, l[i]? = some x ∧ (x.str = none ∨ x.str = some s)

theorem find_some {l : List Slot} {s : List Char} {f k i : Nat} (hl : 0 < l.length) (h : find l s f k = some i) :
    ∃ j, j < f ∧ i = (k + j) % l.length ∧ Stop l s i ∧ ∀ j', j' < j → ¬ Stop l s ((k + j') % l.length) := by
  induction f generalizing k with
  | zero => cases h
  | succ f ih =>
    have hlt : k % l.length < l.length := Nat.mod_lt _ hl
    unfold find at h
    dsimp only at h
    rw [List.getElem?_eq_getElem hlt] at h
    dsimp only at h
    cases hx : (l[k % l.length]).str with
    | none =>
      rw [hx] at h
      injection h with h
      exact ⟨0, by omega, by rw [Nat.add_zero, h], ⟨l[k % l.length], by rw [← h]; exact List.getElem?_eq_getElem hlt, .inl hx⟩, fun j' hj => by omega⟩
    | some t =>
      rw [hx] at h
      dsimp only at h
      by_cases e : t = s
      · rw [if_pos (by simpa using e)] at h
        injection h with h
        exact ⟨0, by omega, by rw [Nat.add_zero, h], ⟨l[k % l.length], by rw [← h]; exact List.getElem?_eq_getElem hlt, .inr (by rw [hx, e])⟩,
          fun j' hj => by omega⟩
      · rw [if_neg (by simpa using e)] at h
        obtain ⟨j, h1, h2, h3, h4⟩ := ih h
        have sh : ∀ m, (k % l.length + 1 + m) % l.length = (k + (m + 1)) % l.length := by
          intro m
          rw [Nat.add_assoc, Nat.mod_add_mod, Nat.add_comm 1 m]
        refine ⟨j + 1, by omega, by rw [h2, sh], h3, ?_⟩
        intro j' hj'
        cases j' with
        | zero =>
          rw [Nat.add_zero]
          rintro ⟨x, hx1, hx2⟩
          rw [List.getElem?_eq_getElem hlt] at hx1
          injection hx1 with hx1
          rw [← hx1, hx] at hx2
          rcases hx2 with hx2 | hx2
          · cases hx2
          · injection hx2 with hx2
            exact e hx2
        | succ j' =>
          rw [← sh]
          exact h4 j' (by omega)

theorem find_none {l : List Slot} {s : List Char} {f k : Nat} (hl : 0 < l.length) (h : find l s f k = none) :
    ∀ j, j < f → ¬ Stop l s ((k + j) % l.length) := by
  induction f generalizing k with
  | zero => intro j hj; omega
  | succ f ih =>
    have hlt : k % l.length < l.length := Nat.mod_lt _ hl
    unfold find at h
    dsimp only at h
    rw [List.getElem?_eq_getElem hlt] at h
    dsimp only at h
    cases hx : (l[k % l.length]).str with
    | none =>
      rw [hx] at h
      cases h
    | some t =>
      rw [hx] at h
      dsimp only at h
      by_cases e : t = s
      · rw [if_pos (by simpa using e)] at h
        cases h
      · rw [if_neg (by simpa using e)] at h
        have sh : ∀ m, (k % l.length + 1 + m) % l.length = (k + (m + 1)) % l.length := by
          intro m
          rw [Nat.add_assoc, Nat.mod_add_mod, Nat.add_comm 1 m]
        intro j hj
        cases j with
        | zero =>
          rw [Nat.add_zero]
          rintro ⟨x, hx1, hx2⟩
          rw [List.getElem?_eq_getElem hlt] at hx1
          injection hx1 with hx1
          rw [← hx1, hx] at hx2
          rcases hx2 with hx2 | hx2
          · cases hx2
          · injection hx2 with hx2
            exact e hx2
        | succ j =>
          rw [← sh]
          exact ih h j (by omega)

/-- All slots are reached. -/
theorem reach {n : Nat} (k i : Nat) (hi : i < n) : ∃ j, j < n ∧ (k + j) % n = i := by
  have hk : k % n < n := Nat.mod_lt _ (by omega)
  by_cases h : k % n ≤ i
  · refine ⟨i - k % n, by omega, ?_⟩
    rw [← Nat.mod_add_mod, show k % n + (i - k % n) = i by omega, Nat.mod_eq_of_lt hi]
  · refine ⟨i + n - k % n, by omega, ?_⟩
    rw [← Nat.mod_add_mod, show k % n + (i + n - k % n) = i + n by omega, Nat.add_mod_right, Nat.mod_eq_of_lt hi]

theorem entries_length_le (l : List Slot) : (entries l).length ≤ l.length := List.length_filterMap_le _ _

theorem empty_slot {l : List Slot} (h : (entries l).length < l.length) : ∃ (i : Nat) (x : Slot), l[i]? = some x ∧ x.str = none := by
  induction l with
  | nil => simp [entries] at h
  | cons y l ih =>
    cases hy : y.str with
    | none => exact ⟨0, y, rfl, hy⟩
    | some s =>
      have : (entries (y :: l)).length = (entries l).length + 1 := by simp [entries, hy]
      rw [this, List.length_cons] at h
      obtain ⟨i, x, h1, h2⟩ := ih (by omega)
      exact ⟨i + 1, x, h1, h2⟩

theorem entries_set {l : List Slot} {i : Nat} {x : Slot} (hx : l[i]? = some x) (s : List Char) (v : Int) :
    (entries (l.set i ⟨some s, v⟩)).length = if x.str.isNone then (entries l).length + 1 else (entries l).length := by
  induction l generalizing i with
  | nil => cases hx
  | cons y l ih =>
    cases i with
    | zero =>
      injection hx with hx
      rw [← hx]
      cases hy : y.str <;> simp [entries, hy]
    | succ i =>
      have := ih hx
      cases hy : y.str with
      | none =>
        have e1 : entries ((y :: l).set (i + 1) ⟨some s, v⟩) = entries (l.set i ⟨some s, v⟩) := by simp [entries, hy]
        have e2 : entries (y :: l) = entries l := by simp [entries, hy]
        rw [e1, e2, this]
      | some t =>
        have e1 : entries ((y :: l).set (i + 1) ⟨some s, v⟩) = (t, y.val) :: entries (l.set i ⟨some s, v⟩) := by simp [entries, hy]
        have e2 : entries (y :: l) = (t, y.val) :: entries l := by simp [entries, hy]
        rw [e1, e2, List.length_cons, List.length_cons, this]
        split <;> rfl

/-- The slots say what a dictionary says, and every string is where the loop finds it. -/
structure Good (h : List Char → Nat) (l : List Slot) (m : List Char → Option Int) : Prop where
  path : ∀ (i : Nat) (s : List Char) (v : Int), l[i]? = some ⟨some s, v⟩ → ∃ j, j < l.length ∧ i = (h s + j) % l.length ∧ ∀ j', j' < j → ¬ Stop l s ((h s + j') % l.length)
  says : ∀ (s : List Char) (v : Int), (∃ i : Nat, l[i]? = some ⟨some s, v⟩) ↔ m s = some v
  room : (entries l).length < l.length

theorem Good.unique {h : List Char → Nat} {l : List Slot} {m : List Char → Option Int} (g : Good h l m) {s : List Char} {i i' : Nat} {v v' : Int}
    (h1 : l[i]? = some ⟨some s, v⟩) (h2 : l[i']? = some ⟨some s, v'⟩) : i = i' := by
  obtain ⟨j, _, e, p⟩ := g.path i s v h1
  obtain ⟨j', _, e', p'⟩ := g.path i' s v' h2
  rcases Nat.lt_trichotomy j j' with hlt | heq | hlt
  · exact absurd ⟨_, by rw [← e]; exact h1, .inr rfl⟩ (p' j hlt)
  · rw [e, e', heq]
  · exact absurd ⟨_, by rw [← e']; exact h2, .inr rfl⟩ (p j' hlt)

/-- Where the loop stops. -/
theorem Good.found {h : List Char → Nat} {l : List Slot} {m : List Char → Option Int} (g : Good h l m) (s : List Char) :
    ∃ (i : Nat) (x : Slot), find l s l.length (h s) = some i ∧ l[i]? = some x ∧ (∃ j, j < l.length ∧ i = (h s + j) % l.length ∧ ∀ j', j' < j → ¬ Stop l s ((h s + j') % l.length)) ∧
      ((x.str = none ∧ m s = none) ∨ (x.str = some s ∧ m s = some x.val)) := by
  have hl : 0 < l.length := by have := g.room; omega
  cases hf : find l s l.length (h s) with
  | none =>
    obtain ⟨i, x, hi, hx⟩ := empty_slot g.room
    obtain ⟨j, hj, e⟩ := reach (h s) i (List.getElem?_eq_some_iff.1 hi).1
    exact absurd ⟨x, by rw [e]; exact hi, .inl hx⟩ (find_none hl hf j hj)
  | some i =>
    obtain ⟨j, hj, e, ⟨x, hx, hs⟩, hp⟩ := find_some hl hf
    refine ⟨i, x, rfl, hx, ⟨j, hj, e, hp⟩, ?_⟩
    rcases hs with hs | hs
    · refine .inl ⟨hs, ?_⟩
      cases hm : m s with
      | none => rfl
      | some v =>
        obtain ⟨i', hi'⟩ := (g.says s v).2 hm
        obtain ⟨j', hj', e', hp'⟩ := g.path i' s v hi'
        exfalso
        rcases Nat.lt_trichotomy j j' with hlt | heq | hlt
        · exact hp' j hlt ⟨x, by rw [← e]; exact hx, .inl hs⟩
        · rw [← heq, ← e] at e'
          rw [e', hx] at hi'
          injection hi' with hi'
          rw [hi'] at hs
          cases hs
        · exact hp j' hlt ⟨_, by rw [← e']; exact hi', .inr rfl⟩
    · refine .inr ⟨hs, (g.says s x.val).1 ⟨i, ?_⟩⟩
      rw [hx, ← hs]

theorem insert_good {h : List Char → Nat} {t : Table} {m : List Char → Option Int} (g : Good h t.slots m) (he : t.nentries = (entries t.slots).length)
    (hr : t.nentries + 1 < t.slots.length) (s : List Char) (v : Int) :
    ∃ t', insert h t s v = some t' ∧ Good h t'.slots (said m s v) ∧ t'.nentries = (entries t'.slots).length ∧
      t'.nentries = (if (m s).isNone then t.nentries + 1 else t.nentries) ∧ t'.slots.length = t.slots.length ∧
      t'.on = t.on ∧ t'.od = t.od ∧ t'.gn = t.gn ∧ t'.gd = t.gd := by
  obtain ⟨i, x, hf, hx, ⟨j, hj, e, hp⟩, hs⟩ := g.found s
  have hi := (List.getElem?_eq_some_iff.1 hx).1
  have hn : (x.str.isNone = true) ↔ (m s).isNone = true := by
    rcases hs with ⟨h1, h2⟩ | ⟨h1, h2⟩ <;> rw [h1, h2] <;> simp
  have hent := entries_set hx s v
  have hstop : Stop t.slots s i := ⟨x, hx, by rcases hs with ⟨h1, _⟩ | ⟨h1, _⟩; exact .inl h1; exact .inr h1⟩
  have set_ne : ∀ k, k ≠ i → (t.slots.set i ⟨some s, v⟩)[k]? = t.slots[k]? := fun k hk => List.getElem?_set_ne (fun e => hk e.symm)
  have set_eq : (t.slots.set i ⟨some s, v⟩)[i]? = some ⟨some s, v⟩ := by
    rw [List.getElem?_set_self hi]
  have stop_set : ∀ (u : List Char) (k : Nat), Stop (t.slots.set i ⟨some s, v⟩) u k → Stop t.slots u k := by
    rintro u k ⟨y, hy, hu⟩
    by_cases hk : k = i
    · subst hk
      rw [set_eq] at hy
      injection hy with hy
      rw [← hy] at hu
      rcases hu with hu | hu
      · cases hu
      · injection hu with hu
        rw [← hu]
        exact hstop
    · rw [set_ne k hk] at hy
      exact ⟨y, hy, hu⟩
  have path' : ∀ (i' : Nat) (s' : List Char) (v' : Int), (t.slots.set i ⟨some s, v⟩)[i']? = some ⟨some s', v'⟩ →
      ∃ j, j < (t.slots.set i ⟨some s, v⟩).length ∧ i' = (h s' + j) % (t.slots.set i ⟨some s, v⟩).length ∧
        ∀ j', j' < j → ¬ Stop (t.slots.set i ⟨some s, v⟩) s' ((h s' + j') % (t.slots.set i ⟨some s, v⟩).length) := by
    intro i' s' v' hi'
    rw [List.length_set]
    by_cases hk : i' = i
    · subst hk
      rw [set_eq] at hi'
      injection hi' with hi'
      injection hi' with hs' _
      injection hs' with hs'
      rw [← hs']
      exact ⟨j, hj, e, fun j' hj' hst => hp j' hj' (stop_set s _ hst)⟩
    · rw [set_ne i' hk] at hi'
      obtain ⟨j1, h1, h2, h3⟩ := g.path i' s' v' hi'
      exact ⟨j1, h1, h2, fun j' hj' hst => h3 j' hj' (stop_set s' _ hst)⟩
  have hcount : (if (t.slots[i]?).any (fun x => x.str.isNone) then t.nentries + 1 else t.nentries) = (entries (t.slots.set i ⟨some s, v⟩)).length := by
    rw [hent, hx, Option.any_some, he]
  refine ⟨{ t with
      slots := t.slots.set i ⟨some s, v⟩
      nentries := if (t.slots[i]?).any (fun x => x.str.isNone) then t.nentries + 1 else t.nentries }, ?_, ⟨path', ?_, ?_⟩, hcount, ?_, ?_, rfl, rfl, rfl, rfl⟩
  · unfold insert
    rw [hf]
  · intro u w
    unfold said
    by_cases hu : u = s
    · rw [if_pos hu, hu]
      constructor
      · rintro ⟨i', hi'⟩
        by_cases hk : i' = i
        · rw [hk] at hi'
          change (t.slots.set i ⟨some s, v⟩)[i]? = _ at hi'
          rw [set_eq] at hi'
          injection hi' with hi'
          injection hi' with _ hw
          rw [hw]
        · exfalso
          obtain ⟨j1, _, h2, h3⟩ := path' i' s w hi'
          obtain ⟨j2, _, h2', h3'⟩ := path' i s v set_eq
          rcases Nat.lt_trichotomy j1 j2 with hlt | heq | hlt
          · exact h3' j1 hlt ⟨_, by rw [← h2]; exact hi', .inr rfl⟩
          · rw [heq, ← h2'] at h2
            exact hk h2
          · exact h3 j2 hlt ⟨_, by rw [← h2']; exact set_eq, .inr rfl⟩
      · intro hw
        injection hw with hw
        exact ⟨i, by rw [← hw]; exact set_eq⟩
    · rw [if_neg hu, ← g.says]
      constructor
      · rintro ⟨i', hi'⟩
        by_cases hk : i' = i
        · rw [hk] at hi'
          change (t.slots.set i ⟨some s, v⟩)[i]? = _ at hi'
          rw [set_eq] at hi'
          injection hi' with hi'
          injection hi' with hw _
          injection hw with hw
          exact absurd hw.symm hu
        · refine ⟨i', ?_⟩
          rw [← set_ne i' hk]
          exact hi'
      · rintro ⟨i', hi'⟩
        have hk : i' ≠ i := by
          intro hk
          rw [hk, hx] at hi'
          injection hi' with hi'
          rcases hs with ⟨h1, _⟩ | ⟨h1, _⟩
          · rw [hi'] at h1
            cases h1
          · rw [hi'] at h1
            injection h1 with h1
            exact hu h1
        exact ⟨i', by rw [← hi']; exact set_ne i' hk⟩
  · change (entries (t.slots.set i ⟨some s, v⟩)).length < (t.slots.set i ⟨some s, v⟩).length
    rw [← hcount, List.length_set]
    split <;> omega
  · change (if (t.slots[i]?).any (fun x => x.str.isNone) then t.nentries + 1 else t.nentries) = _
    rw [hx, Option.any_some]
    cases hxn : x.str.isNone <;> cases hmn : (m s).isNone
    · rfl
    · rw [hn.2 hmn] at hxn
      cases hxn
    · rw [hn.1 hxn] at hmn
      cases hmn
    · rfl
  · exact List.length_set

end Verif.Sih
