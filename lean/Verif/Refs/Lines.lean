import Verif.Refs.Lemmas
import Verif.Lines.Props
/-!
# Lemmas about identifiers and lines
-/
set_option autoImplicit false
namespace Verif.Refs
open Verif.Text

instance : DecidablePred NoUtterance := fun l => by unfold NoUtterance; infer_instance

theorem skipLine_iff (l : List Nat) : skipLine l = true ↔ NoUtterance l := by
  unfold skipLine NoUtterance
  rw [Bool.or_eq_true, Bool.or_eq_true, List.prefix_iff_eq_take, List.prefix_iff_eq_take, List.all_eq_true]
  simp only [List.length_cons, List.length_nil, beq_iff_eq, Lines.isSpace, Bool.or_eq_true, Bool.and_eq_true, decide_eq_true_eq]
  constructor
  · rintro ((h | h) | h)
    · exact Or.inl h.symm
    · exact Or.inr (Or.inl h.symm)
    · exact Or.inr (Or.inr h)
  · rintro (h | h | h)
    · exact Or.inl (Or.inl h.symm)
    · exact Or.inl (Or.inr h.symm)
    · exact Or.inr h

/-- For a file that ends with a newline, all lines but comments and empty ones get through. -/
theorem deliver_all (ls : List (List Nat)) (h : ∀ l ∈ ls, l.getLast? = some 10) :
    deliver ls = ls.filter (fun l => decide (¬ NoUtterance l)) := by
  induction ls with
  | nil => rfl
  | cons l ls ih =>
    unfold deliver
    rw [if_pos (h l (by simp)), List.filter_cons, ih (fun x hx => h x (by simp [hx]))]
    by_cases hs : skipLine l = true
    · rw [if_pos hs, if_neg (by simp [(skipLine_iff l).mp hs])]
    · have : ¬ NoUtterance l := fun hn => hs ((skipLine_iff l).mpr hn)
      rw [if_neg hs, if_pos (by simp [this])]

theorem deliver_sub (ls : List (List Nat)) : (deliver ls).Sublist (ls.filter (fun l => decide (¬ NoUtterance l))) := by
  induction ls with
  | nil => exact List.Sublist.refl _
  | cons l ls ih =>
    unfold deliver
    rw [List.filter_cons]
    by_cases hn : l.getLast? = some 10
    · rw [if_pos hn]
      by_cases hs : skipLine l = true
      · rw [if_pos hs, if_neg (by simp [(skipLine_iff l).mp hs])]; exact ih
      · have : ¬ NoUtterance l := fun hn => hs ((skipLine_iff l).mpr hn)
        rw [if_neg hs, if_pos (by simp [this])]
        exact ih.cons_cons l
    · rw [if_neg hn]; exact List.nil_sublist _

theorem isLines_newline {s : List Nat} {ls : List (List Nat)} (h : Lines.IsLines s ls) (hn : s = [] ∨ s.getLast? = some 10) :
    ∀ l ∈ ls, l.getLast? = some 10 := by
  induction h with
  | nil => simp
  | @last l h1 h2 =>
    intro x hx
    simp only [List.mem_singleton] at hx
    subst hx
    rcases hn with hn | hn
    · exact absurd hn h1
    · exact absurd (List.mem_of_getLast? hn) h2
  | @cons l s ls h1 h2 ih =>
    intro x hx
    rcases List.mem_cons.mp hx with rfl | hx
    · simp
    · apply ih _ x hx
      rcases hn with hn | hn
      · simp at hn
      · cases s with
        | nil => exact Or.inl rfl
        | cons c s =>
          right
          rw [List.getLast?_append, List.getLast?_cons_cons] at hn
          simpa using hn

theorem lastIdx_none (c : Nat) : ∀ l : List Nat, c ∉ l → lastIdx c l = none
  | [], _ => rfl
  | b :: l, h => by
    unfold lastIdx
    rw [lastIdx_none c l (fun hm => h (by simp [hm]))]
    simp only
    rw [if_neg (fun hb => h (by simp [hb]))]

theorem lastIdx_split (c : Nat) : ∀ (p s : List Nat), c ∉ s → lastIdx c (p ++ c :: s) = some p.length
  | [], s, h => by
    show lastIdx c (c :: s) = some 0
    unfold lastIdx
    rw [lastIdx_none c s h]
    simp
  | b :: p, s, h => by
    show lastIdx c (b :: (p ++ c :: s)) = _
    unfold lastIdx
    rw [lastIdx_split c p s h]
    simp

/-- The identifier of an utterance is found. -/
theorem removeId_utterance {line text name after : List Nat} (h : Utterance line text name after) :
    removeId line = .ok (40 :: (name ++ [41]), text) := by
  obtain ⟨rfl, h1, h2, h3, h4⟩ := h
  have a : lastIdx 41 (text ++ 40 :: (name ++ 41 :: after)) = some (text.length + 1 + name.length) := by
    have := lastIdx_split 41 (text ++ 40 :: name) after h4
    simp only [List.append_assoc, List.cons_append] at this
    rw [this]
    simp; omega
  have b : lastIdx 40 (text ++ 40 :: (name ++ 41 :: after)) = some text.length := lastIdx_split 40 text _ (by simp [h1, h3])
  unfold removeId
  rw [a, b]
  simp only
  rw [if_pos (by omega)]
  congr 2
  · rw [List.drop_left]
    have : text.length + 1 + name.length - text.length + 1 = (40 :: (name ++ [41])).length := by simp; omega
    rw [this]
    have e : (40 :: (name ++ 41 :: after)) = (40 :: (name ++ [41])) ++ after := by simp
    rw [e, List.take_left]
  · rw [List.take_left]

/-- Converting byte by byte does not disturb the identifiers, if parentheses are kept. -/
theorem removeId_map (f : Nat → Nat) (hl : ∀ b, f b = 40 ↔ b = 40) (hr : ∀ b, f b = 41 ↔ b = 41) (u : List Nat) :
    removeId (u.map f) = match removeId u with
      | .ok (id, t) => .ok (id.map f, t.map f)
      | .exit => .exit
      | .undefined => .undefined := by
  have key : ∀ (c : Nat), (∀ b, f b = c ↔ b = c) → ∀ l : List Nat, lastIdx c (l.map f) = lastIdx c l := by
    intro c hc l
    induction l with
    | nil => rfl
    | cons b l ih =>
      show lastIdx c (f b :: l.map f) = _
      unfold lastIdx
      rw [ih]
      simp only [hc b]
  unfold removeId
  rw [key 40 hl, key 41 hr]
  cases lastIdx 41 u with
  | none => cases lastIdx 40 u <;> rfl
  | some r =>
    cases lastIdx 40 u with
    | none => rfl
    | some l =>
      simp only
      by_cases h1 : l ≤ r
      · rw [if_pos h1, if_pos h1]; simp [List.map_drop, List.map_take]
      · rw [if_neg h1, if_neg h1]
        by_cases h2 : r + 1 = l
        · rw [if_pos h2, if_pos h2]; simp [List.map_take]
        · rw [if_neg h2, if_neg h2]

/-- What the jobs are. -/
theorem jobs_spec (e : Enc) (t : IdType) (fold : List Nat → List Nat) (ids : List (List Nat)) (refs : List (Option (List Nat))) :
    ∀ (ls : List (List Nat)) (prev : List Nat) (js : List Job), jobs e t fold ids refs prev ls = .ok js →
      js.length = ls.length ∧ ∀ (k : Nat) (l : List Nat) (j : Job), ls[k]? = some l → js[k]? = some j →
        ∃ id i, removeId l = .ok (id, j.hyp) ∧ j.id = fold id ∧ inTextList e ids j.id = some (some i) ∧ refs[i]? = some (some j.ref) ∧
          (∀ n, extractSpeaker t j.id = .ok n → j.speaker = n)
  | [], prev, js, h => by
    injection h with h
    subst h
    exact ⟨rfl, by intro k l j hl; simp at hl⟩
  | l :: ls, prev, js, h => by
    unfold jobs at h
    obtain ⟨⟨id, text⟩, h1, h2⟩ := bind_ok h
    simp only at h2
    cases hx : extractSpeaker t (fold id) with
    | stale => rw [hx] at h2; cases h2
    | failed =>
      rw [hx] at h2
      simp only at h2
      cases hlk : inTextList e ids (fold id) with
      | none => rw [hlk] at h2; cases h2
      | some o =>
        cases o with
        | none => rw [hlk] at h2; cases h2
        | some i =>
          rw [hlk] at h2
          simp only at h2
          cases hr : refs[i]? with
          | none => rw [hr] at h2; cases h2
          | some ro =>
            cases ro with
            | none => rw [hr] at h2; cases h2
            | some r =>
              rw [hr] at h2
              simp only at h2
              obtain ⟨js', h3, h4⟩ := bind_ok h2
              injection h4 with h4
              subst h4
              obtain ⟨i1, i2⟩ := jobs_spec e t fold ids refs ls _ js' h3
              refine ⟨by simp [i1], ?_⟩
              intro k l' j hl hj
              cases k with
              | zero =>
                simp only [List.getElem?_cons_zero, Option.some.injEq] at hl hj
                subst hl hj
                exact ⟨id, i, h1, rfl, hlk, hr, by intro n hn; rw [hx] at hn; cases hn⟩
              | succ k =>
                simp only [List.getElem?_cons_succ] at hl hj
                exact i2 k l' j hl hj
    | ok n =>
      rw [hx] at h2
      simp only at h2
      cases hlk : inTextList e ids (fold id) with
      | none => rw [hlk] at h2; cases h2
      | some o =>
        cases o with
        | none => rw [hlk] at h2; cases h2
        | some i =>
          rw [hlk] at h2
          simp only at h2
          cases hr : refs[i]? with
          | none => rw [hr] at h2; cases h2
          | some ro =>
            cases ro with
            | none => rw [hr] at h2; cases h2
            | some r =>
              rw [hr] at h2
              simp only at h2
              obtain ⟨js', h3, h4⟩ := bind_ok h2
              injection h4 with h4
              subst h4
              obtain ⟨i1, i2⟩ := jobs_spec e t fold ids refs ls _ js' h3
              refine ⟨by simp [i1], ?_⟩
              intro k l' j hl hj
              cases k with
              | zero =>
                simp only [List.getElem?_cons_zero, Option.some.injEq] at hl hj
                subst hl hj
                exact ⟨id, i, h1, rfl, hlk, hr, by intro m hm; rw [hx] at hm; injection hm⟩
              | succ k =>
                simp only [List.getElem?_cons_succ] at hl hj
                exact i2 k l' j hl hj

theorem jobs_total (e : Enc) (t : IdType) (fold : List Nat → List Nat) (ids : List (List Nat)) (refs : List (Option (List Nat))) :
    ∀ (ls : List (List Nat)) (prev : List Nat),
      (∀ l ∈ ls, ∃ id text i r, removeId l = .ok (id, text) ∧ fold id ≠ [] ∧ inTextList e ids (fold id) = some (some i) ∧ refs[i]? = some (some r)) →
      ∃ js, jobs e t fold ids refs prev ls = .ok js
  | [], prev, _ => ⟨[], rfl⟩
  | l :: ls, prev, h => by
    obtain ⟨id, text, i, r, h1, hne, h2, h3⟩ := h l (by simp)
    have hns : extractSpeaker t (fold id) ≠ .stale := by
      unfold extractSpeaker
      cases t <;> simp [hne] <;> (split <;> (try split) <;> simp)
    have ih := fun p => jobs_total e t fold ids refs ls p (fun x hx => h x (by simp [hx]))
    unfold jobs
    rw [h1]
    simp only [Res.bind]
    cases hx : extractSpeaker t (fold id) with
    | stale => exact absurd hx hns
    | failed =>
      obtain ⟨js, hj⟩ := ih prev
      simp only [h2, h3, hj]
      exact ⟨_, rfl⟩
    | ok n =>
      obtain ⟨js, hj⟩ := ih n
      simp only [h2, h3, hj]
      exact ⟨_, rfl⟩

end Verif.Refs
