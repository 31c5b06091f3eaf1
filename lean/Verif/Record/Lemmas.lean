import Verif.Record.Model
import Verif.Segmentor.Lemmas
/-!
# Lemmas about a recording
-/
set_option autoImplicit false
namespace Verif.Record

theorem ids_fold : ∀ (l : List Seg) (a : List String), Segmentor.Incr a →
    Segmentor.Incr (l.foldl (fun l x => Segmentor.setInsert x.id l) a) ∧
    (∀ y, y ∈ l.foldl (fun l x => Segmentor.setInsert x.id l) a ↔ y ∈ a ∨ ∃ x ∈ l, x.id = y)
  | [], a, h => ⟨h, fun y => by simp⟩
  | x :: l, a, h => by
    obtain ⟨h1, h2⟩ := ids_fold l (Segmentor.setInsert x.id a) (Segmentor.setInsert_incr x.id a h)
    refine ⟨h1, fun y => ?_⟩
    rw [List.foldl_cons, h2, Segmentor.mem_setInsert]
    simp only [List.mem_cons, exists_eq_or_imp]
    constructor
    · rintro ((e | h) | h)
      · exact Or.inr (Or.inl e.symm)
      · exact Or.inl h
      · exact Or.inr (Or.inr h)
    · rintro (h | e | h)
      · exact Or.inl (Or.inr h)
      · exact Or.inl (Or.inl e.symm)
      · exact Or.inr h

theorem ids_incr (refs : SpeechSet) : Segmentor.Incr (ids refs) := (ids_fold (utts refs) [] List.Pairwise.nil).1

theorem mem_ids (refs : SpeechSet) (y : String) : y ∈ ids refs ↔ ∃ x ∈ utts refs, x.id = y := by
  have := (ids_fold (utts refs) [] List.Pairwise.nil).2 y
  rw [ids, this]
  simp

theorem findLoop_eq (id : String) : ∀ (ss : SpeechSet), findLoop id ss = (utts ss).find? (fun x => decide (x.id = id))
  | [] => rfl
  | sp :: rest => by
    unfold findLoop utts
    rw [List.flatten_cons, List.find?_append, findLoop_eq id rest]
    cases sp.find? (fun x => decide (x.id = id)) <;> rfl

theorem find_some (ss : SpeechSet) (id : String) (h : ∃ x ∈ utts ss, x.id = id) :
    ∃ x, find ss id = some (some x) ∧ x ∈ utts ss ∧ x.id = id ∧ (utts ss).find? (fun x => decide (x.id = id)) = some x := by
  cases ss with
  | nil => obtain ⟨x, hx, _⟩ := h; cases hx
  | cons sp rest =>
    cases hf : (utts (sp :: rest)).find? (fun x => decide (x.id = id)) with
    | none =>
      obtain ⟨x, hx, e⟩ := h
      have := List.find?_eq_none.1 hf x hx
      exact absurd (decide_eq_true e) this
    | some x =>
      refine ⟨x, ?_, List.mem_of_find?_eq_some hf, by have := List.find?_some hf; exact of_decide_eq_true this, rfl⟩
      show (findLoop id (sp :: rest)).map some = _
      rw [findLoop_eq, hf]
      rfl

theorem find_none (ss : SpeechSet) (id : String) (hne : ss ≠ []) (h : ∀ x ∈ utts ss, x.id ≠ id) : find ss id = none := by
  cases ss with
  | nil => exact absurd rfl hne
  | cons sp rest =>
    show (findLoop id (sp :: rest)).map some = none
    rw [findLoop_eq, List.find?_eq_none.2 (fun x hx => by simpa using h x hx)]
    rfl

/-- The identifiers that are still to come. -/
def TSt.todo (st : TSt) : List String := if st.cur = "" then [] else st.cur :: st.list

/-- All groups are made when every identifier is found. -/
theorem groups_all (refs hyps : SpeechSet) : ∀ (f : Nat) (cur : String) (list : List String), list.length + 2 ≤ f →
    (∀ x ∈ cur :: list, x ≠ "" ∧ (∃ r ∈ utts refs, r.id = x) ∧ ∃ h ∈ utts hyps, h.id = x) →
    ∃ gs, groups refs hyps f ⟨list, cur⟩ = some (gs, ⟨[], ""⟩) ∧
      gs.map (fun g => g.1.map (·.id)) = (cur :: list).map some ∧
      ∀ g ∈ gs, ∃ r h, g = (some r, some h) ∧ r ∈ utts refs ∧ h ∈ utts hyps ∧ r.id = h.id
  | 0, _, _, hf, _ => absurd hf (by omega)
  | f + 1, cur, list, hf, hall => by
    obtain ⟨hc, hr, hh⟩ := hall cur List.mem_cons_self
    obtain ⟨r, er, mr, ir, _⟩ := find_some refs cur hr
    obtain ⟨h, eh, mh, ih, _⟩ := find_some hyps cur hh
    cases list with
    | nil =>
      obtain ⟨f, rfl⟩ : ∃ k, f = k + 1 := ⟨f - 1, by simp at hf; omega⟩
      refine ⟨[(some r, some h)], ?_, ?_, ?_⟩
      · unfold groups next
        rw [if_neg hc, er, eh]
        rfl
      · show [some r.id] = [some cur]
        rw [ir]
      · intro g hg
        obtain rfl := List.mem_singleton.1 hg
        exact ⟨r, h, rfl, mr, mh, ir.trans ih.symm⟩
    | cons x xs =>
      obtain ⟨gs, e1, e2, e3⟩ := groups_all refs hyps f x xs (by simp only [List.length_cons] at hf; omega)
        (fun y hy => hall y (List.mem_cons_of_mem _ hy))
      refine ⟨(some r, some h) :: gs, ?_, ?_, ?_⟩
      · unfold groups next
        rw [if_neg hc, er, eh]
        dsimp only
        rw [e1]
      · rw [List.map_cons, e2]
        show some r.id :: _ = _
        rw [ir]
        rfl
      · intro g hg
        rcases List.mem_cons.1 hg with rfl | hg
        · exact ⟨r, h, rfl, mr, mh, ir.trans ih.symm⟩
        · exact e3 g hg

/-- A missing utterance makes the search run past the last speech. -/
theorem groups_missing (refs hyps : SpeechSet) (hne : hyps ≠ []) : ∀ (f : Nat) (cur : String) (list : List String),
    (∀ x ∈ cur :: list, x ≠ "") → (∃ x ∈ cur :: list, ∀ h ∈ utts hyps, h.id ≠ x) → groups refs hyps f ⟨list, cur⟩ = none
  | 0, _, _, _, _ => rfl
  | f + 1, cur, list, hall, hex => by
    have hc := hall cur List.mem_cons_self
    unfold groups
    rw [if_neg hc]
    unfold next
    cases hr : find refs cur with
    | none => rfl
    | some r =>
      dsimp only
      rcases Classical.em (∀ h ∈ utts hyps, h.id ≠ cur) with hm | hm
      · rw [find_none hyps cur hne hm]
      · have : ∃ h ∈ utts hyps, h.id = cur := by
          rcases Classical.em (∃ h ∈ utts hyps, h.id = cur) with h | h
          · exact h
          · exact absurd (fun x hx e => h ⟨x, hx, e⟩) hm
        obtain ⟨h, eh, _⟩ := find_some hyps cur this
        rw [eh]
        obtain ⟨x, hx, hx2⟩ := hex
        cases list with
        | nil =>
          rw [List.mem_singleton] at hx
          subst hx
          exact absurd hx2 hm
        | cons y ys =>
          have hx' : ∃ x ∈ y :: ys, ∀ h ∈ utts hyps, h.id ≠ x := by
            rcases List.mem_cons.1 hx with rfl | hx
            · exact absurd hx2 hm
            · exact ⟨x, hx, hx2⟩
          dsimp only
          rw [groups_missing refs hyps hne f y ys (fun z hz => hall z (List.mem_cons_of_mem _ hz)) hx']

theorem put_lookup {X : Type} (m : List (String × X)) (k : String) (v : X) (j : String) :
    (put m k v).lookup j = if j = k then some v else m.lookup j := by
  unfold put
  rw [List.lookup_cons]
  rcases Decidable.em (j = k) with rfl | h
  · simp
  · have : (j == k) = false := by simpa using h
    rw [this, if_neg h]
    dsimp only
    induction m with
    | nil => rfl
    | cons e m ih =>
      rcases Decidable.em (e.1 = k) with hk | hk
      · rw [List.filter_cons_of_neg (by simpa using hk), List.lookup_cons, ih]
        have : (j == e.1) = false := by rw [hk]; simpa using h
        rw [this]
      · rw [List.filter_cons_of_pos (by simpa using hk), List.lookup_cons, List.lookup_cons, ih]

theorem number_lt : ∀ (l : List ((Nat × Nat) × Nat)) (c : Nat), ∀ e ∈ number c l, c < e.2
  | [], _, _, h => by cases h
  | (g, gap) :: rest, c, e, h => by
    unfold number at h
    rcases List.mem_cons.1 h with rfl | h
    · show c < c + gap + 1; omega
    · have := number_lt rest (c + gap + 1) e h
      omega

end Verif.Record
