import Verif.Rover.Combine
import Verif.Rover.Spec
/-!
# From merges to a table of systems and slots
-/
set_option autoImplicit false
namespace Verif.Rover
open Verif.Net
variable {W : Type}

theorem merge_some (null : W) (k : Nat) {X : List (List (Option W))} {Y : List (Option W)} {Z : List (List (Option W))}
    (h : Merge (some null) k X Y Z) : ∀ (slots : List (List W)) (ws : List W), slots.map (List.map some) = X →
      ws.map some = Y → ∃ R : List (List W), Z = R.map (List.map some) ∧ Merge null k slots ws R := by
  induction h with
  | nil =>
    intro slots ws e1 e2
    have e1 : slots = [] := by simpa using e1
    have e2 : ws = [] := by simpa using e2
    subst e1; subst e2
    exact ⟨[], rfl, .nil⟩
  | both _ ih =>
    intro slots ws e1 e2
    obtain ⟨s, slots', e, e3, e4⟩ := List.map_eq_cons_iff.1 e1
    obtain ⟨w, ws', e', e5, e6⟩ := List.map_eq_cons_iff.1 e2
    subst e; subst e'
    obtain ⟨R, h1, h2⟩ := ih slots' ws' e4 e6
    exact ⟨(s ++ [w]) :: R, by rw [h1, ← e3, ← e5]; simp, .both h2⟩
  | left _ ih =>
    intro slots ws e1 e2
    obtain ⟨s, slots', e, e3, e4⟩ := List.map_eq_cons_iff.1 e1
    subst e
    obtain ⟨R, h1, h2⟩ := ih slots' ws e4 e2
    exact ⟨(s ++ [null]) :: R, by rw [h1, ← e3]; simp, .left h2⟩
  | right _ ih =>
    intro slots ws e1 e2
    obtain ⟨w, ws', e', e5, e6⟩ := List.map_eq_cons_iff.1 e2
    subst e'
    obtain ⟨R, h1, h2⟩ := ih slots ws' e1 e6
    exact ⟨(w :: List.replicate k null) :: R, by rw [h1, ← e5]; simp, .right h2⟩

/-- Rows that fit slots. -/
inductive Fits (null : W) (k : Nat) : List (List (Option W)) → List (List W) → Prop where
  | nil : Fits null k [] []
  | cons {r : List (Option W)} {s : List W} {t : List (List (Option W))} {ss : List (List W)} : r.length = k →
      s.Perm (r.map fun o => o.getD null) → (∃ w : W, some w ∈ r) → Fits null k t ss → Fits null k (r :: t) (s :: ss)

/-- A column of the table. -/
def col (j : Nat) (t : List (List (Option W))) : List W := t.filterMap fun r => (r[j]?).join

theorem col_cons (j : Nat) (r : List (Option W)) (t : List (List (Option W))) :
    col j (r :: t) = (match (r[j]?).join with | none => [] | some w => [w]) ++ col j t := by
  unfold col
  rw [List.filterMap_cons]
  cases (r[j]?).join <;> rfl

theorem merge_fits (null : W) (k : Nat) {slots : List (List W)} {ws : List W} {R : List (List W)}
    (h : Merge null k slots ws R) : ∀ t, Fits null k t slots → ∃ t', Fits null (k + 1) t' R ∧
      (∀ j, j < k → col j t' = col j t) ∧ col k t' = ws ∧ R.length ≤ slots.length + ws.length := by
  induction h with
  | nil =>
    intro t ht
    cases ht
    exact ⟨[], .nil, fun _ _ => rfl, rfl, Nat.le_refl _⟩
  | both _ ih =>
    rename_i s w ss ws rs hM
    intro t ht
    cases ht with
    | cons h1 h2 h3 h4 =>
      rename_i r t
      obtain ⟨t', g1, g2, g3, g4⟩ := ih t h4
      refine ⟨(r ++ [some w]) :: t', .cons (by simp [h1]) ?_ ⟨w, by simp⟩ g1, ?_, ?_, by simp; omega⟩
      · rw [List.map_append]; exact h2.append_right _
      · intro j hj
        rw [col_cons, col_cons, g2 j hj, List.getElem?_append_left (by omega)]
      · rw [col_cons, g3, List.getElem?_append_right (by omega)]
        simp [h1]
  | left _ ih =>
    rename_i s ss ws rs hM
    intro t ht
    cases ht with
    | cons h1 h2 h3 h4 =>
      rename_i r t
      obtain ⟨t', g1, g2, g3, g4⟩ := ih t h4
      refine ⟨(r ++ [none]) :: t', .cons (by simp [h1]) ?_ ?_ g1, ?_, ?_, by simp; omega⟩
      · rw [List.map_append]; exact h2.append_right _
      · obtain ⟨w, hw⟩ := h3; exact ⟨w, List.mem_append_left _ hw⟩
      · intro j hj
        rw [col_cons, col_cons, g2 j hj, List.getElem?_append_left (by omega)]
      · rw [col_cons, g3, List.getElem?_append_right (by omega)]
        simp [h1]
  | right _ ih =>
    rename_i w ss ws rs hM
    intro t ht
    obtain ⟨t', g1, g2, g3, g4⟩ := ih t ht
    refine ⟨(List.replicate k none ++ [some w]) :: t', .cons (by simp) ?_ ⟨w, by simp⟩ g1, ?_, ?_, by simp; omega⟩
    · have e : (List.replicate k none ++ [some w]).map (fun o : Option W => o.getD null) = List.replicate k null ++ [w] := by simp
      rw [e]
      exact (List.perm_append_singleton w (List.replicate k null)).symm
    · intro j hj
      rw [col_cons, g2 j hj, List.getElem?_append_left (by simpa using hj)]
      simp [hj]
    · rw [col_cons, g3, List.getElem?_append_right (by simp)]
      simp

theorem fits_single (null : W) : ∀ (ws : List W), Fits null 1 (ws.map fun w => [some w]) (ws.map fun w => [w]) := by
  intro ws
  induction ws with
  | nil => exact .nil
  | cons w ws ih => exact .cons rfl (List.Perm.refl _) ⟨w, by simp⟩ ih

theorem col_single (ws : List W) : col 0 (ws.map fun w => [some w]) = ws := by
  induction ws with
  | nil => rfl
  | cons w ws ih => rw [List.map_cons, col_cons, ih]; rfl

theorem fits_sum {null : W} {k : Nat} {t : List (List (Option W))} {slots : List (List W)} (h : Fits null k t slots) :
    (slots.map List.length).sum = slots.length * k := by
  induction h with
  | nil => simp
  | cons h1 h2 h3 h4 ih =>
    have := h2.length_eq
    rw [List.map_cons, List.sum_cons, ih, this]
    simp [h1, Nat.add_mul]; omega

theorem fits_placed {null : W} {systems : List (List W)} {t : List (List (Option W))} {slots : List (List W)}
    (h : Fits null systems.length t slots) (hc : ∀ j ws, systems[j]? = some ws → col j t = ws) :
    Placed null systems slots t := by
  have h1 : t.length = slots.length ∧ (∀ r ∈ t, r.length = systems.length) ∧
      (∀ (i : Nat) (r : List (Option W)) (s : List W), t[i]? = some r → slots[i]? = some s →
        s.Perm (r.map fun o => o.getD null)) ∧ ∀ r ∈ t, ∃ w : W, some w ∈ r := by
    clear hc
    induction h with
    | nil => exact ⟨rfl, by simp, by simp, by simp⟩
    | cons g1 g2 g3 g4 ih =>
      obtain ⟨i1, i2, i3, i4⟩ := ih
      refine ⟨by simp [i1], ?_, ?_, ?_⟩
      · intro r hr
        rcases List.mem_cons.1 hr with e | hr
        · rw [e]; exact g1
        · exact i2 r hr
      · intro i r s e1 e2
        cases i with
        | zero =>
          simp at e1 e2
          subst e1; subst e2
          exact g2
        | succ i => exact i3 i r s (by simpa using e1) (by simpa using e2)
      · intro r hr
        rcases List.mem_cons.1 hr with e | hr
        · rw [e]; exact g3
        · exact i4 r hr
  exact ⟨h1.1, h1.2.1, h1.2.2.1, h1.2.2.2, hc⟩

theorem lens (d : Nat → Option W) : ∀ (SA : List (List Nat)) (slots : List (List W)),
    wordsOf d SA = slots.map (List.map some) → SA.map List.length = slots.map List.length := by
  intro SA slots h
  have := congrArg (List.map List.length) h
  simpa [wordsOf, List.map_map, Function.comp_def] using this

/-- Numbers of words. -/
def total (systems : List (List W)) : Nat := (systems.map List.length).sum

theorem combineAll_ok (F : Funcs W) (null : W) (t0 : Nat → Table) {m : Int} {h : Nat} :
    ∀ (rest done : List (List W)) (s : FNet W) (ps : List (Nat × List Nat)) (SA : List (List Nat))
      (slots : List (List W)) (t : List (List (Option W))),
      Slots s ps h SA → s.net.data h = none → wordsOf s.net.data SA = slots.map (List.map some) →
      Fits null done.length t slots → (∀ j ws, done[j]? = some ws → col j t = ws) → slots.length ≤ total done →
      total (done ++ rest) * (done ++ rest).length < 65534 → 0 < done.length →
      F.Below m (total (done ++ rest) * (done ++ rest).length + total (done ++ rest)) →
      ∃ s' ps' SA' slots' t', combineAll F null t0 done.length s (rest.map fun ws => (sysNet ws).addHead) = some s' ∧
        Slots s' ps' h SA' ∧ s'.net.data h = none ∧ wordsOf s'.net.data SA' = slots'.map (List.map some) ∧
        Fits null (done ++ rest).length t' slots' ∧ (∀ j ws, (done ++ rest)[j]? = some ws → col j t' = ws) := by
  intro rest
  induction rest with
  | nil =>
    intro done s ps SA slots t h1 h2 h3 h4 h5 h6 h7 h8 h9
    exact ⟨s, ps, SA, slots, t, rfl, h1, h2, h3, by simpa using h4, by simpa using h5⟩
  | cons ws rest ih =>
    intro done s ps SA slots t h1 h2 h3 h4 h5 h6 h7 h8 h9
    have htot : total (done ++ ws :: rest) = total done + ws.length + total rest := by
      simp [total]; omega
    have hlen : (done ++ ws :: rest).length = done.length + 1 + rest.length := by simp; omega
    obtain ⟨pb, hb, SB, g1, g2, g3, g4⟩ := sys_slots ws
    have hcnt : s.net.nArcs = 1 + slots.length * done.length := by
      rw [h1.cnt, List.map_cons, List.sum_cons, lens _ _ _ h3, fits_sum h4]; rfl
    have hle : slots.length * done.length ≤ total (done ++ ws :: rest) * (done ++ ws :: rest).length :=
      Nat.mul_le_mul (by omega) (by omega)
    have hle2 : total (done ++ ws :: rest) ≤ total (done ++ ws :: rest) * (done ++ ws :: rest).length :=
      Nat.le_mul_of_pos_right _ (by omega)
    obtain ⟨s', ps', R, e1, e2, e3, e4⟩ := combine_ok F null (t0 done.length) done.length h1 g1 g2 (by omega)
      (by omega) h9 (by omega)
    obtain ⟨R', e5, e6⟩ := merge_some null done.length e4 slots ws h3.symm rfl
    obtain ⟨t', f1, f2, f3, f4⟩ := merge_fits null done.length e6 t h4
    have happ : (done ++ [ws]) ++ rest = done ++ ws :: rest := by simp
    obtain ⟨s2, ps2, SA2, slots2, t2, i1, i2, i3, i4, i5, i6⟩ := ih (done ++ [ws]) s' ps' R R' t' e2
      (by rw [e3, h2]) e5 (by simpa using f1) (by
        intro j vs hj
        by_cases hjl : j < done.length
        · rw [List.getElem?_append_left hjl] at hj
          rw [f2 j hjl]; exact h5 j vs hj
        · rw [List.getElem?_append_right (by omega)] at hj
          have hj0 : j = done.length := by
            have := (List.getElem?_eq_some_iff.1 hj).1
            simp at this; omega
          subst hj0
          simp at hj
          rw [f3, hj]) (by simp [total] at *; omega) (by rw [happ]; exact h7) (by simp) (by rw [happ]; exact h9)
    rw [happ] at i5 i6
    refine ⟨s2, ps2, SA2, slots2, t2, ?_, i2, i3, i4, i5, i6⟩
    rw [List.map_cons]
    show (match combine F null (t0 done.length) done.length s _ with
      | none => none
      | some s' => combineAll F null t0 (done.length + 1) s' _) = _
    rw [e1]
    have hl : (done ++ [ws]).length = done.length + 1 := by simp
    rw [hl] at i1
    exact i1

end Verif.Rover
