import Verif.Sgml.Spec
import Verif.Lines.Quote
/-!
# SGML alignment lines: lemmas
-/
set_option autoImplicit false
namespace Verif.Sgml
open Verif.Text Verif.Lines

theorem takeWhile_stop (c : Nat) (v r : List Nat) (h : c ∉ v) : (v ++ c :: r).takeWhile (· ≠ c) = v := by
  induction v with
  | nil => simp
  | cons x v ih =>
    rw [List.mem_cons, not_or] at h
    rw [List.cons_append, List.takeWhile_cons_of_pos (by simpa using fun x => h.1 x.symm), ih h.2]

theorem dropWhile_stop (c : Nat) (v r : List Nat) (h : c ∉ v) : (v ++ c :: r).dropWhile (· ≠ c) = c :: r := by
  induction v with
  | nil => simp
  | cons x v ih =>
    rw [List.mem_cons, not_or] at h
    rw [List.cons_append, List.dropWhile_cons_of_pos (by simpa using fun x => h.1 x.symm), ih h.2]

theorem takeWhile_all (c : Nat) (v : List Nat) (h : c ∉ v) : v.takeWhile (· ≠ c) = v := by
  induction v with
  | nil => rfl
  | cons x v ih =>
    rw [List.mem_cons, not_or] at h
    rw [List.takeWhile_cons_of_pos (by simpa using fun x => h.1 x.symm), ih h.2]

theorem dropWhile_all (c : Nat) (v : List Nat) (h : c ∉ v) : v.dropWhile (· ≠ c) = [] := by
  induction v with
  | nil => rfl
  | cons x v ih =>
    rw [List.mem_cons, not_or] at h
    rw [List.dropWhile_cons_of_pos (by simpa using fun x => h.1 x.symm), ih h.2]

theorem cut_spec (c : Nat) (v r : List Nat) (h : c ∉ v) : cut c (v ++ c :: r) = some (v, r) := by
  unfold cut
  rw [dropWhile_stop c v r h, takeWhile_stop c v r h]

theorem loadQuoted_spec (x : Nat) (w : Word) (hw : 34 ∉ Split.format w.parts) (r : List Nat) :
    loadQuoted (x :: (quoted w ++ r)) = some (Split.format w.parts, r) := by
  unfold quoted loadQuoted
  simp only [List.cons_append, List.append_assoc, List.nil_append]
  exact cut_spec 34 _ _ hw

/-- The value that is read back for a word. -/
def readValue (w : Word) : List Nat := Split.format w.parts

theorem loadHead_spec (en : Entry Word) (hw : ∀ w ∈ en.words, Writable w) (r : List Nat) (hr : r = [] ∨ r.head? = some 44) :
    loadHead (dumpHead en ++ r) = some (expected readValue [] en, r) := by
  cases en with
  | ins b =>
    have hb := (hw b (List.mem_cons_self ..)).2.2.2.2
    unfold dumpHead loadHead
    simp only [List.cons_append, List.nil_append, if_true]
    rw [loadQuoted_spec 44 b hb r]
    rfl
  | del a =>
    have ha := (hw a (List.mem_cons_self ..)).2.2.2.2
    unfold dumpHead loadHead
    simp only [List.cons_append, List.nil_append, List.append_assoc]
    rw [if_neg (by decide), if_pos trivial, loadQuoted_spec 44 a ha]
    simp only
    rw [if_pos (by rcases hr with h | h; exact Or.inr h; exact Or.inl h)]
    rfl
  | pair ev a b =>
    have ha := (hw a (List.mem_cons_self ..)).2.2.2.2
    have hb := (hw b (List.mem_cons_of_mem _ (List.mem_cons_self ..))).2.2.2.2
    unfold dumpHead loadHead
    simp only [List.cons_append, List.nil_append, List.append_assoc]
    cases ev <;> simp [letter, loadQuoted_spec 44 a ha, loadQuoted_spec 44 b hb] <;> rfl

/-! ## Auxiliary values -/

theorem number_no {t : List Nat} (h : IsNumber t) (c : Nat) (hc : c = 34 ∨ c = 44 ∨ c = 58 ∨ c = 10 ∨ c = 43) : c ∉ t := by
  intro hm
  have := h.2 c hm
  omega

/-- Bytes that may occur in auxiliary values. -/
def AuxByte (x : Nat) : Prop := 0 < x ∧ x < 128 ∧ x ≠ 34 ∧ x ≠ 44 ∧ x ≠ 58 ∧ x ≠ 10

theorem number_aux {t : List Nat} (h : IsNumber t) : ∀ x ∈ t, AuxByte x := fun x hx => by
  have := h.2 x hx
  exact ⟨this.1, this.2.1, this.2.2.1, this.2.2.2.1, this.2.2.2.2.1, this.2.2.2.2.2.1⟩

theorem auxText_ok (k : Kind) (en : Entry Word) (hw : ∀ w ∈ en.words, Writable w) (t : List Nat) (h : auxText k en = some t) :
    t ≠ [] ∧ ∀ x ∈ t, AuxByte x := by
  have key : ∀ w, Writable w → ∀ t, (t = w.t1 ++ 43 :: w.t2 ∨ t = w.conf ∨ t = w.weight) → t ≠ [] ∧ ∀ x ∈ t, AuxByte x := by
    rintro w ⟨h1, h2, h3, h4, _⟩ t (rfl | rfl | rfl)
    · refine ⟨by simp, ?_⟩
      intro x hx
      rcases List.mem_append.1 hx with h | h
      · exact number_aux h1 x h
      · rcases List.mem_cons.1 h with rfl | h
        · unfold AuxByte; omega
        · exact number_aux h2 x h
    · exact ⟨h3.1, number_aux h3⟩
    · exact ⟨h4.1, number_aux h4⟩
  have hr : ∀ w, en.ref = some w → Writable w := by
    intro w hw'
    apply hw
    cases en <;> simp [Entry.ref, Entry.words] at hw' ⊢ <;> simp [hw']
  have hh : ∀ w, en.hyp = some w → Writable w := by
    intro w hw'
    apply hw
    cases en <;> simp [Entry.hyp, Entry.words] at hw' ⊢ <;> simp [hw']
  cases k <;> simp only [auxText, Option.map_eq_some_iff] at h <;> obtain ⟨w, h1, rfl⟩ := h
  · exact key w (hr w h1) _ (Or.inl rfl)
  · exact key w (hh w h1) _ (Or.inl rfl)
  · exact key w (hr w h1) _ (Or.inr (Or.inl rfl))
  · exact key w (hh w h1) _ (Or.inr (Or.inl rfl))
  · exact key w (hr w h1) _ (Or.inr (Or.inr rfl))
  · exact key w (hh w h1) _ (Or.inr (Or.inr rfl))

theorem dumpAux_head (ks : List Kind) (en : Entry Word) : dumpAux ks en = [] ∨ ∃ r, dumpAux ks en = 44 :: r := by
  cases ks with
  | nil => exact Or.inl rfl
  | cons k ks => exact Or.inr ⟨_, by unfold dumpAux; rw [List.flatMap_cons, List.cons_append]⟩

theorem assign_spec (k : Kind) (en : Entry Word) (hw : ∀ w ∈ en.words, Writable w) (t : List Nat) (h : auxText k en = some t)
    (done : List Kind) : assign k t (expected readValue done en) = some (expected readValue (done ++ [k]) en) := by
  have hcut : ∀ w, Writable w → cut 43 (w.t1 ++ 43 :: w.t2) = some (w.t1, w.t2) := fun w hw =>
    cut_spec 43 _ _ (number_no hw.1 43 (by simp))
  cases en with
  | ins b =>
    have := hcut b (hw b (List.mem_cons_self ..))
    cases k <;> simp [auxText, Entry.ref, Entry.hyp] at h <;> subst h <;>
      simp [assign, expected, expected.hypW, Entry.mapHyp, Entry.hyp, this]
  | del a =>
    have := hcut a (hw a (List.mem_cons_self ..))
    cases k <;> simp [auxText, Entry.ref, Entry.hyp] at h <;> subst h <;>
      simp [assign, expected, expected.refW, Entry.mapRef, Entry.ref, this]
  | pair ev a b =>
    have h1 := hcut a (hw a (List.mem_cons_self ..))
    have h2 := hcut b (hw b (List.mem_cons_of_mem _ (List.mem_cons_self ..)))
    cases k <;> simp [auxText, Entry.ref, Entry.hyp] at h <;> subst h <;>
      simp [assign, expected, expected.refW, expected.hypW, Entry.mapRef, Entry.mapHyp, Entry.ref, Entry.hyp, h1, h2]

theorem assign_missing (k : Kind) (en : Entry Word) (h : auxText k en = none) (done : List Kind) :
    expected readValue done en = expected readValue (done ++ [k]) en := by
  cases en <;> cases k <;> simp [auxText, Entry.ref, Entry.hyp] at h <;> simp [expected, expected.refW, expected.hypW]

theorem auxLoop_spec (en : Entry Word) (hw : ∀ w ∈ en.words, Writable w) (ks : List Kind) : ∀ (done : List Kind) (fuel : Nat),
    (dumpAux ks en).length ≤ fuel →
    auxLoop fuel ks (dumpAux ks en) (expected readValue done en) = some (expected readValue (done ++ ks) en) := by
  induction ks with
  | nil => intro done fuel hf; cases fuel <;> simp [dumpAux, auxLoop]
  | cons k ks ih =>
    intro done fuel hf
    have hd : dumpAux (k :: ks) en = 44 :: ((auxText k en).getD [] ++ dumpAux ks en) := by
      unfold dumpAux
      rw [List.flatMap_cons, List.cons_append]
    rw [hd] at hf ⊢
    simp only [List.length_cons, List.length_append] at hf
    obtain ⟨fuel, rfl⟩ : ∃ n, fuel = n + 1 := ⟨fuel - 1, by omega⟩
    have hno : 44 ∉ (auxText k en).getD [] := by
      cases h : auxText k en with
      | none => simp
      | some t =>
        intro hm
        exact ((auxText_ok k en hw t h).2 44 hm).2.2.2.1 rfl
    have htake : ((auxText k en).getD [] ++ dumpAux ks en).takeWhile (· ≠ 44) = (auxText k en).getD [] := by
      rcases dumpAux_head ks en with h | ⟨r, h⟩
      · rw [h, List.append_nil, takeWhile_all 44 _ hno]
      · rw [h, takeWhile_stop 44 _ _ hno]
    have hdrop : ((auxText k en).getD [] ++ dumpAux ks en).dropWhile (· ≠ 44) = dumpAux ks en := by
      rcases dumpAux_head ks en with h | ⟨r, h⟩
      · rw [h, List.append_nil, dropWhile_all 44 _ hno]
      · rw [h, dropWhile_stop 44 _ _ hno]
    unfold auxLoop
    rw [htake, hdrop]
    cases h : auxText k en with
    | none =>
      simp only [Option.getD_none, List.drop_succ_cons, List.drop_zero]
      rw [assign_missing k en h done, ih _ fuel (by omega)]
      simp
    | some t =>
      have ht := auxText_ok k en hw t h
      have ha := assign_spec k en hw t h done
      cases t with
      | nil => exact absurd rfl ht.1
      | cons c t =>
        simp only [Option.getD_some]
        rw [ha]
        simp only
        rw [ih _ fuel (by omega)]
        simp

theorem loadEntry_spec (ks : List Kind) (en : Entry Word) (hw : ∀ w ∈ en.words, Writable w) :
    loadEntry ks (dumpEntry ks en) = some (expected readValue ks en) := by
  unfold loadEntry dumpEntry
  rw [loadHead_spec en hw _ (by
    rcases dumpAux_head ks en with h | ⟨r, h⟩
    · exact Or.inl h
    · exact Or.inr (by rw [h]; rfl))]
  simp only
  by_cases hk : ks = []
  · rw [if_pos hk, hk]
  · rw [if_neg hk, auxLoop_spec en hw ks [] _ (Nat.le_refl _), List.nil_append]

/-! ## Tokens -/

/-- The text consists of units that are no separators. -/
def HasUnits (e : Enc) (p : List Nat) : Prop :=
  ∃ us : List (List Nat), us.flatten = p ∧ ∀ u ∈ us, IsUnit e u ∧ ¬ IsSep [58, 10] u ∧ u ≠ []

theorem HasUnits.append {e : Enc} {p q : List Nat} (hp : HasUnits e p) (hq : HasUnits e q) : HasUnits e (p ++ q) := by
  obtain ⟨us, rfl, h1⟩ := hp
  obtain ⟨vs, rfl, h2⟩ := hq
  refine ⟨us ++ vs, by simp, ?_⟩
  intro u hu
  rcases List.mem_append.1 hu with h | h
  · exact h1 u h
  · exact h2 u h

theorem hasUnits_ascii (e : Enc) (t : List Nat) (h : ∀ x ∈ t, 0 < x ∧ x < 128 ∧ x ≠ 34 ∧ x ≠ 58 ∧ x ≠ 10) : HasUnits e t := by
  refine ⟨t.map fun x => [x], by induction t with
    | nil => rfl
    | cons x t ih => simp [ih (fun y hy => h y (List.mem_cons_of_mem _ hy))], ?_⟩
  intro u hu
  obtain ⟨x, hx, rfl⟩ := List.mem_map.1 hu
  have := h x hx
  refine ⟨Or.inl ⟨⟨x, [], rfl, by rw [nbytes_ascii e this.2.1]; rfl, ?_⟩, ?_⟩, ?_, by simp⟩
  · intro y hy; rw [List.mem_singleton] at hy; omega
  · intro h; cases h; omega
  · rintro ⟨b, hb, hm⟩
    cases hb
    simp at hm
    omega

theorem hasUnits_quoted (e : Enc) (w : Word) (h : 34 ∉ Split.format w.parts) : HasUnits e (quoted w) := by
  refine ⟨[quoted w], by simp, ?_⟩
  intro u hu
  rw [List.mem_singleton] at hu
  subst hu
  refine ⟨Or.inr ⟨_, rfl, h⟩, ?_, by simp [quoted]⟩
  rintro ⟨b, hb, _⟩
  simp [quoted] at hb

theorem hasUnits_entry (e : Enc) (ks : List Kind) (en : Entry Word) (hw : ∀ w ∈ en.words, Writable w) :
    HasUnits e (dumpEntry ks en) := by
  unfold dumpEntry
  refine HasUnits.append ?_ ?_
  · cases en with
    | ins b =>
      have hb := (hw b (List.mem_cons_self ..)).2.2.2.2
      exact (hasUnits_ascii e _ (by decide)).append (hasUnits_quoted e b hb)
    | del a =>
      have ha := (hw a (List.mem_cons_self ..)).2.2.2.2
      exact ((hasUnits_ascii e _ (by decide)).append (hasUnits_quoted e a ha)).append (hasUnits_ascii e _ (by decide))
    | pair ev a b =>
      have ha := (hw a (List.mem_cons_self ..)).2.2.2.2
      have hb := (hw b (List.mem_cons_of_mem _ (List.mem_cons_self ..))).2.2.2.2
      exact (((hasUnits_ascii e _ (by cases ev <;> decide)).append (hasUnits_quoted e a ha)).append
        (hasUnits_ascii e _ (by decide))).append (hasUnits_quoted e b hb)
  · unfold dumpAux
    induction ks with
    | nil => exact ⟨[], rfl, by simp⟩
    | cons k ks ih =>
      rw [List.flatMap_cons]
      refine HasUnits.append (hasUnits_ascii e _ ?_) ih
      intro x hx
      rcases List.mem_cons.1 hx with rfl | hx
      · omega
      · cases h : auxText k en with
        | none => rw [h] at hx; simp at hx
        | some t =>
          rw [h] at hx
          have := (auxText_ok k en hw t h).2 x hx
          exact ⟨this.1, this.2.1, this.2.2.1, this.2.2.2.2.1, this.2.2.2.2.2⟩

theorem dumpEntry_ne (ks : List Kind) (en : Entry Word) : dumpEntry ks en ≠ [] := by
  cases en <;> simp [dumpEntry, dumpHead]

theorem isUnit_sep (e : Enc) (b : Nat) (h : b = 58 ∨ b = 10) : IsUnit e [b] ∧ IsSep [58, 10] [b] := by
  refine ⟨Or.inl ⟨⟨b, [], rfl, by rw [nbytes_ascii e (by omega)]; rfl, ?_⟩, ?_⟩, b, rfl, ?_⟩
  · intro y hy; rw [List.mem_singleton] at hy; omega
  · intro h'; cases h'; omega
  · rcases h with rfl | rfl <;> simp

theorem path_units (e : Enc) (ks : List Kind) (ens : List (Entry Word)) (hw : ∀ en ∈ ens, ∀ w ∈ en.words, Writable w) :
    ∃ (us : List (List Nat)) (ts : List (List (List Nat))), us.flatten = dumpPath ks ens ∧ (∀ u ∈ us, IsUnit e u ∧ u ≠ []) ∧
      Fields (IsSep [58, 10]) us ts ∧ ts.map List.flatten = ens.map (dumpEntry ks) := by
  have step : ∀ (en : Entry Word) (b : Nat) (us : List (List Nat)) (ts : List (List (List Nat))), (∀ w ∈ en.words, Writable w) →
      (b = 58 ∨ b = 10) → (∀ u ∈ us, IsUnit e u ∧ u ≠ []) → Fields (IsSep [58, 10]) us ts →
      ∃ vs t, vs.flatten = dumpEntry ks en ++ b :: us.flatten ∧ (∀ u ∈ vs, IsUnit e u ∧ u ≠ []) ∧
        Fields (IsSep [58, 10]) vs (t :: ts) ∧ t.flatten = dumpEntry ks en := by
    intro en b us ts hen hb hus hf
    obtain ⟨t, h1, h2⟩ := hasUnits_entry e ks en hen
    have hsep := isUnit_sep e b hb
    refine ⟨t ++ [b] :: us, t, by simp [h1], ?_, .tok ?_ (fun x hx => (h2 x hx).2.1) hsep.2 hf, h1⟩
    · intro u hu
      rcases List.mem_append.1 hu with h | h
      · exact ⟨(h2 u h).1, (h2 u h).2.2⟩
      · rcases List.mem_cons.1 h with rfl | h
        · exact ⟨hsep.1, by simp⟩
        · exact hus u h
    · rintro rfl
      exact dumpEntry_ne ks en h1.symm
  induction ens with
  | nil =>
    have hsep := isUnit_sep e 10 (Or.inr rfl)
    exact ⟨[[10]], [], rfl, by intro u hu; rw [List.mem_singleton] at hu; rw [hu]; exact ⟨hsep.1, by simp⟩, .skip hsep.2 .nil, rfl⟩
  | cons en ens ih =>
    cases ens with
    | nil =>
      obtain ⟨vs, t, h1, h2, h3, h4⟩ := step en 10 [] [] (hw en (List.mem_cons_self ..)) (Or.inr rfl) (by simp) .nil
      exact ⟨vs, [t], by simpa [dumpPath] using h1, h2, h3, by simp [h4]⟩
    | cons en' ens =>
      obtain ⟨us, ts, g1, g2, g3, g4⟩ := ih (fun x hx => hw x (List.mem_cons_of_mem _ hx))
      obtain ⟨vs, t, h1, h2, h3, h4⟩ := step en 58 us ts (hw en (List.mem_cons_self ..)) (Or.inl rfl) g2 g3
      refine ⟨vs, t :: ts, ?_, h2, h3, by rw [List.map_cons, h4, g4]; rfl⟩
      rw [h1, g1]
      simp only [dumpPath]

theorem units_of {e : Enc} {us : List (List Nat)} (h : ∀ u ∈ us, IsUnit e u) : Units e us := by
  induction us with
  | nil => exact .nil
  | cons u us ih => exact .cons (h u (List.mem_cons_self ..)) (ih fun v hv => h v (List.mem_cons_of_mem _ hv))

theorem units_length {us : List (List Nat)} (h : ∀ u ∈ us, u ≠ []) : us.length ≤ us.flatten.length := by
  induction us with
  | nil => simp
  | cons u us ih =>
    have := ih fun v hv => h v (List.mem_cons_of_mem _ hv)
    have h2 : 0 < u.length := List.length_pos_iff.2 (h u (List.mem_cons_self ..))
    simp only [List.length_cons, List.flatten_cons, List.length_append]
    omega

theorem loadEntries_spec (ks : List Kind) (ens : List (Entry Word)) (hw : ∀ en ∈ ens, ∀ w ∈ en.words, Writable w) :
    loadEntries ks (ens.map (dumpEntry ks)) = some (ens.map (expected readValue ks)) := by
  induction ens with
  | nil => rfl
  | cons en ens ih =>
    simp only [List.map_cons, loadEntries]
    rw [loadEntry_spec ks en (hw en (List.mem_cons_self ..)), ih (fun x hx => hw x (List.mem_cons_of_mem _ hx))]
    rfl

theorem loadPath_spec (e : Enc) (ks : List Kind) (ens : List (Entry Word)) (hw : ∀ en ∈ ens, ∀ w ∈ en.words, Writable w) :
    loadPath e ks (dumpPath ks ens) = some (ens.map (expected readValue ks)) := by
  obtain ⟨us, ts, h1, h2, h3, h4⟩ := path_units e ks ens hw
  unfold loadPath
  rw [← h1]
  obtain ⟨ts', g1, g2⟩ := strqtokAll_spec e [58, 10] (by decide) (by decide) us (units_of fun u hu => (h2 u hu).1) none
    (some us.flatten) rfl (us.flatten.length + 1) (by have := units_length fun u hu => (h2 u hu).2; omega)
  rw [g1, g2.unique h3, h4]
  exact loadEntries_spec ks ens hw

end Verif.Sgml
