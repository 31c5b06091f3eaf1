import Verif.Feed.Model
/-!
# Lemmas on filling the tables
-/
set_option autoImplicit false
namespace Verif.Feed

section
variable {L X Y F : Type} [DecidableEq F] (ends : L → Bool) (read : L → Line X) (tag : Option Y → X → Y) (key : Y → F)

theorem records_cons (l : L) (ls : List L) :
    records read (l :: ls) = (match read l with | .data x => [x] | _ => []) ++ records read ls := by
  unfold records
  rw [List.filterMap_cons]
  cases read l <;> rfl

/-- What is still to be used: the words in the table and those not yet read. -/
def Tab.todo (t : Tab L Y) : List Y := t.words.drop (t.s - 1) ++ completed tag t.words.getLast? (records read t.rest)

theorem ended_tail {l : L} {ls : List L} (h : Ended ends (l :: ls)) : Ended ends ls := by
  intro x hx
  apply h
  cases ls with
  | nil => simp at hx
  | cons a b => rw [List.dropLast_cons_cons]; exact List.mem_cons_of_mem _ hx

theorem ended_last {l : L} {ls : List L} (h : Ended ends (l :: ls)) (hl : ends l = false) : ls = [] := by
  cases ls with
  | nil => rfl
  | cons a b =>
    have := h l (by rw [List.dropLast_cons_cons]; exact List.mem_cons_self)
    rw [hl] at this; cases this

theorem grow_gt {max : Nat} (h : 4 ≤ max) : max < grow max := by unfold grow; omega

/-- The loop that fills the table of words keeps what is to be read, and ends at the end of the file or with a full table whose last word
is of another file than the first. -/
theorem fillLoop_ok : ∀ (ls : List L) (ws : List Y) (max : Nat) (feof null : Bool),
    ws.length < max → 4 ≤ max → (ws.length < max - 1 ∨ (ws ≠ [] ∧ sameEnds key ws = false)) → Clean read ls → Ended ends ls →
    (feof = true → ls = []) → (null = false ∨ ws.length < max - 1) →
    ∃ (t : Tab L Y) (b : Bool), fillLoop ends read tag key ls ws max feof null = .ok (t, b) ∧
      t.s = 1 ∧ ws <+: t.words ∧ t.words.length < t.max ∧ 4 ≤ t.max ∧
      (t.words.length < t.max - 1 ∨ (t.words ≠ [] ∧ sameEnds key t.words = false)) ∧ Clean read t.rest ∧ Ended ends t.rest ∧
      (t.feof = true → t.rest = []) ∧
      t.words ++ completed tag t.words.getLast? (records read t.rest) = ws ++ completed tag ws.getLast? (records read ls) ∧
      (b = true → t.rest = []) ∧ (b = false → t.words ≠ [] ∧ sameEnds key t.words = false) := by
  intro ls
  induction ls with
  | nil =>
    intro ws max feof null h1 h2 h3 h4 h5 h6 h7
    unfold fillLoop
    by_cases hl : ws.length < max - 1
    · rw [if_pos hl]
      exact ⟨_, _, rfl, rfl, List.prefix_refl _, h1, h2, h3, h4, h5, fun _ => rfl, rfl, fun _ => rfl, nofun⟩
    · rw [if_neg hl]
      refine ⟨_, _, rfl, rfl, List.prefix_refl _, h1, h2, h3, h4, h5, fun _ => rfl, rfl, fun _ => rfl, fun _ => ?_⟩
      exact h3.resolve_left hl
  | cons l ls ih =>
    intro ws max feof null h1 h2 h3 h4 h5 h6 h7
    unfold fillLoop
    have hfe : feof = false := by
      cases feof with
      | false => rfl
      | true => exact absurd (h6 rfl) (by simp)
    subst hfe
    by_cases hl : ws.length < max - 1
    · rw [if_pos hl]
      have hc : Clean read ls := fun x hx => h4 x (List.mem_cons_of_mem _ hx)
      have he := ended_tail ends h5
      have hf : (false || !ends l) = true → ls = [] := by
        intro h
        apply ended_last ends h5
        simpa using h
      rcases h4 l List.mem_cons_self with hr | ⟨x, hr⟩
      · rw [hr]
        dsimp only
        obtain ⟨t, b, g1, g2, g3, g4, g5, g6, g7, g8, g9, g10, g11, g12⟩ :=
          ih ws max (false || !ends l) false h1 h2 h3 hc he hf (.inl rfl)
        refine ⟨t, b, g1, g2, g3, g4, g5, g6, g7, g8, g9, ?_, g11, g12⟩
        rw [g10, records_cons, hr]
        rfl
      · rw [hr]
        dsimp only
        rw [if_pos (show ws.length + 1 < max by omega)]
        have hlen : (ws ++ [tag ws.getLast? x]).length = ws.length + 1 := by simp
        have key1 : ∃ max', (if max - 1 ≤ ws.length + 1 ∧ sameEnds key (ws ++ [tag ws.getLast? x]) = true then grow max else max) = max' ∧
            ws.length + 1 < max' ∧ 4 ≤ max' ∧
            (ws.length + 1 < max' - 1 ∨ sameEnds key (ws ++ [tag ws.getLast? x]) = false) := by
          by_cases hc : max - 1 ≤ ws.length + 1 ∧ sameEnds key (ws ++ [tag ws.getLast? x]) = true
          · rw [if_pos hc]
            have := grow_gt h2
            exact ⟨_, rfl, by omega, by omega, .inl (by omega)⟩
          · rw [if_neg hc]
            refine ⟨_, rfl, by omega, h2, ?_⟩
            by_cases h : max - 1 ≤ ws.length + 1
            · right
              cases hs : sameEnds key (ws ++ [tag ws.getLast? x]) with
              | false => rfl
              | true => exact absurd ⟨h, hs⟩ hc
            · left; omega
        obtain ⟨max', k0, k1, k2, k3⟩ := key1
        rw [k0]
        obtain ⟨t, b, g1, g2, g3, g4, g5, g6, g7, g8, g9, g10, g11, g12⟩ :=
          ih (ws ++ [tag ws.getLast? x]) max' (false || !ends l) false (by rw [hlen]; exact k1) k2
            (by rw [hlen]; exact k3.imp id (fun h => ⟨by simp, h⟩)) hc he hf (.inl rfl)
        refine ⟨t, b, g1, g2, (List.prefix_append _ _).trans g3, g4, g5, g6, g7, g8, g9, ?_, g11, g12⟩
        rw [g10, records_cons, hr]
        rw [List.getLast?_append]
        simp [completed]
    · rw [if_neg hl]
      have hs := h3.resolve_left hl
      have hnull := h7.resolve_right hl
      exact ⟨_, _, rfl, rfl, List.prefix_refl _, h1, h2, h3, h4, h5, (nofun), rfl,
        fun h => absurd (hnull.symm.trans h) (by simp), fun _ => hs⟩

/-- What holds of the table of words between the steps of the program. -/
structure Tab.Inv (t : Tab L Y) : Prop where
  pos : 1 ≤ t.s
  le : t.s ≤ t.words.length + 1
  cap : t.words.length < t.max
  big : 4 ≤ t.max
  full : t.words.length < t.max - 1 ∨ (t.words ≠ [] ∧ sameEnds key t.words = false)
  clean : Clean read t.rest
  ended : Ended ends t.rest
  feof : t.feof = true → t.rest = []
  used : t.s = t.words.length + 1 → t.words = [] ∨ records read t.rest = []

theorem drop_getLast? {A : Type} (l : List A) (n : Nat) (h : n < l.length) : (l.drop n).getLast? = l.getLast? := by
  rw [List.getLast?_drop, if_neg (by omega)]

theorem sameEnds_of_run (ws : List Y) (hb : bound key ws 1 = ws.length) (hne : ws ≠ []) : sameEnds key ws = true := by
  cases ws with
  | nil => exact absurd rfl hne
  | cons w vs =>
    unfold bound at hb
    simp only [Nat.sub_self, List.drop_zero, List.length_cons] at hb
    have hall : vs.takeWhile (fun v => decide (key v = key w)) = vs := by
      apply (List.takeWhile_sublist _).eq_of_length
      omega
    unfold sameEnds
    rw [List.head?_cons]
    cases hv : vs.getLast? with
    | none =>
      rw [List.getLast?_eq_none_iff] at hv
      subst hv
      simp
    | some b =>
      have hm : b ∈ vs := List.mem_of_getLast? hv
      rw [← hall] at hm
      have hb' : decide (key b = key w) = true := by
        have := List.all_takeWhile (l := vs) (p := fun v => decide (key v = key w))
        exact List.all_eq_true.mp this b hm
      rw [List.getLast?_cons, hv]
      simpa using hb'

theorem bound_le (ws : List Y) (s : Nat) (h1 : 1 ≤ s) : bound key ws s ≤ ws.length := by
  unfold bound
  have hl := List.length_drop (i := s - 1) (l := ws)
  cases hd : ws.drop (s - 1) with
  | nil => exact Nat.le_refl _
  | cons w vs =>
    rw [hd] at hl
    have := (List.takeWhile_sublist (fun v => decide (key v = key w)) (l := vs)).length_le
    simp only [List.length_cons] at hl ⊢
    omega

/-- One filling, when the words of the current file reach the end of the table. -/
theorem fill_ok (t : Tab L Y) (h : t.Inv ends read key) (hb : bound key t.words t.s = t.words.length) :
    ∃ (t' : Tab L Y) (b : Bool), fill ends read tag key t = .ok (t', b) ∧ t'.Inv ends read key ∧ t'.s = 1 ∧
      t'.todo read tag = t.todo read tag ∧ (b = true → t'.rest = []) ∧
      (b = false → bound key t'.words t'.s < t'.words.length) := by
  have fin : ∀ (ws : List Y), ws.length < t.max → (ws.length < t.max - 1) →
      ws ++ completed tag ws.getLast? (records read t.rest) = t.todo read tag →
      ∃ (t' : Tab L Y) (b : Bool), fillLoop ends read tag key t.rest ws t.max t.feof true = .ok (t', b) ∧ t'.Inv ends read key ∧ t'.s = 1 ∧
        t'.todo read tag = t.todo read tag ∧ (b = true → t'.rest = []) ∧
        (b = false → bound key t'.words t'.s < t'.words.length) := by
    intro ws h1 h2 h3
    obtain ⟨t', b, g1, g2, g3, g4, g5, g6, g7, g8, g9, g10, g11, g12⟩ :=
      fillLoop_ok ends read tag key t.rest ws t.max t.feof true h1 h.big (.inl h2) h.clean h.ended h.feof (.inr h2)
    refine ⟨t', b, g1, ⟨by omega, by omega, g4, g5, g6, g7, g8, g9, ?_⟩, g2, ?_, g11, ?_⟩
    · intro hs
      left
      have : t'.words.length = 0 := by omega
      exact List.length_eq_zero_iff.mp this
    · unfold Tab.todo
      rw [g2, Nat.sub_self, List.drop_zero, g10, h3]
      rfl
    · intro hbf
      obtain ⟨e1, e2⟩ := g12 hbf
      rw [g2]
      have hle := bound_le key t'.words 1 (Nat.le_refl _)
      rcases Nat.lt_or_eq_of_le hle with h | h
      · exact h
      · rw [sameEnds_of_run key _ h e1] at e2; cases e2
  unfold fill
  by_cases hs : 1 < t.s
  · rw [if_pos hs, if_pos h.le]
    have hcap := h.cap
    have hbig := h.big
    apply fin
    · rw [List.length_drop]; omega
    · rw [List.length_drop]; omega
    · unfold Tab.todo
      by_cases hlt : t.s - 1 < t.words.length
      · rw [drop_getLast? _ _ hlt]
      · have hle := h.le
        have he : t.s = t.words.length + 1 := by omega
        rcases h.used he with hu | hu
        · have h0 := congrArg List.length hu
          rw [List.length_nil] at h0
          omega
        · rw [hu]; rfl
  · rw [if_neg hs]
    have hs1 : t.s = 1 := by have := h.pos; omega
    have hlt : t.words.length < t.max - 1 := by
      rcases h.full with hf | ⟨e1, e2⟩
      · exact hf
      · rw [hs1] at hb
        rw [sameEnds_of_run key _ hb e1] at e2; cases e2
    apply fin _ h.cap hlt
    unfold Tab.todo
    rw [hs1]; rfl

/-- Filling: afterwards the table has all words of the current file, and the next word if there is more to read. -/
theorem fillWords_ok (f : Nat) (hf : 2 ≤ f) (t : Tab L Y) (h : t.Inv ends read key) :
    ∃ t' : Tab L Y, fillWords ends read tag key f t = .ok t' ∧ t'.Inv ends read key ∧
      t'.todo read tag = t.todo read tag ∧ (bound key t'.words t'.s < t'.words.length ∨ t'.rest = []) := by
  obtain ⟨f, rfl⟩ : ∃ g, f = g + 2 := ⟨f - 2, by omega⟩
  unfold fillWords refill
  by_cases hc : bound key t.words t.s = t.words.length ∧ t.feof = false
  · rw [if_pos hc]
    obtain ⟨t', b, g1, g2, g3, g4, g5, g6⟩ := fill_ok ends read tag key t h hc.1
    rw [g1]
    simp only [Res.bind]
    unfold refill
    cases b with
    | true =>
      rw [if_neg (by simp)]
      exact ⟨t', rfl, g2, g4, .inr (g5 rfl)⟩
    | false =>
      have hlt := g6 rfl
      have hno : ¬ (bound key t'.words t'.s = t'.words.length ∧ (t.feof || false) = false) := by
        intro hh; omega
      rw [if_neg hno]
      exact ⟨t', rfl, g2, g4, .inl hlt⟩
  · rw [if_neg hc]
    refine ⟨t, rfl, h, rfl, ?_⟩
    cases hfe : t.feof with
    | true => exact .inr (h.feof hfe)
    | false =>
      left
      have hle := bound_le key t.words t.s h.pos
      rcases Nat.lt_or_eq_of_le hle with h' | h'
      · exact h'
      · exact absurd ⟨h', hfe⟩ hc

theorem init_inv (max : Nat) (hm : 4 ≤ max) (lines : List L) (hc : Clean read lines) (he : Ended ends lines) :
    (Tab.init max lines : Tab L Y).Inv ends read key where
  pos := Nat.le_refl _
  le := Nat.le_refl _
  cap := by simp [Tab.init]; omega
  big := hm
  full := .inl (by simp [Tab.init]; omega)
  clean := hc
  ended := he
  feof := nofun
  used := fun _ => .inl rfl

end

end Verif.Feed
