import Verif.Feed.Lemmas
/-!
# Lemmas on filling the table of reference segments
-/
set_option autoImplicit false
namespace Verif.Feed

section
variable {L Y F : Type} [DecidableEq F] (ends skip : L → Bool) (parse : L → Option Y) (p : L → Y) (key : Y → F)

/-- Every line is skipped or can be parsed. -/
def Good (lines : List L) : Prop := ∀ l ∈ lines, (skip l && ends l) = true ∨ parse l = some (p l)

/-- What is still to be used: the segments in the table and those not yet read. -/
def Stm.todo (m : Stm L Y) : List Y := m.segs.drop m.s ++ segments ends skip p m.rest

theorem segments_skip (l : L) (ls : List L) (h : (skip l && ends l) = true) :
    segments ends skip p (l :: ls) = segments ends skip p ls := by
  unfold segments
  rw [List.filter_cons, h]
  rfl

theorem segments_data (l : L) (ls : List L) (h : ¬ (skip l && ends l) = true) :
    segments ends skip p (l :: ls) = p l :: segments ends skip p ls := by
  unfold segments
  rw [Bool.not_eq_true] at h
  rw [List.filter_cons, h]
  rfl

theorem segLoop_ok : ∀ (ls : List L) (ss : List Y) (max : Nat) (feof : Bool), ss.length < max → Good ends skip parse p ls →
    Ended ends ls → (feof = true → ls = []) →
    ∃ m : Stm L Y, segLoop ends skip parse ls ss max feof = .ok m ∧ m.s = 0 ∧ m.max = max ∧ m.segs.length < max ∧
      m.eof = m.feof ∧ Good ends skip parse p m.rest ∧ Ended ends m.rest ∧ (m.feof = true → m.rest = []) ∧
      m.segs ++ segments ends skip p m.rest = ss ++ segments ends skip p ls ∧
      (feof = false → ss.length + 1 < max → m.feof = true ∨ m.rest.length < ls.length) ∧ m.rest.length ≤ ls.length ∧
      ss.length ≤ m.segs.length := by
  intro ls
  induction ls with
  | nil =>
    intro ss max feof h1 h2 h3 h4
    unfold segLoop
    by_cases hc : feof = false ∧ ss.length + 1 < max
    · rw [if_pos hc]
      exact ⟨_, rfl, rfl, rfl, h1, rfl, h2, h3, fun _ => rfl, rfl, fun _ _ => .inl rfl, Nat.le_refl _, Nat.le_refl _⟩
    · rw [if_neg hc]
      exact ⟨_, rfl, rfl, rfl, h1, rfl, h2, h3, fun _ => rfl, rfl, fun a b => absurd ⟨a, b⟩ hc, Nat.le_refl _, Nat.le_refl _⟩
  | cons l ls ih =>
    intro ss max feof h1 h2 h3 h4
    unfold segLoop
    have hfe : feof = false := by
      cases feof with
      | false => rfl
      | true => exact absurd (h4 rfl) (by simp)
    subst hfe
    have hg : Good ends skip parse p ls := fun x hx => h2 x (List.mem_cons_of_mem _ hx)
    have he := ended_tail ends h3
    by_cases hc : false = false ∧ ss.length + 1 < max
    · rw [if_pos hc]
      by_cases hs : (skip l && ends l) = true
      · rw [if_pos hs]
        obtain ⟨m, g1, g2, g3, g4, g5, g6, g7, g8, g9, g10, g11, g12⟩ := ih ss max false h1 hg he nofun
        refine ⟨m, g1, g2, g3, g4, g5, g6, g7, g8, ?_, ?_, ?_, g12⟩
        · rw [g9, segments_skip ends skip p l ls hs]
        · intro _ _
          right; rw [List.length_cons]; omega
        · rw [List.length_cons]; omega
      · rw [if_neg hs, (h2 l List.mem_cons_self).resolve_left hs]
        dsimp only
        have hf : (!ends l) = true → ls = [] := by
          intro h
          exact ended_last ends h3 (by simpa using h)
        obtain ⟨m, g1, g2, g3, g4, g5, g6, g7, g8, g9, g10, g11, g12⟩ :=
          ih (ss ++ [p l]) max (!ends l) (by simp; omega) hg he hf
        refine ⟨m, g1, g2, g3, g4, g5, g6, g7, g8, ?_, ?_, ?_, ?_⟩
        · rw [g9, segments_data ends skip p l ls hs]; simp
        · intro _ _
          right; rw [List.length_cons]; omega
        · rw [List.length_cons]; omega
        · rw [List.length_append] at g12; simp at g12; omega
    · rw [if_neg hc]
      exact ⟨_, rfl, rfl, rfl, h1, rfl, h2, h3, nofun, rfl, fun a b => absurd ⟨rfl, b⟩ hc, Nat.le_refl _, Nat.le_refl _⟩

/-- What holds of the table of segments between the steps of the program. -/
structure Stm.Inv (m : Stm L Y) : Prop where
  le : m.s ≤ m.segs.length ∨ (m.s = m.segs.length + 1 ∧ m.eof = true)
  cap : m.segs.length < m.max
  same : m.eof = m.feof
  good : Good ends skip parse p m.rest
  ended : Ended ends m.rest
  feof : m.feof = true → m.rest = []

theorem fillStm_ok (m : Stm L Y) (h : m.Inv ends skip parse p) (he : m.eof = false) :
    ∃ m' : Stm L Y, fillStm ends skip parse m = .ok m' ∧ m'.Inv ends skip parse p ∧ m'.max = m.max ∧
      m'.todo ends skip p = m.todo ends skip p ∧
      (m.segs.length + 1 < m.max → m'.eof = true ∨ m'.rest.length < m.rest.length) ∧ m'.rest.length ≤ m.rest.length := by
  have hs : m.s ≤ m.segs.length := by
    rcases h.le with hl | ⟨_, hl⟩
    · exact hl
    · rw [he] at hl; cases hl
  have hcap := h.cap
  have hfe : m.feof = false := by rw [← h.same]; exact he
  unfold fillStm
  by_cases h1 : 1 < m.s
  · rw [if_pos h1, if_pos hs]
    obtain ⟨m', g1, g2, g3, g4, g5, g6, g7, g8, g9, g10, g11, g12⟩ :=
      segLoop_ok ends skip parse p m.rest (m.segs.drop m.s) m.max m.feof (by rw [List.length_drop]; omega) h.good h.ended h.feof
    refine ⟨m', g1, ⟨.inl (by omega), by omega, g5, g6, g7, g8⟩, g3, ?_, ?_, g11⟩
    · unfold Stm.todo; rw [g2]; exact g9
    · intro _
      rw [g5]
      exact g10 hfe (by rw [List.length_drop]; omega)
  · rw [if_neg h1]
    obtain ⟨m', g1, g2, g3, g4, g5, g6, g7, g8, g9, g10, g11, g12⟩ :=
      segLoop_ok ends skip parse p m.rest m.segs m.max m.feof h.cap h.good h.ended h.feof
    rw [g1]
    simp only [Res.bind]
    refine ⟨_, rfl, ⟨.inl (by dsimp only; omega), by dsimp only; omega, g5, g6, g7, g8⟩, g3, ?_, ?_, g11⟩
    · show m'.segs.drop m.s ++ segments ends skip p m'.rest = m.segs.drop m.s ++ segments ends skip p m.rest
      rw [← List.drop_append_of_le_length (by omega), g9, List.drop_append_of_le_length hs]
    · intro hm
      show m'.eof = true ∨ _
      rw [g5]
      exact g10 hfe hm

theorem boundStm_le (ss : List Y) (s : Nat) : boundStm key ss s ≤ ss.length := by
  unfold boundStm
  have hl := List.length_drop (i := s) (l := ss)
  cases hd : ss.drop s with
  | nil => exact Nat.le_refl _
  | cons w vs =>
    rw [hd] at hl
    dsimp only
    by_cases h : vs.all (fun v => decide (key v = key w)) = true
    · rw [if_pos h]; exact Nat.le_refl _
    · rw [if_neg h]
      have := (List.takeWhile_sublist (fun v => decide (key v = key w)) (l := vs)).length_le
      simp only [List.length_cons] at hl
      omega

theorem refillStm_ok : ∀ (f : Nat) (just : Bool) (m : Stm L Y), m.Inv ends skip parse p →
    (m.rest.length + (if just then 2 else 3) ≤ f ∨ (m.eof = true ∧ 1 ≤ f)) →
    ∃ m' : Stm L Y, refillStm ends skip parse key f just m = .ok m' ∧ m'.Inv ends skip parse p ∧
      m'.todo ends skip p = m.todo ends skip p ∧ (boundStm key m'.segs m'.s < m'.segs.length ∨ m'.eof = true) ∧
      m'.rest.length ≤ m.rest.length := by
  intro f
  induction f with
  | zero =>
    intro just m _ h
    rcases h with h | h
    · split at h <;> omega
    · omega
  | succ f ih =>
    intro just m hi hf
    unfold refillStm
    by_cases hc : boundStm key m.segs m.s = m.segs.length ∧ m.eof = false
    · rw [if_pos hc]
      have hfl : m.rest.length + (if just then 2 else 3) ≤ f + 1 := by
        rcases hf with hf | hf
        · exact hf
        · rw [hc.2] at hf; exact absurd hf.1 (by simp)
      have hcap := hi.cap
      cases just with
      | true =>
        rw [if_pos rfl]
        obtain ⟨m', g1, g2, g3, g4, g5, g6⟩ := fillStm_ok ends skip parse p { m with max := m.max * 2 }
          ⟨hi.le, by dsimp only; omega, hi.same, hi.good, hi.ended, hi.feof⟩ hc.2
        rw [g1]
        simp only [Res.bind]
        have hp := g5 (by dsimp only; omega)
        dsimp only at hp g6
        rw [if_pos rfl] at hfl
        obtain ⟨m'', k1, k2, k3, k4, k5⟩ := ih true m' g2 (by
          rcases hp with hp | hp
          · exact .inr ⟨hp, by omega⟩
          · left; rw [if_pos rfl]; omega)
        exact ⟨m'', k1, k2, by rw [k3, g4]; rfl, k4, by omega⟩
      | false =>
        rw [if_neg (by simp)]
        obtain ⟨m', g1, g2, g3, g4, g5, g6⟩ := fillStm_ok ends skip parse p m hi hc.2
        rw [g1]
        simp only [Res.bind]
        rw [if_neg (by simp)] at hfl
        obtain ⟨m'', k1, k2, k3, k4, k5⟩ := ih true m' g2 (by left; rw [if_pos rfl]; omega)
        exact ⟨m'', k1, k2, by rw [k3, g4], k4, by omega⟩
    · rw [if_neg hc]
      refine ⟨m, rfl, hi, rfl, ?_, Nat.le_refl _⟩
      cases he : m.eof with
      | true => exact .inr rfl
      | false =>
        left
        rcases Nat.lt_or_eq_of_le (boundStm_le key m.segs m.s) with h | h
        · exact h
        · exact absurd ⟨h, he⟩ hc

/-- Filling: afterwards the table has all segments of the current file, and the next one if there is more to read. -/
theorem fillSegs_ok (f : Nat) (m : Stm L Y) (h : m.Inv ends skip parse p) (hf : m.rest.length + 3 ≤ f) :
    ∃ m' : Stm L Y, fillSegs ends skip parse key f m = .ok m' ∧ m'.Inv ends skip parse p ∧
      m'.todo ends skip p = m.todo ends skip p ∧ (boundStm key m'.segs m'.s < m'.segs.length ∨ m'.eof = true) ∧
      m'.rest.length ≤ m.rest.length := by
  obtain ⟨m', g1, g2, g3, g4, g5⟩ := refillStm_ok ends skip parse p key f false m h (.inl (by rw [if_neg (by simp)]; exact hf))
  exact ⟨m', g1, g2, g3, g4, g5⟩

theorem fillSegs_eof (f : Nat) (hf : 1 ≤ f) (m : Stm L Y) (h : m.eof = true) : fillSegs ends skip parse key f m = .ok m := by
  obtain ⟨f, rfl⟩ : ∃ g, f = g + 1 := ⟨f - 1, by omega⟩
  unfold fillSegs refillStm
  rw [if_neg (by rw [h]; simp)]

theorem stm_init_inv (max : Nat) (hm : 1 ≤ max) (lines : List L) (hg : Good ends skip parse p lines) (he : Ended ends lines) :
    (Stm.init max lines : Stm L Y).Inv ends skip parse p where
  le := .inl (Nat.le_refl _)
  cap := hm
  same := rfl
  good := hg
  ended := he
  feof := nofun

end

end Verif.Feed
