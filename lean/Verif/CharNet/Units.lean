import Verif.CharNet.Spec
import Verif.Split.Lemmas
/-!
# Units of a word
-/
set_option autoImplicit false
namespace Verif.CharNet
open Verif.Net Verif.Text Verif.Split Verif.NetBuild Verif.Lines

theorem isChar_pos {e : Enc} {c : List Nat} (h : IsChar e c) : c ≠ [] := by
  obtain ⟨b, r, e, _⟩ := h
  rw [e]; simp

theorem chars_go {e : Enc} : ∀ (cs : List (List Nat)), (∀ c ∈ cs, IsChar e c) → ∀ k, cs.flatten.length ≤ k → charsGo e k cs.flatten = cs := by
  intro cs
  induction cs with
  | nil => intro _ k _; cases k <;> rfl
  | cons c cs ih =>
    intro h k hk
    obtain ⟨b, r, rfl, hn, _⟩ := h c (List.mem_cons_self ..)
    rw [List.flatten_cons, List.length_append, List.length_cons] at hk
    cases k with
    | zero => omega
    | succ k =>
      rw [List.flatten_cons, List.cons_append, charsGo, hn]
      simp only [Option.getD_some]
      rw [← List.cons_append, List.take_left' rfl, List.drop_left' rfl, ih (fun c hc => h c (List.mem_cons_of_mem _ hc)) k (by omega)]

theorem chars_flatten {e : Enc} {cs : List (List Nat)} (h : ∀ c ∈ cs, IsChar e c) : chars e cs.flatten = cs :=
  chars_go cs h _ (Nat.le_refl _)

theorem glyphs_flatten (g : Bool) : ∀ cs : List (List Nat), (glyphs g cs).flatten = cs.flatten
  | [] => rfl
  | [c] => rfl
  | c :: d :: cs => by
    unfold glyphs
    split
    · rw [List.flatten_cons, glyphs_flatten g cs]; simp
    · rw [List.flatten_cons, glyphs_flatten g (d :: cs)]; simp

theorem runs_flatten (j : List Nat → List Nat → Bool) : ∀ gs : List (List Nat), (runs j gs).flatten = gs.filter (· ≠ [32])
  | [] => rfl
  | [g] => by
    unfold runs
    by_cases h : g = [32] <;> simp [h]
  | g :: h :: gs => by
    have ih := runs_flatten j (h :: gs)
    unfold runs
    by_cases hg : g = [32]
    · rw [if_pos hg, ih, hg, List.filter_cons_of_neg (a := [32]) (by simp)]
    · rw [if_neg hg, List.filter_cons_of_pos (by simpa using hg), ← ih]
      split
      · split
        · rename_i hr; rw [hr]; simp
        · rename_i r rs hr; rw [hr]; simp
      · simp

/-- A run: not empty, no blanks, neighbours belong together. -/
inductive Run (j : List Nat → List Nat → Bool) : List (List Nat) → Prop where
  | one (g : List Nat) : g ≠ [32] → Run j [g]
  | cons (g h : List Nat) (r : List (List Nat)) : g ≠ [32] → j g h = true → Run j (h :: r) → Run j (g :: h :: r)

theorem Run.head_ne {j : List Nat → List Nat → Bool} {g : List Nat} {r : List (List Nat)} (h : Run j (g :: r)) : g ≠ [32] := by
  cases h <;> assumption

theorem runs_run (j : List Nat → List Nat → Bool) : ∀ gs : List (List Nat), (∀ r ∈ runs j gs, Run j r) ∧
    (∀ g t, gs = g :: t → g ≠ [32] → ∃ r rs, runs j gs = (g :: r) :: rs)
  | [] => ⟨(by intro r h; cases h), (by intro g t h; cases h)⟩
  | [g] => by
    unfold runs
    refine ⟨?_, ?_⟩
    · intro r h
      split at h
      · cases h
      · rename_i hg; rw [List.mem_singleton.1 h]; exact .one g hg
    · intro g' t h hg
      cases h
      rw [if_neg hg]; exact ⟨_, _, rfl⟩
  | g :: h :: gs => by
    obtain ⟨ih1, ih2⟩ := runs_run j (h :: gs)
    unfold runs
    by_cases hg : g = [32]
    · rw [if_pos hg]
      exact ⟨ih1, fun g' t e hg' => by cases e; exact absurd hg hg'⟩
    · rw [if_neg hg]
      by_cases hj : h ≠ [32] ∧ j g h = true
      · rw [if_pos hj]
        obtain ⟨r, rs, hr⟩ := ih2 h gs rfl hj.1
        rw [hr]
        rw [hr] at ih1
        simp only
        refine ⟨?_, fun g' t e _ => by cases e; exact ⟨_, _, rfl⟩⟩
        intro x hx
        rcases List.mem_cons.1 hx with e | e
        · rw [e]; exact .cons g h r hg hj.2 (ih1 _ (List.mem_cons_self ..))
        · exact ih1 x (List.mem_cons_of_mem _ e)
      · rw [if_neg hj]
        refine ⟨?_, fun g' t e _ => by cases e; exact ⟨_, _, rfl⟩⟩
        intro x hx
        rcases List.mem_cons.1 hx with e | e
        · rw [e]; exact .one g hg
        · exact ih1 x e

theorem run_runs {j : List Nat → List Nat → Bool} {r : List (List Nat)} (h : Run j r) : runs j r = [r] := by
  induction h with
  | one g hg => unfold runs; rw [if_neg hg]
  | cons g h r hg hj hr ih =>
    unfold runs
    rw [if_neg hg, if_pos ⟨hr.head_ne, hj⟩, ih]

/-- Runs with blanks in between. -/
def sepd : List (List (List Nat)) → List (List Nat)
  | [] => []
  | r :: rs => r ++ rs.flatMap fun r => [32] :: r

theorem go_next (e : Enc) (f : Split.Flags) : ∀ (gs : List (List Nat)), [32] ∉ gs → ∀ p : List Nat, p ≠ [32] →
    p :: go e f (asciiGlyph e p) false gs =
      sepd (runs (fun g h => f.noAscii && asciiGlyph e g && asciiGlyph e h) (p :: gs.filter fun g => !(f.delHyphen && g = [45]))) := by
  intro gs
  induction gs with
  | nil => intro _ p hp; simp [go, runs, if_neg hp, sepd]
  | cons g gs ih =>
    intro hb p hp
    have hg : g ≠ [32] := fun h => hb (h ▸ List.mem_cons_self ..)
    have hb' : [32] ∉ gs := fun h => hb (List.mem_cons_of_mem _ h)
    simp only [go, List.filter_cons]
    by_cases hd : f.delHyphen = true ∧ g = [45]
    · rw [if_pos hd, ih hb' p hp, if_neg (by simp [hd])]
    · have hk : (!(f.delHyphen && decide (g = [45]))) = true := by
        cases h1 : f.delHyphen with
        | false => rfl
        | true => simpa using fun h2 => hd ⟨h1, h2⟩
      rw [if_neg hd, if_pos hk]
      have ihg := ih hb' g hg
      generalize hY : gs.filter (fun g => !(f.delHyphen && decide (g = [45]))) = Y at *
      obtain ⟨r, rs, hr⟩ := (runs_run (fun g h => f.noAscii && asciiGlyph e g && asciiGlyph e h) (g :: Y)).2 g Y rfl hg
      rw [hr] at ihg
      have hgf : (decide (g = [32])) = false := by simpa using hg
      rw [hgf]
      simp only [Bool.false_or]
      unfold runs
      rw [if_neg hp]
      by_cases hj : (f.noAscii && asciiGlyph e g && asciiGlyph e p) = true
      · rw [if_pos hj, if_pos ⟨hg, by simp only [Bool.and_eq_true] at hj ⊢; exact ⟨⟨hj.1.1, hj.2⟩, hj.1.2⟩⟩, hr]
        simp only [List.nil_append, sepd, List.cons_append] at ihg ⊢
        rw [ihg]
      · have hj2 : ¬ (g ≠ [32] ∧ (f.noAscii && asciiGlyph e p && asciiGlyph e g) = true) := by
          rintro ⟨_, h⟩
          apply hj
          simp only [Bool.and_eq_true] at h ⊢; exact ⟨⟨h.1.1, h.2⟩, h.1.2⟩
        rw [if_neg hj, if_neg hj2, hr]
        simp only [sepd, List.cons_append, List.nil_append, List.flatMap_cons] at ihg ⊢
        rw [ihg]

theorem go_first (e : Enc) (f : Split.Flags) : ∀ (gs : List (List Nat)), [32] ∉ gs → ∀ la : Bool, go e f la true gs = sepd (units e f gs) := by
  intro gs
  induction gs with
  | nil => intro _ _; rfl
  | cons g gs ih =>
    intro hb la
    have hg : g ≠ [32] := fun h => hb (h ▸ List.mem_cons_self ..)
    have hb' : [32] ∉ gs := fun h => hb (List.mem_cons_of_mem _ h)
    unfold units
    simp only [go, List.filter_cons]
    by_cases hd : f.delHyphen = true ∧ g = [45]
    · rw [if_pos hd, ih hb', if_neg (by simp [hd])]; rfl
    · have hk : (!(f.delHyphen && decide (g = [45]))) = true := by
        cases h1 : f.delHyphen with
        | false => rfl
        | true => simpa using fun h2 => hd ⟨h1, h2⟩
      rw [if_neg hd, if_pos hk, Bool.true_or, Bool.true_or, if_pos rfl]
      have hgf : (decide (g = [32])) = false := by simpa using hg
      rw [hgf]
      exact go_next e f gs hb' g hg

/-- Texts of units with blanks in between. -/
def joinText : List (List Nat) → List Nat
  | [] => []
  | u :: us => u ++ us.flatMap fun u => 32 :: u

theorem sepd_flatten (rs : List (List (List Nat))) : (sepd rs).flatten = joinText (rs.map List.flatten) := by
  cases rs with
  | nil => rfl
  | cons r rs =>
    simp only [sepd, joinText, List.map_cons, List.flatten_append]
    congr 1
    induction rs with
    | nil => rfl
    | cons r rs ih => simp only [List.flatMap_cons, List.flatten_append, List.map_cons, ih]; simp

/-- Separating the characters of a text without blanks. -/
theorem separate_join (e : Enc) (f : Split.Flags) (hg : f.guarani = true → e = .utf8 ∨ e = .gb) (cs : List (List Nat))
    (hc : ∀ c ∈ cs, IsChar e c) (hb : [32] ∉ glyphs f.guarani cs) :
    ∃ size, separate e f 100 cs.flatten = some (joinText ((units e f (glyphs f.guarani cs)).map List.flatten), size) := by
  obtain ⟨st', h1, h2⟩ := loop_spec e f hg cs.length cs (Nat.le_refl _) hc cs.flatten.length ⟨[], 100, false, true⟩ (Nat.le_refl _)
    (by decide) (by simp) (fun _ => rfl)
  refine ⟨st'.size, ?_⟩
  unfold separate
  rw [h1]
  simp only [List.nil_append] at h2
  rw [go_first e f _ hb, sepd_flatten] at h2
  simp [h2]

theorem glyph_mem (g : Bool) : ∀ (cs : List (List Nat)) (x : List Nat), x ∈ glyphs g cs →
    x ∈ cs ∨ (g = true ∧ ∃ c, c ∈ cs ∧ [0xCC, 0x83] ∈ cs ∧ (c = [71] ∨ c = [103]) ∧ x = c ++ [0xCC, 0x83])
  | [], x, h => by cases h
  | [c], x, h => Or.inl h
  | c :: d :: cs, x, h => by
    unfold glyphs at h
    split at h
    · rename_i hc
      rcases List.mem_cons.1 h with e | e
      · exact Or.inr ⟨hc.1, c, by simp, by rw [← hc.2.2]; simp, hc.2.1, by rw [e, hc.2.2]⟩
      · rcases glyph_mem g cs x e with h1 | ⟨h0, c', h1, h2, h3⟩
        · exact Or.inl (by simp [h1])
        · exact Or.inr ⟨h0, c', by simp [h1], by simp [h2], h3⟩
    · rcases List.mem_cons.1 h with e | e
      · exact Or.inl (by simp [e])
      · rcases glyph_mem g (d :: cs) x e with h1 | ⟨h0, c', h1, h2, h3⟩
        · exact Or.inl (List.mem_cons_of_mem _ h1)
        · exact Or.inr ⟨h0, c', List.mem_cons_of_mem _ h1, List.mem_cons_of_mem _ h2, h3⟩

theorem glyphs_false : ∀ cs : List (List Nat), glyphs false cs = cs
  | [] => rfl
  | [c] => rfl
  | c :: d :: cs => by
    unfold glyphs
    rw [if_neg (by simp), glyphs_false (d :: cs)]

theorem glyphs_plain (g : Bool) : ∀ cs : List (List Nat), [0xCC, 0x83] ∉ cs → glyphs g cs = cs
  | [], _ => rfl
  | [c], _ => rfl
  | c :: d :: cs, h => by
    unfold glyphs
    rw [if_neg, glyphs_plain g (d :: cs) (fun hh => h (List.mem_cons_of_mem _ hh))]
    rintro ⟨_, _, e⟩
    exact h (by simp [e])

theorem run_ascii {e : Enc} {f : Split.Flags} {r : List (List Nat)} (h : Run (fun g h => f.noAscii && asciiGlyph e g && asciiGlyph e h) r) :
    (∃ g, r = [g]) ∨ ∀ g ∈ r, asciiGlyph e g = true := by
  induction h with
  | one g _ => exact Or.inl ⟨g, rfl⟩
  | cons g h r hg hj hr ih =>
    right
    simp only [Bool.and_eq_true] at hj
    intro x hx
    rcases List.mem_cons.1 hx with e1 | e1
    · rw [e1]; exact hj.1.2
    · rcases ih with ⟨y, e2⟩ | ih
      · rw [e2, List.mem_singleton] at e1
        have : h = y := by simpa using (List.cons.inj e2).1
        rw [e1, ← this]; exact hj.2
      · exact ih x e1

/-- Every unit is made of characters of the text, and is its own only unit. -/
theorem unit_unit {e : Enc} {f : Split.Flags} (hg : f.guarani = true → e = .utf8 ∨ e = .gb) {cs : List (List Nat)}
    (hc : ∀ c ∈ cs, IsChar e c) {r : List (List Nat)} (hr : r ∈ units e f (glyphs f.guarani cs)) :
    ∃ cr : List (List Nat), (∀ c ∈ cr, c ∈ cs) ∧ glyphs f.guarani cr = r ∧ cr.flatten = r.flatten ∧ units e f r = [r] := by
  have hrun := (runs_run _ _).1 r hr
  have hmem : ∀ g ∈ r, g ∈ glyphs f.guarani cs ∧ (!(f.delHyphen && decide (g = [45]))) = true := by
    intro g hgr
    have : g ∈ (units e f (glyphs f.guarani cs)).flatten := List.mem_flatten.2 ⟨r, hr, hgr⟩
    unfold units at this
    rw [runs_flatten] at this
    exact List.mem_filter.1 (List.mem_filter.1 this).1
  have hu : units e f r = [r] := by
    unfold units
    rw [List.filter_eq_self.2 (fun g h => (hmem g h).2)]
    exact run_runs hrun
  by_cases hgu : f.guarani = true
  · have he := hg hgu
    rcases run_ascii hrun with ⟨g, rfl⟩ | hall
    · rcases glyph_mem f.guarani cs g (hmem g (by simp)).1 with h1 | ⟨_, c, h1, h2, h3, h4⟩
      · exact ⟨[g], by simpa using h1, rfl, rfl, hu⟩
      · refine ⟨[c, [0xCC, 0x83]], ?_, ?_, by simp [h4], hu⟩
        · intro x hx
          simp only [List.mem_cons, List.not_mem_nil, or_false] at hx
          rcases hx with rfl | rfl <;> assumption
        · unfold glyphs
          rw [if_pos ⟨hgu, h3, rfl⟩, h4]
          rfl
    · have hlen : ∀ g ∈ r, g.length = 1 := by
        intro g hgr
        have := hall g hgr
        unfold asciiGlyph at this
        rcases he with rfl | rfl <;> simp at this <;> (obtain ⟨_, _, _, h⟩ := this; exact h)
      refine ⟨r, ?_, ?_, rfl, hu⟩
      · intro g hgr
        rcases glyph_mem f.guarani cs g (hmem g hgr).1 with h1 | ⟨_, c, h1, h2, h3, h4⟩
        · exact h1
        · have := hlen g hgr
          rw [h4] at this
          rcases h3 with rfl | rfl <;> simp at this
      · apply glyphs_plain
        intro h
        have := hlen _ h
        simp at this
  · have hgf : f.guarani = false := by simpa using hgu
    rw [hgf] at hmem ⊢
    rw [glyphs_false] at hmem
    exact ⟨r, fun g h => (hmem g h).1, glyphs_false r, rfl, hu⟩

/-- The units together are not longer than the text. -/
theorem units_len (e : Enc) (f : Split.Flags) (cs : List (List Nat)) :
    (((units e f (glyphs f.guarani cs)).map List.flatten).map List.length).sum ≤ cs.flatten.length := by
  have h1 : (((units e f (glyphs f.guarani cs)).map List.flatten).map List.length).sum =
      (units e f (glyphs f.guarani cs)).flatten.flatten.length := by
    generalize units e f (glyphs f.guarani cs) = us
    induction us with
    | nil => rfl
    | cons u us ih => simp only [List.map_cons, List.sum_cons, List.flatten_cons, List.flatten_append, List.length_append, ih]
  rw [h1, ← glyphs_flatten f.guarani cs]
  unfold units
  rw [runs_flatten]
  have : ∀ (p : List Nat → Bool) (l : List (List Nat)), (l.filter p).flatten.length ≤ l.flatten.length := by
    intro p l
    induction l with
    | nil => simp
    | cons x l ih =>
      rw [List.filter_cons]
      split <;> simp only [List.flatten_cons, List.length_append] <;> omega
  exact Nat.le_trans (this _ _) (this _ _)

end Verif.CharNet
