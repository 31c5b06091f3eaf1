import Verif.Split.Escape
/-!
# Character scoring (C44) and the escaped parts of words (C42)
-/
set_option autoImplicit false
namespace Verif.Split
open Verif.Text Verif.Lines

/-! ## C44 -/

/-- **C44**: for every text, encoding and choice of flags the separated text fits into the buffer (which grows as needed)
and is a sequence of glyphs such that (1) leaving out the blanks gives the glyphs of the input without blanks, and without
hyphens if their deletion was requested; (2) its blank-separated fields are exactly the units to be scored. -/
theorem separate_chars (e : Enc) (f : Flags) (hg : f.guarani = true → e = .utf8 ∨ e = .gb) (size : Nat) (hs : 16 ≤ size)
    (cs : List (List Nat)) (hc : ∀ c ∈ cs, IsChar e c) :
    ∃ out size', separate e f size cs.flatten = some (out.flatten, size') ∧
      out.filter (· ≠ [32]) = (glyphs f.guarani cs).filter (fun g => !(f.delHyphen && g = [45]) && (g ≠ [32] : Bool)) ∧
      Fields (IsSep [32]) out (units e f (glyphs f.guarani cs)) := by
  obtain ⟨st', h1, h2⟩ := loop_spec e f hg cs.length cs (Nat.le_refl _) hc cs.flatten.length ⟨[], size, false, true⟩ (Nat.le_refl _)
    hs (by simp only [List.length_nil]; omega) (fun _ => rfl)
  refine ⟨go e f false true (glyphs f.guarani cs), st'.size, ?_, go_filter e f _ _ _, ?_⟩
  · unfold separate
    rw [h1]
    simp only [List.nil_append] at h2
    simp [h2]
  · generalize glyphs f.guarani cs = gs
    clear h2 h1 hc
    have key : runs (fun _ _ => true) (go e f false true gs) = units e f gs := by
      unfold units
      induction gs with
      | nil => rfl
      | cons g gs ih =>
        simp only [go, List.filter_cons]
        by_cases hd : f.delHyphen = true ∧ g = [45]
        · rw [if_pos hd, ih, if_neg (by simp [hd])]
        · have hk : (!(f.delHyphen && decide (g = [45]))) = true := by
            cases h1 : f.delHyphen with
            | false => rfl
            | true => simpa using fun h2 => hd ⟨h1, h2⟩
          rw [if_neg hd, if_pos hk, Bool.true_or, if_pos (by simp)]
          exact runs_go e f gs g
    rw [← key]
    exact runs_fields _

/-- A concrete case: UTF-8, only the others split, hyphens deleted: "a-b é é" gives the units "ab", "é", "é". -/
example : separate .utf8 ⟨false, true, true⟩ 100 ([97, 45, 98, 0xC3, 0xA9, 32, 0xC3, 0xA9]) =
    some ([97, 98, 32, 0xC3, 0xA9, 32, 0xC3, 0xA9], 100) ∧
    units .utf8 ⟨false, true, true⟩ (glyphs false [[97], [45], [98], [0xC3, 0xA9], [32], [0xC3, 0xA9]]) =
      [[[97], [98]], [[0xC3, 0xA9]], [[0xC3, 0xA9]]] := by decide +kernel

/-- Guarani: the `g` with a tilde is one unit, the plain `g` another. -/
example : units .utf8 ⟨true, false, false⟩ (glyphs true [[103], [0xCC, 0x83], [103]]) = [[[103, 0xCC, 0x83]], [[103]]] := by
  decide +kernel

/-- The units themselves, spelled out for the plain case (no flags): every glyph but the blanks, one by one. -/
theorem units_plain (e : Enc) (gs : List (List Nat)) : units e ⟨false, false, false⟩ gs =
    (gs.filter (· ≠ [32])).map fun g => [g] := by
  unfold units
  simp only [Bool.false_and, Bool.not_false]
  rw [List.filter_eq_self.2 (fun _ _ => rfl)]
  induction gs with
  | nil => rfl
  | cons g gs ih =>
    cases gs with
    | nil => by_cases hg : g = [32] <;> simp [runs, hg]
    | cons h gs =>
      simp only [runs, Bool.false_eq_true, and_false, if_false, ih]
      by_cases hg : g = [32]
      · simp [hg]
      · rw [if_neg hg, List.filter_cons_of_pos (a := g) (by simpa using hg), List.map_cons]

/-- The fields of a text are unique, so C44 determines the scored units; here for the plain case: the separated text's
fields are the glyphs of the input. -/
theorem separate_plain (e : Enc) (size : Nat) (hs : 16 ≤ size) (cs : List (List Nat)) (hc : ∀ c ∈ cs, IsChar e c) :
    ∃ out size', separate e ⟨false, false, false⟩ size cs.flatten = some (out.flatten, size') ∧
      Fields (IsSep [32]) out ((cs.filter (· ≠ [32])).map fun g => [g]) := by
  obtain ⟨out, size', h1, h2, h3⟩ := separate_chars e ⟨false, false, false⟩ (by simp) size hs cs hc
  refine ⟨out, size', h1, ?_⟩
  have : glyphs false cs = cs := by
    clear h1 h2 h3 hc
    induction cs with
    | nil => rfl
    | cons c cs ih =>
      cases cs with
      | nil => rfl
      | cons d ds => simp only [glyphs, Bool.false_eq_true, false_and, if_false, ih]
  rw [this, units_plain] at h3
  exact h3

/-! ## C42 -/

/-- Escaping and removing the escapes gives the text back exactly when it has no backslash. -/
theorem escape_round_trip (v : List Nat) : unescape (escape 59 v) = v ↔ 92 ∉ v := by
  rw [unescape_escape]
  constructor
  · intro h hm
    rw [← h] at hm
    simp at hm
  · exact filter_self v

/-- **C42, partial**: writing a word's parts and reading them back gives the same parts, in every encoding and for any
number of semicolons.  Missing: parts with backslashes, an empty value, a value that begins with a brace or ends with an
asterisk, and a word with only one of the tags; see below. -/
theorem word_round_trip_partial (e : Enc) (w : Parts) (hv : Clean e w.value)
    (ht1 : ∀ t, w.tag1 = some t → Clean e t) (ht2 : ∀ t, w.tag2 = some t → Clean e t)
    (hne : w.value ≠ []) (hbr : w.value.head? ≠ some 123) (hst : ¬ (1 < w.value.length ∧ w.value.getLast? = some 42))
    (htt : w.tag1 = none ↔ w.tag2 = none) : parseText e (format w) = some w := by
  obtain ⟨v, t1, t2⟩ := w
  simp only at hv ht1 ht2 hne hbr hst htt
  have hhead : ∀ rest, (escape 59 v ++ rest).head? ≠ some 123 := by
    intro rest
    cases v with
    | nil => exact absurd rfl hne
    | cons b v =>
      simp only [escape]
      split
      · simp
      · simpa using hbr
  have hnw : ∀ a b, newWord v a b = ⟨v, a, b⟩ := fun a b => if_neg hst
  have hu : ∀ x, Clean e x → unescape (escape 59 x) = x := fun x hx => (escape_round_trip x).2 (clean_no hx)
  cases t1 with
  | none =>
    have h2 : t2 = none := htt.1 rfl
    subst h2
    unfold format parseText
    simp only [and_self, if_true]
    have := hhead []
    rw [List.append_nil] at this
    rw [if_neg this]
    have := nextColon_clean hv [] (Or.inl rfl) none (by simp) (fun _ => hne)
    rw [List.append_nil] at this
    rw [this]
    simp only
    rw [hu v hv, hnw]
  | some x =>
    cases t2 with
    | none => exact absurd (htt.2 rfl) (by simp)
    | some y =>
      have hx := ht1 x rfl
      have hy := ht2 y rfl
      unfold format parseText
      simp only [reduceCtorEq, and_self, if_false, Option.getD_some, List.append_assoc, List.cons_append]
      rw [if_neg (hhead _)]
      rw [nextColon_clean hv _ (Or.inr ⟨_, rfl⟩) none (by simp) (fun _ => hne)]
      simp only
      rw [nextColon_clean hx _ (Or.inr ⟨_, rfl⟩) (some 59) (by simp) (by simp)]
      simp only
      have := nextColon_clean hy [] (Or.inl rfl) (some 59) (by simp) (by simp)
      rw [List.append_nil] at this
      rw [this]
      simp only
      rw [hu v hv, hu x hx, hu y hy, hnw]

/-- The hypotheses are met by a word with semicolons everywhere. -/
example : parseText .utf8 (format ⟨[59, 97, 59], some [59], some []⟩) = some ⟨[59, 97, 59], some [59], some []⟩ := by decide

/-- **C42 is false in general**: a backslash is lost. -/
theorem word_round_trip_backslash : parseText .utf8 (format ⟨[97, 92, 98], none, none⟩) = some ⟨[97, 98], none, none⟩ := by decide

/-- A backslash at the end of the value hides the separator, so the tags become part of the value. -/
theorem word_round_trip_swallows : parseText .utf8 (format ⟨[97, 92], some [98], some [99]⟩) =
    some ⟨[97, 59, 98], some [99], none⟩ := by decide

/-- An asterisk at the end of the value is lost. -/
theorem word_round_trip_asterisk : parseText .utf8 (format ⟨[97, 42], none, none⟩) = some ⟨[97], none, none⟩ := by decide

/-- A missing second tag comes back as an empty one. -/
theorem word_round_trip_missing_tag : parseText .utf8 (format ⟨[97], some [98], none⟩) = some ⟨[97], some [98], some []⟩ := by
  decide

/-- With an empty value the byte in front of the text is read. -/
theorem word_round_trip_empty : parseText .utf8 (format ⟨[], some [98], some [99]⟩) = none := by decide

end Verif.Split
