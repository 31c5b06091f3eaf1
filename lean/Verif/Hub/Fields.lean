import Verif.Hub.Lemmas
import Verif.Rttm2Ctm.Lemmas
/-!
# Lemmas on fields, names and filters
-/
set_option autoImplicit false
namespace Verif.Hub
open Verif.TextVal
open Verif.Rttm2Ctm (take_all take_stop layout_words' layout_field layout_unique)

theorem field_nil (n : Nat) : field n [] = [] := by
  induction n with
  | zero => rfl
  | succ n ih => exact ih

theorem drop_space {t : List Char} (h : ∀ c ∈ t, space c = true) : t.dropWhile space = [] := (take_all h).2

theorem word_end {w t : List Char} (hw : ∀ c ∈ w, space c = false) (ht : ∀ c r, t = c :: r → space c = true) :
    (w ++ t).takeWhile (fun c => !space c) = w ∧ (w ++ t).dropWhile (fun c => !space c) = t := by
  have hw' : ∀ c ∈ w, (!space c) = true := fun c hc => by rw [hw c hc]; rfl
  cases t with
  | nil =>
    rw [List.append_nil]
    exact take_all hw'
  | cons c r =>
    exact take_stop hw' (by rw [ht c r rfl]; rfl)

theorem space_end {g t : List Char} (hg : ∀ c ∈ g, space c = true) (ht : ∀ c r, t = c :: r → space c = false) :
    (g ++ t).takeWhile space = g ∧ (g ++ t).dropWhile space = t := by
  cases t with
  | nil =>
    rw [List.append_nil]
    exact take_all hg
  | cons c r => exact take_stop hg (ht c r rfl)

theorem not_space {w : List Char} (h : Some (fun c => !space c) w) : ∀ c ∈ w, space c = false := fun c hc => by
  have := h.2 c hc
  simpa using this

theorem field_layout {fs : List (List Char)} {l : List Char} (h : Layout fs l) (n : Nat) : field n l = nth fs n := by
  induction h generalizing n with
  | last w t hw ht =>
    rw [white_eq] at hw ht
    have := word_end (t := t) (not_space hw) (fun c r e => ht c (by rw [e]; exact List.mem_cons_self))
    cases n with
    | zero => exact this.1
    | succ n =>
      unfold field next
      rw [this.2, drop_space ht, field_nil]
      rfl
  | cons w g fs l hw hg hl ih =>
    rw [white_eq] at hw hg
    obtain ⟨_, c, l', rfl, hc⟩ := (layout_iff _ _).1 hl
    have h1 : ∀ x r, g ++ (c :: l') = x :: r → space x = true := by
      intro x r e
      cases g with
      | nil => exact absurd rfl hg.1
      | cons y g =>
        injection e with e1 _
        rw [← e1]
        exact hg.2 y List.mem_cons_self
    have h2 := word_end (t := g ++ c :: l') (not_space hw) h1
    have h3 := space_end (t := c :: l') hg.2 (fun x r e => by injection e with e1 _; rw [← e1]; exact hc)
    rw [List.append_assoc]
    cases n with
    | zero => exact h2.1
    | succ n =>
      unfold field next
      rw [h2.2, h3.2, ih]
      rfl

theorem comment_take (l : List Char) : comment l = (l.take 2 == [';', ';']) := by
  match l with
  | [] => rfl
  | [c] => simp [comment, List.isPrefixOf]
  | c :: d :: s =>
    simp only [comment, List.take, show ";;".toList = [';', ';'] from rfl, List.isPrefixOf, Bool.and_true]
    rw [Bool.eq_iff_iff]
    simp only [Bool.and_eq_true, beq_iff_eq, List.cons.injEq, and_true]
    constructor
    · rintro ⟨h1, h2⟩
      exact ⟨h1.symm, h2.symm⟩
    · rintro ⟨h1, h2⟩
      exact ⟨h1.symm, h2.symm⟩

theorem records_eq (lines : List (List Char)) :
    (lines.map (fun l => l.dropWhile space)).filter (fun l => !(comment l || l.isEmpty)) = records lines := by
  unfold records
  rw [show bare = (fun l => l.dropWhile space) from by unfold bare; rw [white_eq]]
  apply List.filter_congr
  intro l _
  rw [comment_take, Bool.not_or]
  cases l with
  | nil => rfl
  | cons => rfl

theorem comments_eq (lines : List (List Char)) : (lines.map (fun l => l.dropWhile space)).filter comment = comments lines := by
  unfold comments
  rw [show bare = (fun l => l.dropWhile space) from by unfold bare; rw [white_eq]]
  apply List.filter_congr
  intro l _
  exact comment_take l

theorem bare_start (l : List Char) : bare l = [] ∨ ∃ c s, bare l = c :: s ∧ space c = false := by
  unfold bare
  rw [white_eq]
  induction l with
  | nil => exact .inl rfl
  | cons c s ih =>
    rw [List.dropWhile_cons]
    split
    · exact ih
    · rename_i h
      exact .inr ⟨c, s, rfl, by simpa using h⟩

/-- A record has a first field. -/
theorem record_layout {lines : List (List Char)} {l : List Char} (h : l ∈ records lines) : ∃ fs, Layout fs l := by
  obtain ⟨h1, h2⟩ := List.mem_filter.1 h
  obtain ⟨x, _, rfl⟩ := List.mem_map.1 h1
  rcases bare_start x with e | ⟨c, s, e, hc⟩
  · rw [e] at h2
    cases h2
  · refine ⟨words [] (bare x), words_layout (bare x).length _ (Nat.le_refl _) ⟨c, s, e, hc⟩⟩

theorem sep_one {g : List Char} {lines : List (List Char)} (hg : Some white g) (h : OneSep g lines) : ∀ x ∈ records lines, sep x = g := by
  intro x hx
  obtain ⟨f, rest, rfl, h1, h2⟩ := h x hx
  rw [white_eq] at hg h1 h2
  have e1 : ∀ c r, g ++ rest = c :: r → space c = true := by
    intro c r e
    cases g with
    | nil => exact absurd rfl hg.1
    | cons y g =>
      injection e with e1 _
      rw [← e1]
      exact hg.2 y List.mem_cons_self
  unfold sep
  rw [List.append_assoc, (word_end h1 e1).2, (space_end hg.2 h2).1]

theorem join_eq (fs : List (List Char)) : join fs = spaced fs := by
  induction fs with
  | nil => rfl
  | cons f fs ih =>
    cases fs with
    | nil => rfl
    | cons g fs =>
      rw [join, spaced, ih]
      · simp
      · simp

theorem parts_plain (s cur : List Char) (h : ¬ Contains "\\#" s) : parts cur s = [cur.reverse ++ s] := by
  induction s generalizing cur with
  | nil => simp [parts]
  | cons c s ih =>
    cases s with
    | nil => simp [parts]
    | cons d t =>
      have hn : ¬ (c == '\\' && d == '#') = true := by
        intro e
        rw [Bool.and_eq_true, beq_iff_eq, beq_iff_eq] at e
        exact h ⟨[], t, by rw [e.1, e.2]; rfl⟩
      rw [parts, if_neg hn, ih]
      · simp
      · rintro ⟨a, b, e⟩
        exact h ⟨c :: a, b, by rw [e]; rfl⟩

theorem parts_mark (f cur t : List Char) (h : ¬ Contains "\\#" f) :
    parts cur (f ++ '\\' :: '#' :: t) = (cur.reverse ++ f) :: parts [] t := by
  induction f generalizing cur with
  | nil => simp [parts]
  | cons c f ih =>
    have hf : ¬ Contains "\\#" f := by
      rintro ⟨a, b, e⟩
      exact h ⟨c :: a, b, by rw [e]; rfl⟩
    cases f with
    | nil =>
      have e1 : parts cur ([c] ++ '\\' :: '#' :: t) = parts (c :: cur) ([] ++ '\\' :: '#' :: t) := by
        change (if (c == '\\' && '\\' == '#') = true then _ else _) = _
        rw [if_neg (by simp)]
        rfl
      rw [e1, ih _ hf]
      simp
    | cons d f =>
      have hn : ¬ (c == '\\' && d == '#') = true := by
        intro e
        rw [Bool.and_eq_true, beq_iff_eq, beq_iff_eq] at e
        exact h ⟨[], f, by rw [e.1, e.2]; rfl⟩
      rw [List.cons_append, List.cons_append, parts, if_neg hn, ← List.cons_append, ih _ hf]
      simp

end Verif.Hub
