import Verif.Expand.Model
import Verif.LineStyle.Lexing
/-!
# The words of a text with `_` and `#` for blanks
-/
set_option autoImplicit false
namespace Verif.Expand
open Verif.LineStyle

theorem replaceGo_map (bad good : Char) : ∀ (cs done : List Char),
    replaceGo bad good done cs = done.reverse ++ cs.map (fun c => if c = bad then good else c) := by
  intro cs
  induction cs with
  | nil => intro done; simp [replaceGo]
  | cons c cs ih =>
    intro done
    rw [replaceGo]
    by_cases h : c = bad
    · rw [if_pos h, ih]; simp [h]
    · rw [if_neg h, ih]; simp [h]

/-- The blank a character stands for. -/
def bl (c : Char) : Char := if c = '_' ∨ c = '#' then ' ' else c

theorem replaceChars (l : List Char) : replaceChar (replaceChar l '_' ' ') '#' ' ' = l.map bl := by
  rw [replaceChar, replaceChar, replaceGo_map, replaceGo_map]
  simp only [List.reverse_nil, List.nil_append, List.map_map]
  refine List.map_congr_left ?_
  intro c _
  simp only [Function.comp, bl]
  by_cases h1 : c = '_'
  · subst h1; decide
  · rw [if_neg h1]
    by_cases h2 : c = '#'
    · rw [if_pos h2, if_pos (Or.inr h2)]
    · rw [if_neg h2, if_neg (by rintro (h | h) <;> contradiction)]

theorem bl_sign {c : Char} (h : isSign c = true) : bl c = c := by
  simp only [isSign, Bool.or_eq_true, decide_eq_true_eq] at h
  rcases h with ((h | h) | h) | h <;> subst h <;> decide

theorem bl_not_sign {c : Char} (h : ¬ isSign c = true) : ¬ isSign (bl c) = true := by
  unfold bl
  split
  · decide
  · exact h

theorem map_blank (l : List Char) : (blank l).map bl = blank l := by
  cases l with
  | nil => rfl
  | cons b l =>
    rw [blank]
    split
    · rfl
    · decide

theorem filter_words_bl : ∀ (cs done : List Char),
    words [] ((filterGo done cs).map bl) = (scan [] (done.map bl).reverse).1 ++ lex (scan [] (done.map bl).reverse).2 (cs.map bl)
  | [], done => by
    rw [filterGo]
    have := words_append (done.map bl).reverse [] []
    rw [List.append_nil] at this
    rw [List.map_reverse, this]; rfl
  | c :: cs, done => by
    rw [filterGo]
    by_cases hs : isSign c = true
    · rw [if_pos hs, filter_words_bl cs]
      have hsp := sign_not_space c hs
      have hk : (scan [] ((blank done ++ done).map bl).reverse).2 = [] ∧
          (scan [] ((blank done ++ done).map bl).reverse).1 = (scan [] (done.map bl).reverse).1 ++ push (scan [] (done.map bl).reverse).2 := by
        rw [List.map_append, map_blank]
        cases done with
        | nil => simp [blank, scan, push]
        | cons b done =>
          by_cases hbs : b = ' '
          · subst hbs
            have := scan_blank_last (done.map bl)
            simp only [blank, if_true, List.nil_append, List.map_cons]
            rw [show bl ' ' = ' ' from by decide, this]
            simp [push]
          · simp only [blank, if_neg hbs]
            refine ⟨scan_blank_last ((b :: done).map bl), ?_⟩
            simp only [List.cons_append, List.nil_append]
            rw [List.reverse_cons (a := ' '), scan_append]
            simp [scan, isSpace]
      have h2 : (scan [] ((c :: (blank done ++ done)).map bl).reverse) = ((scan [] (done.map bl).reverse).1 ++ push (scan [] (done.map bl).reverse).2, [c]) := by
        rw [List.map_cons, bl_sign hs, List.reverse_cons, scan_append, hk.1, hk.2]
        simp [scan, hsp]
      have hlex : lex (scan [] (done.map bl).reverse).2 ((c :: cs).map bl) = push (scan [] (done.map bl).reverse).2 ++ [c] :: lex [] (cs.map bl) := by
        rw [List.map_cons, bl_sign hs, lex, hsp, hs]; rfl
      rw [hlex]
      cases cs with
      | nil =>
        rw [show blank [] = [] from rfl, List.nil_append, h2]
        simp [lex]
      | cons d ds =>
        by_cases hd : d = ' '
        · rw [show blank (d :: ds) = [] from by simp [blank, hd], List.nil_append, h2]
          subst hd
          rw [List.map_cons, show bl ' ' = ' ' from by decide]
          simp [lex, isSpace]
        · have h3 : scan [] ((' ' :: c :: (blank done ++ done)).map bl).reverse
              = ((scan [] (done.map bl).reverse).1 ++ push (scan [] (done.map bl).reverse).2 ++ [[c]], []) := by
            rw [List.map_cons, List.reverse_cons, scan_append, h2, show bl ' ' = ' ' from by decide]
            simp [scan, isSpace, push]
          rw [show blank (d :: ds) = [' '] from by simp [blank, hd]]
          simp only [List.cons_append, List.nil_append]
          rw [h3]
          simp
    · rw [if_neg hs, filter_words_bl cs, List.map_cons, List.reverse_cons, scan_append]
      rw [List.map_cons, lex]
      have hs' := bl_not_sign hs
      by_cases hsp : isSpace (bl c) = true
      · simp [scan, hsp, push]
      · simp [scan, hsp, hs']

theorem text_words (w : List Char) : words [] (replaceChar (replaceChar (filterSpace w) '_' ' ') '#' ' ') = lex [] (blanked w) := by
  rw [replaceChars]
  exact filter_words_bl w []

theorem marked_iff (w : List Char) : marked w = true ↔ Marked w := by
  simp only [marked, Marked, Bool.and_eq_true, List.any_eq_true, Bool.or_eq_true, decide_eq_true_eq]
  constructor
  · rintro ⟨⟨c, h1, h2⟩, d, h3, h4⟩
    rcases h2 with rfl | rfl
    · rcases h4 with rfl | rfl
      · exact Or.inl h3
      · exact Or.inr ⟨h1, h3⟩
    · exact Or.inl h1
  · rintro (h | ⟨h1, h2⟩)
    · exact ⟨⟨_, h, Or.inr rfl⟩, _, h, Or.inl rfl⟩
    · exact ⟨⟨_, h1, Or.inl rfl⟩, _, h2, Or.inr rfl⟩

end Verif.Expand
