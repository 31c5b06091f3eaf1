import Verif.LineStyle.Model
/-!
# The words of a line
-/
set_option autoImplicit false
namespace Verif.LineStyle

/-- The word read so far, if there is one. -/
def push (cur : List Char) : List Word := if cur = [] then [] else [cur]

/-- Finished words and current word. -/
def scan : List Char → List Char → List Word × List Char
  | cur, [] => ([], cur)
  | cur, c :: cs => if isSpace c then (push cur ++ (scan [] cs).1, (scan [] cs).2) else scan (cur ++ [c]) cs

theorem words_append : ∀ (a b cur : List Char), words cur (a ++ b) = (scan cur a).1 ++ words (scan cur a).2 b
  | [], b, cur => by simp [scan]
  | c :: a, b, cur => by
    simp only [List.cons_append, words, scan]
    split
    · rw [words_append a b []]; simp [push]
    · rw [words_append a b (cur ++ [c])]

theorem scan_append : ∀ (a b cur : List Char), scan cur (a ++ b) = ((scan cur a).1 ++ (scan (scan cur a).2 b).1, (scan (scan cur a).2 b).2)
  | [], b, cur => by simp [scan]
  | c :: a, b, cur => by
    simp only [List.cons_append, scan]
    split
    · rw [scan_append a b []]; simp
    · rw [scan_append a b (cur ++ [c])]

theorem sign_not_space (c : Char) (h : isSign c = true) : isSpace c = false := by
  simp only [isSign, Bool.or_eq_true, decide_eq_true_eq] at h
  rcases h with ((h | h) | h) | h <;> subst h <;> decide

theorem scan_blank_last (done : List Char) : (scan [] (' ' :: done).reverse).2 = [] := by
  rw [List.reverse_cons, scan_append]
  simp [scan, isSpace]

theorem filter_words : ∀ (cs done : List Char),
    words [] (filterGo done cs) = (scan [] done.reverse).1 ++ lex (scan [] done.reverse).2 cs
  | [], done => by
    rw [filterGo]
    have := words_append done.reverse [] []
    rw [List.append_nil] at this
    rw [this]; rfl
  | c :: cs, done => by
    rw [filterGo]
    by_cases hs : isSign c = true
    · rw [if_pos hs, filter_words cs]
      have hsp := sign_not_space c hs
      have hk : (scan [] (blank done ++ done).reverse).2 = [] ∧
          (scan [] (blank done ++ done).reverse).1 = (scan [] done.reverse).1 ++ push (scan [] done.reverse).2 := by
        cases done with
        | nil => simp [blank, scan, push]
        | cons b done =>
          by_cases hbs : b = ' '
          · subst hbs
            have := scan_blank_last done
            simp only [blank, if_true, List.nil_append]
            rw [this]
            simp [push]
          · simp only [blank, if_neg hbs]
            refine ⟨scan_blank_last (b :: done), ?_⟩
            simp only [List.cons_append, List.nil_append]
            rw [List.reverse_cons (a := ' '), scan_append]
            simp [scan, isSpace]
      have h2 : (scan [] (c :: (blank done ++ done)).reverse) = ((scan [] done.reverse).1 ++ push (scan [] done.reverse).2, [c]) := by
        rw [List.reverse_cons, scan_append, hk.1, hk.2]
        simp [scan, hsp]
      have hlex : lex (scan [] done.reverse).2 (c :: cs) = push (scan [] done.reverse).2 ++ [c] :: lex [] cs := by
        rw [lex, hsp, hs]; rfl
      rw [hlex]
      cases cs with
      | nil =>
        rw [show blank [] = [] from rfl, List.nil_append, h2]
        simp [lex]
      | cons d ds =>
        by_cases hd : d = ' '
        · rw [show blank (d :: ds) = [] from by simp [blank, hd], List.nil_append, h2]
          subst hd
          simp [lex, isSpace]
        · have h3 : scan [] (' ' :: c :: (blank done ++ done)).reverse
              = ((scan [] done.reverse).1 ++ push (scan [] done.reverse).2 ++ [[c]], []) := by
            rw [List.reverse_cons, scan_append, h2]
            simp [scan, isSpace, push]
          rw [show blank (d :: ds) = [' '] from by simp [blank, hd]]
          simp only [List.cons_append, List.nil_append]
          rw [h3]
          simp
    · rw [if_neg hs, filter_words cs, List.reverse_cons, scan_append]
      rw [lex]
      by_cases hsp : isSpace c = true
      · simp [scan, hsp, push]
      · simp [scan, hsp, hs]

end Verif.LineStyle
