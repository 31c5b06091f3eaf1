import Verif.Perp.Spec
/-!
# Lemmas for the perplexity of a text
-/
set_option autoImplicit false
namespace Verif.Perp

theorem shift_length (l : Nat) (a : List Nat) : (shift l a).length = a.length := by simp [shift]

theorem last_get (k : Nat) (h : List Nat) (i : Nat) : (last k h)[i]? = h[h.length - k + i]? := by
  unfold last
  rw [List.getElem?_drop]

theorem last_length (k : Nat) (h : List Nat) : (last k h).length = min h.length k := by
  unfold last
  rw [List.length_drop]
  omega

/-- The context holds the words before the current one. -/
structure Inv (lm : Lm) (h : List Nat) (s : St) : Prop where
  size : s.ctx.length = lm.n - 1
  total : s.total = h.length
  cur : ∀ (g : List Nat) (c : Nat), h = g ++ [c] → s.cur = c ∧ s.ctx.take (min g.length (lm.n - 1)) = last (lm.n - 1) g

theorem fill_length (lm : Lm) (s : St) : (fill lm s).length = s.ctx.length := by
  unfold fill
  dsimp only
  split <;> split <;> simp [shift_length]

theorem len_eq {lm : Lm} {h : List Nat} {s : St} (i : Inv lm h s) : len lm s = min h.length (lm.n - 1) := by
  unfold len
  rw [i.total]
  split
  · rename_i q
    simp only [decide_eq_true_eq] at q
    omega
  · rename_i q
    simp only [decide_eq_true_eq] at q
    omega

theorem fill_eq {lm : Lm} {h : List Nat} {s : St} (i : Inv lm h s) : (fill lm s).take (len lm s) = last (lm.n - 1) h := by
  have hl := len_eq i
  apply List.ext_getElem?
  intro j
  rw [last_get, List.getElem?_take]
  by_cases hj : j < len lm s
  · rw [if_pos hj]
    rcases List.eq_nil_or_concat h with rfl | ⟨g, c, e⟩
    · simp at hl
      omega
    · have e : h = g ++ [c] := by simpa using e
      obtain ⟨c1, c2⟩ := i.cur g c e
      have hlen : h.length = g.length + 1 := by rw [e]; simp
      have hget : ∀ j, j < min g.length (lm.n - 1) → s.ctx[j]? = g[g.length - (lm.n - 1) + j]? := by
        intro j hj
        have := congrArg (fun l : List Nat => l[j]?) c2
        simp only [List.getElem?_take, if_pos hj, last_get] at this
        exact this
      have hne : len lm s ≠ 0 := by omega
      unfold fill
      dsimp only
      rw [if_pos (by simpa using hne)]
      by_cases hb : lm.n - 1 < s.total
      · rw [if_pos (by simpa using hb), List.getElem?_set, shift_length, i.size]
        have ht := i.total
        by_cases q : len lm s - 1 = j
        · rw [if_pos q, if_pos (by omega), c1, e, List.getElem?_append_right (by rw [← e]; omega)]
          have : (g ++ [c]).length - (lm.n - 1) + j - g.length = 0 := by rw [← e]; omega
          rw [this]
          rfl
        · rw [if_neg q]
          have hs : j < s.ctx.length := by rw [i.size]; omega
          have hs1 : j + 1 < s.ctx.length := by rw [i.size]; omega
          have h2 := hget (j + 1) (by omega)
          unfold shift
          rw [List.getElem?_map, List.getElem?_range hs]
          simp only [Option.map_some]
          rw [if_pos (by simp; omega), List.getElem?_eq_getElem hs1, Option.getD_some, e, List.getElem?_append_left (by rw [← e]; omega)]
          rw [← List.getElem?_eq_getElem hs1, h2]
          congr 1
          rw [← e]
          omega
      · rw [if_neg (by simpa using hb), List.getElem?_set, i.size]
        have ht := i.total
        by_cases q : len lm s - 1 = j
        · rw [if_pos q, if_pos (by omega), c1, e, List.getElem?_append_right (by rw [← e]; omega)]
          have : (g ++ [c]).length - (lm.n - 1) + j - g.length = 0 := by rw [← e]; omega
          rw [this]
          rfl
        · rw [if_neg q, hget j (by omega), e, List.getElem?_append_left (by rw [← e]; omega)]
          congr 1
          rw [← e]
          omega
  · rw [if_neg hj, List.getElem?_eq_none (by omega)]

theorem start_inv (lm : Lm) : Inv lm [] (start lm) :=
  ⟨by simp [start], rfl, fun g c e => by simp at e⟩

end Verif.Perp
