import Verif.Pad.Model
import Verif.Pad.Spec
/-!
# Padding: properties C48 and C66
-/
set_option autoImplicit false
namespace Verif.Pad

/-- C48: centring to a width below 2000 (also a negative one) gives the text with blanks on both sides, as wide as asked
for, or the text itself if that is wider.  For texts of fewer than 2000 characters. -/
theorem center_partial (str : List Char) (len : Int) (hl : len < 2000) (hs : str.length < 2000) :
    ∃ out, center str len = some (some out) ∧ Centred str out len := by
  have key : ∀ a : Int, 0 ≤ a → a.tdiv 2 = a / 2 := fun a ha => Int.tdiv_eq_ediv_of_nonneg ha
  unfold center
  rw [if_neg (by omega)]
  by_cases h : (str.length : Int) ≤ len
  · have hk := key (len - str.length) (by omega)
    simp only [hk]
    have h1 : (blanks ((len - str.length) / 2) ++ str ++ blanks (len - (str.length + (len - str.length) / 2))).length + 1 ≤ 2000 := by
      simp [blanks]; omega
    rw [if_neg (by omega)]
    refine ⟨_, rfl, _, _, rfl, by omega, ?_⟩
    simp [blanks]; omega
  · obtain ⟨k, hk⟩ : ∃ k : Nat, len - str.length = -(k : Int) := ⟨(str.length - len).toNat, by omega⟩
    have h2 : (len - str.length).tdiv 2 = -((k : Int) / 2) := by
      rw [hk, Int.neg_tdiv, key _ (by omega)]
    simp only [h2]
    have e1 : blanks (-((k : Int) / 2)) = [] := by
      unfold blanks
      rw [show (-((k : Int) / 2)).toNat = 0 by omega]; rfl
    have e2 : blanks (len - (str.length + -((k : Int) / 2))) = [] := by
      unfold blanks
      rw [show (len - (str.length + -((k : Int) / 2))).toNat = 0 by omega]; rfl
    rw [e1, e2]
    simp only [List.nil_append, List.append_nil]
    rw [if_neg (by omega)]
    exact ⟨str, rfl, 0, 0, by simp, by omega, by omega⟩

/-- Refutation: only the width is checked against the buffer, a text of 2000 characters or more is written beyond its
end. -/
theorem center_overruns (str : List Char) (len : Int) (hl : len < 2000) (hs : 2000 ≤ str.length) : center str len = none := by
  unfold center
  rw [if_neg (by omega)]
  simp only
  rw [if_pos]
  simp
  omega

/-- C48: the padded copy is the text cut or filled up to the given length, and at most `max` bytes are written. -/
theorem strncpy_pad (cap : Nat) (src : List Char) (len : Nat) (max : Nat) (chr : Char) (hm : 1 ≤ max) (hcap : max ≤ cap) :
    strncpyPad cap src len max chr = some ((src ++ List.replicate len chr).take (min len (max - 1))) := by
  have key : ∀ (n m : Nat) (l : List Char), n ≤ m → padLoop chr n l = (l ++ List.replicate m chr).take n := by
    intro n
    induction n with
    | zero => intro m l _; simp [padLoop]
    | succ n ih =>
      intro m l h
      cases l with
      | nil =>
        cases m with
        | zero => omega
        | succ m =>
          have := ih m [] (by omega)
          simp only [List.nil_append] at this
          simp [padLoop, List.replicate_succ, this]
      | cons c l => simp [padLoop, ih m l (by omega)]
  have e : (min (len : Int) ((max : Int) - 1)).toNat = min len (max - 1) := by omega
  unfold strncpyPad
  simp only [e]
  rw [key _ len src (by omega)]
  rw [if_neg]
  simp
  omega

/-- C66: a pad of `n` blanks has `n` blanks, cut to the buffer. -/
theorem set_pad_n (cap n max : Nat) (hm : 1 ≤ max) (hcap : max ≤ cap) :
    setPadN cap n max = some (List.replicate (min n (max - 1)) ' ') := by
  have e : (min (n : Int) ((max : Int) - 1)).toNat = min n (max - 1) := by omega
  unfold setPadN
  simp only [e]
  rw [if_neg (by omega)]

/-- C66: the blanks before a title on a line of the given width are one less than centring asks for (and none when the
title is too wide); nothing is written outside of the pad. -/
theorem set_pad_partial (width cap max : Nat) (str : List Char) (hm : 1 ≤ max) (hcap : max ≤ cap) (hw : width < 2 ^ 31)
    (hs : str.length < 2 ^ 31) :
    setPad width cap str max = some (List.replicate (min ((width - str.length) / 2) (max - 1) - 1) ' ') := by
  unfold setPad
  simp only
  have hlen : (min ((((((width : Int) - str.length) % 2 ^ 64).toNat / 2 : Nat) : Int).bmod (2 ^ 32)) ((max : Int) - 1)).toNat =
      min ((width - str.length) / 2) (max - 1) := by
    by_cases h : str.length ≤ width
    · have e1 : (((width : Int) - str.length) % 2 ^ 64).toNat = width - str.length := by omega
      rw [e1]
      have e2 : (((width - str.length) / 2 : Nat) : Int).bmod (2 ^ 32) = (((width - str.length) / 2 : Nat) : Int) := by
        rw [Int.bmod_eq_of_le] <;> omega
      rw [e2]
      omega
    · have e1 : (((width : Int) - str.length) % 2 ^ 64).toNat = 2 ^ 64 - (str.length - width) := by omega
      rw [e1]
      have e2 : (((2 ^ 64 - (str.length - width)) / 2 : Nat) : Int).bmod (2 ^ 32) < 0 := by
        generalize hk : str.length - width = k
        have hk1 : 0 < k := by omega
        have hk2 : k < 2 ^ 31 := by omega
        have e3 : (((2 ^ 64 - k) / 2 : Nat) : Int) = (2 ^ 63 : Int) - ((k + 1) / 2 : Nat) := by omega
        rw [e3]
        have e4 : ((2 ^ 63 : Int) - ((k + 1) / 2 : Nat)).bmod (2 ^ 32) = -(((k + 1) / 2 : Nat) : Int) := by
          have : ((2 ^ 63 : Int) - ((k + 1) / 2 : Nat)) = -(((k + 1) / 2 : Nat) : Int) + (2 ^ 32 : Nat) * 2 ^ 31 := by omega
          rw [this, Int.add_mul_bmod_self_left, Int.bmod_eq_of_le] <;> omega
        rw [e4]
        omega
      omega
  unfold cutPad
  simp only [hlen]
  rw [if_neg (by omega)]
  by_cases h : min ((width - str.length) / 2) (max - 1) > 0
  · rw [if_pos h]
  · rw [if_neg h]
    have : min ((width - str.length) / 2) (max - 1) = 0 := by omega
    rw [this]
    rfl

/-- C66: the same for a title given by its width. -/
theorem set_pad_cent_n_partial (width cap max len : Nat) (hm : 1 ≤ max) (hcap : max ≤ cap) :
    setPadCentN width cap len max = some (List.replicate (min ((width - len) / 2) (max - 1) - 1) ' ') := by
  have hlen : (min (((width : Int) - len).tdiv 2) ((max : Int) - 1)).toNat = min ((width - len) / 2) (max - 1) := by
    by_cases h : len ≤ width
    · rw [Int.tdiv_eq_ediv_of_nonneg (by omega)]; omega
    · have : ((width : Int) - len).tdiv 2 ≤ 0 := by
        rw [show (width : Int) - len = -((len - width : Nat) : Int) by omega, Int.neg_tdiv,
          Int.tdiv_eq_ediv_of_nonneg (by omega)]
        omega
      omega
  unfold setPadCentN cutPad
  simp only [hlen]
  rw [if_neg (by omega)]
  by_cases h : min ((width - len) / 2) (max - 1) > 0
  · rw [if_pos h]
  · rw [if_neg h]
    have : min ((width - len) / 2) (max - 1) = 0 := by omega
    rw [this]
    rfl

/-- Refutation: on a line of 80 characters a title of 20 characters gets 29 blanks before it. -/
theorem set_pad_off_by_one : ∃ p, setPad 80 132 (List.replicate 20 'x') 132 = some p ∧ p.length ≠ (80 - 20) / 2 ∧
    p.length = 29 := by
  refine ⟨List.replicate 29 ' ', ?_, by decide, by decide⟩
  rw [show (132 : Int) = ((132 : Nat) : Int) from rfl, set_pad_partial 80 132 132 _ (by decide) (by decide) (by decide) (by decide)]
  rfl

example : center "abc".toList 8 = some (some "  abc   ".toList) := by decide
example : strncpyPad 10 "abc".toList 5 10 '.' = some "abc..".toList := by decide
example : strncpyPad 4 "abcdef".toList 6 4 '.' = some "abc".toList := by decide

end Verif.Pad
