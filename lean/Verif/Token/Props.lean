import Verif.Token.Lemmas
/-!
# Tokens: theorems C10, C11, C54
-/
set_option autoImplicit false
namespace Verif.Token

/-! ### C10 -/

/-- C10 for non-empty texts: the result is the edit distance, and no cell outside the array or not yet
written is used.  Missing: texts one of which is empty (see `edit_distance_wrong_on_empty`). -/
theorem edit_distance_partial {α : Type} [DecidableEq α] (s t : List α) (hs : s ≠ []) (ht : t ≠ []) :
    ∃ n, editDistance s t = some n ∧ IsEditDistance s t n :=
  ⟨_, editDistance_eq s t hs ht, cellVal_isEditDistance s t⟩

example : ∃ n, editDistance "kitten".toList "sitting".toList = some n ∧
    IsEditDistance "kitten".toList "sitting".toList n :=
  edit_distance_partial _ _ (by decide) (by decide)
example : editDistance "kitten".toList "sitting".toList = some 3 := by decide

/-- C10 fails when one text is empty: the result is 0 although the edit distance is the length of the
other text. -/
theorem edit_distance_wrong_on_empty :
    ¬ ∀ (s t : List Char), ∃ n, editDistance s t = some n ∧ IsEditDistance s t n := by
  intro h
  obtain ⟨n, h1, h2⟩ := h [] ['a']
  have : n = 0 := by
    have h3 : editDistance ([] : List Char) ['a'] = some 0 := by decide
    rw [h3] at h1; injection h1 with h1; exact h1.symm
  subst this
  have he := h2.1
  cases he

/-- Exactly what happens with an empty text. -/
theorem edit_distance_empty {α : Type} [DecidableEq α] (s t : List α) (h : s = [] ∨ t = []) :
    editDistance s t = some 0 ∧ IsEditDistance s t (max s.length t.length) := by
  constructor
  · unfold editDistance
    rw [if_neg (by rcases h with h | h <;> simp [h])]
  · rcases h with h | h
    · subst h
      have := cellVal_isEditDistance ([] : List α) t
      rw [List.length_nil, cellVal_zero_left _ _ _ (Nat.le_refl _)] at this
      simpa using this
    · subst h
      have := cellVal_isEditDistance s ([] : List α)
      rw [List.length_nil, cellVal_zero_right _ _ _ (Nat.le_refl _)] at this
      simpa using this

/-- The computed distance does not depend on the order of the two texts. -/
theorem edit_distance_symm {α : Type} [DecidableEq α] (s t : List α) :
    editDistance s t = editDistance t s := by
  have symm : ∀ {n : Nat} {a b : List α}, Edits n a b → Edits n b a := by
    intro n a b h
    induction h with
    | refl => exact .refl _
    | step n s u t e _ ih =>
      have e' : Edit u s := by
        cases e with
        | insert p q c => exact .delete p q c
        | delete p q c => exact .insert p q c
        | subst p q a b => exact .subst p q b a
      exact ih.trans' (.step 0 _ _ _ e' (.refl _))
  by_cases h : s = [] ∨ t = []
  · rw [(edit_distance_empty s t h).1, (edit_distance_empty t s h.symm).1]
  · have hs : s ≠ [] := fun e => h (Or.inl e)
    have ht : t ≠ [] := fun e => h (Or.inr e)
    obtain ⟨n, h1, h2⟩ := edit_distance_partial s t hs ht
    obtain ⟨m, h3, h4⟩ := edit_distance_partial t s ht hs
    rw [h1, h3, Nat.le_antisymm (h2.2 m (symm h4.1)) (h4.2 n (symm h2.1))]

/-! ### C11 -/

/-- Reading a non-empty text never leaves the string. -/
theorem clean_total (st : Settings) (s : List Char) (hs : s ≠ []) : ∃ c, clean st s = some c := by
  have hl : 0 < s.length := List.length_pos_iff.2 hs
  have at' : ∀ k : Int, 0 ≤ k → k ≤ s.length → ∃ a, charAt s k = some a := by
    intro k h0 h1
    unfold charAt
    rw [if_neg (by omega)]
    by_cases h : k.toNat < s.length
    · rw [if_pos h]; exact ⟨_, List.getElem?_eq_getElem h⟩
    · rw [if_neg h, if_pos (by omega)]; exact ⟨_, rfl⟩
  have step2 : ∀ (start : Nat) (size : Int) (opt : Bool), start ≤ s.length → 1 ≤ start + size →
      start + size ≤ s.length → ∃ c, cleanFragment st s start size opt = some c := by
    intro start size opt h1 h2 h3
    unfold cleanFragment
    split
    · obtain ⟨a, ha⟩ := at' start (by omega) (by omega)
      rw [ha]
      simp only
      by_cases e : a = fragmentMarker
      · rw [if_pos e]
        simp only
        obtain ⟨b, hb⟩ := at' (↑(start + 1) + (size - 1) - 1) (by omega) (by omega)
        rw [hb]; simp only
        split <;> exact ⟨_, rfl⟩
      · rw [if_neg e]
        simp only
        obtain ⟨b, hb⟩ := at' (↑start + size - 1) (by omega) (by omega)
        rw [hb]; simp only
        split <;> exact ⟨_, rfl⟩
    · exact ⟨_, rfl⟩
  unfold clean
  have step1 : ∃ start size opt, cleanOptional st s = some (start, size, opt) ∧ start ≤ s.length ∧
      1 ≤ start + size ∧ start + size ≤ s.length := by
    unfold cleanOptional
    split
    · obtain ⟨a, ha⟩ := at' 0 (by omega) (by omega)
      obtain ⟨b, hb⟩ := at' ((s.length : Int) - 1) (by omega) (by omega)
      rw [ha, hb]
      simp only
      split
      · rename_i hab
        have hl2 : 2 ≤ s.length := by
          rcases Nat.lt_or_ge s.length 2 with h | h
          · have h1 : s.length = 1 := by omega
            rw [h1] at hb
            have : a = b := by
              rw [show ((1 : Nat) : Int) - 1 = 0 by omega, ha] at hb
              injection hb
            rw [hab.1, hab.2] at this
            exact absurd this (by decide)
          · exact h
        exact ⟨1, (s.length : Int) - 2, true, rfl, by omega, by omega, by omega⟩
      · exact ⟨0, s.length, false, rfl, by omega, by omega, by omega⟩
    · exact ⟨0, s.length, false, rfl, by omega, by omega, by omega⟩
  obtain ⟨start, size, opt, h1, h2, h3, h4⟩ := step1
  rw [h1]
  exact step2 start size opt h2 h3 h4

theorem equivTexts_symm (b : Bool) (t1 : List Char) (f1 : Frag) (t2 : List Char) (f2 : Frag) :
    equivTexts b t1 f1 t2 f2 = equivTexts b t2 f2 t1 f1 := by
  unfold equivTexts
  have hc : (t1 == t2) = (t2 == t1) := by
    rw [Bool.eq_iff_iff, beq_iff_eq, beq_iff_eq]; exact eq_comm
  cases b <;> cases f1 <;> cases f2 <;> simp [hc, Bool.or_comm]

/-- C11, symmetry: whether two tokens are equal does not depend on which one asks. -/
theorem token_equivalence_symm (st : Settings) (s1 s2 : List Char) :
    isEquivalentTo st s1 s2 = isEquivalentTo st s2 s1 := by
  unfold isEquivalentTo
  cases clean st s1 <;> cases clean st s2 <;> simp [equivTexts_symm]

example : isEquivalentTo ⟨true, true, false⟩ "Hou-".toList "(house)".toList = some true := by decide

/-- C11: two complete words are equal iff their compared texts are the same. -/
theorem token_equivalence_words (st : Settings) (s1 s2 : List Char) (c1 c2 : Cleaned)
    (h1 : clean st s1 = some c1) (h2 : clean st s2 = some c2) (f1 : c1.frag = .no) (f2 : c2.frag = .no) :
    isEquivalentTo st s1 s2 = some (decide (c1.shown st s1 = c2.shown st s2)) := by
  unfold isEquivalentTo
  rw [h1, h2]
  simp only [equivTexts, f1, f2]
  split <;> (congr 1; rw [Bool.eq_iff_iff, beq_iff_eq, decide_eq_true_eq])

/-- C11: a word-beginning fragment equals a complete word iff its visible part is a prefix of the word. -/
theorem token_equivalence_beginning (st : Settings) (s1 s2 : List Char) (c1 c2 : Cleaned)
    (h1 : clean st s1 = some c1) (h2 : clean st s2 = some c2) (f1 : c1.frag = .begin) (f2 : c2.frag = .no)
    (hf : st.fragments = true) :
    isEquivalentTo st s1 s2 = some true ↔ c1.shown st s1 <+: c2.shown st s2 := by
  unfold isEquivalentTo
  rw [h1, h2]
  simp only [equivTexts, f1, f2, hf, if_true]
  rw [← find_zero]
  simp

/-- C11: a word-end fragment equals a complete word iff its visible part is a suffix of the word. -/
theorem token_equivalence_ending (st : Settings) (s1 s2 : List Char) (c1 c2 : Cleaned)
    (h1 : clean st s1 = some c1) (h2 : clean st s2 = some c2) (f1 : c1.frag = .fin) (f2 : c2.frag = .no)
    (hf : st.fragments = true) :
    isEquivalentTo st s1 s2 = some true ↔ c1.shown st s1 <:+ c2.shown st s2 := by
  unfold isEquivalentTo
  rw [h1, h2]
  simp only [equivTexts, f1, f2, hf, if_true]
  rw [← findTail_iff]
  simp

/-- A beginning never equals an ending; two endings are equal iff one is a suffix of the other. -/
theorem token_equivalence_fragments (st : Settings) (s1 s2 : List Char) (c1 c2 : Cleaned)
    (h1 : clean st s1 = some c1) (h2 : clean st s2 = some c2) (f1 : c1.frag = .fin)
    (hf : st.fragments = true) :
    (c2.frag = .begin → isEquivalentTo st s1 s2 = some false) ∧
    (c2.frag = .fin → (isEquivalentTo st s1 s2 = some true ↔
      (c2.shown st s2 <:+ c1.shown st s1 ∨ c1.shown st s1 <:+ c2.shown st s2))) := by
  unfold isEquivalentTo
  rw [h1, h2]
  constructor
  · intro f2
    simp only [equivTexts, f1, f2, hf, if_true]
  · intro f2
    simp only [equivTexts, f1, f2, hf, if_true]
    rw [← findTail_iff, ← findTail_iff]
    simp

/-- Two word-beginning fragments are equal iff one occurs anywhere in the other.  (A rule by prefix, like
the one for endings, would be expected.) -/
theorem token_equivalence_two_beginnings (st : Settings) (s1 s2 : List Char) (c1 c2 : Cleaned)
    (h1 : clean st s1 = some c1) (h2 : clean st s2 = some c2) (f1 : c1.frag = .begin)
    (f2 : c2.frag = .begin) (hf : st.fragments = true) :
    isEquivalentTo st s1 s2 = some true ↔
      (c2.shown st s2 <:+: c1.shown st s1 ∨ c1.shown st s1 <:+: c2.shown st s2) := by
  have inf : ∀ a b : List Char, (find a b 0).isSome = true ↔ b <:+: a := by
    intro a b
    rw [find_isSome]
    constructor
    · rintro ⟨i, _, _, h⟩
      exact h.isInfix.trans (List.drop_suffix _ _).isInfix
    · rintro ⟨p, q, h⟩
      refine ⟨p.length, Nat.zero_le _, ?_, ?_⟩
      · rw [← h]; simp
      · rw [← h]; simp
  unfold isEquivalentTo
  rw [h1, h2]
  simp only [equivTexts, f1, f2, hf, if_true]
  rw [← inf, ← inf]
  simp

/-- The prefix rule for two word beginnings does not hold: `bc-` counts as equal to `abcd-`. -/
theorem two_beginnings_not_prefix :
    ∃ (st : Settings) (s1 s2 : List Char) (c1 c2 : Cleaned), clean st s1 = some c1 ∧ clean st s2 = some c2 ∧
      c1.frag = .begin ∧ c2.frag = .begin ∧ isEquivalentTo st s1 s2 = some true ∧
      ¬ (c1.shown st s1 <+: c2.shown st s2) ∧ ¬ (c2.shown st s2 <+: c1.shown st s1) :=
  ⟨⟨true, true, true⟩, "bc-".toList, "abcd-".toList, ⟨0, 2, false, .begin⟩, ⟨0, 4, false, .begin⟩,
    by decide, by decide, rfl, rfl, by decide, by decide, by decide⟩

/-! ### C54 -/

theorem charAt_split (x y : List Char) (c : Char) (k : Int) (hk : k = x.length) :
    charAt (x ++ c :: y) k = some c := by
  subst hk
  unfold charAt
  rw [if_neg (by omega), if_pos (by simp)]
  simp

/-- C54.  Cleaning recovers from the written form exactly the word, whether it is optional, and which side
is missing, when no hyphen touches the missing side inside the word and an unmarked word is not itself
in parentheses. -/
theorem clean_written (st : Settings) (hst : st.optionally = true ∧ st.fragments = true) (opt : Bool)
    (mark : Mark) (a b : Char) (m : List Char) (w : List Char) (hw : w = a :: m ∧ ∃ m', w = m' ++ [b])
    (ha : a ≠ '-') (hb : b ≠ '-') (hp : opt = false → ¬ (a = '(' ∧ b = ')')) :
    ∃ c, clean st (written opt mark w) = some c ∧ c.text (written opt mark w) = w ∧ c.optional = opt ∧
      c.frag = (match mark with | .whole => Frag.no | .beginning => .begin | .ending => .fin) := by
  obtain ⟨hwa, m', hwb⟩ := hw
  have ha' : a ≠ fragmentMarker := ha
  have hb' : b ≠ fragmentMarker := hb
  have hm' : '-' = fragmentMarker := rfl
  have hlen : w.length = m.length + 1 := by rw [hwa]; rfl
  have hlen' : w.length = m'.length + 1 := by rw [hwb]; simp
  -- the marked word, its first and last character
  have frag : ∀ (pre post mid : List Char) (o : Bool),
      (mid = match mark with | .whole => w | .beginning => w ++ ['-'] | .ending => '-' :: w) →
      ∃ c, cleanFragment st (pre ++ mid ++ post) pre.length mid.length o = some c ∧
        c.text (pre ++ mid ++ post) = w ∧ c.optional = o ∧
        c.frag = (match mark with | .whole => Frag.no | .beginning => .begin | .ending => .fin) := by
    intro pre post mid o hmid
    unfold cleanFragment
    rw [if_pos hst.2]
    cases mark with
    | whole =>
      simp only at hmid
      subst hmid
      have e1 : charAt (pre ++ mid ++ post) pre.length = some a := by
        rw [hwa]; simpa using charAt_split pre (m ++ post) a _ rfl
      have e2 : charAt (pre ++ mid ++ post) (pre.length + mid.length - 1) = some b := by
        have := charAt_split (pre ++ m') post b (pre.length + mid.length - 1) (by simp; omega)
        rw [hwb]; rw [hwb] at this; simpa using this
      rw [e1]
      simp only [if_neg ha']
      rw [e2]
      simp only [if_neg hb']
      refine ⟨_, rfl, ?_, rfl, rfl⟩
      unfold Cleaned.text
      simp only
      rw [if_neg (by omega)]
      simp
    | beginning =>
      simp only at hmid
      subst hmid
      have e1 : charAt (pre ++ (w ++ ['-']) ++ post) pre.length = some a := by
        rw [hwa]; simpa using charAt_split pre (m ++ '-' :: post) a _ rfl
      have e2 : charAt (pre ++ (w ++ ['-']) ++ post) (pre.length + (w ++ ['-']).length - 1) = some '-' := by
        have := charAt_split (pre ++ w) post '-' (pre.length + (w ++ ['-']).length - 1) (by simp; omega)
        simpa using this
      rw [e1]
      simp only [if_neg ha']
      rw [e2]
      simp only [if_pos hm']
      refine ⟨_, rfl, ?_, rfl, rfl⟩
      unfold Cleaned.text
      simp only
      rw [if_neg (by simp)]
      have : ((w ++ ['-']).length : Int) - 1 = w.length := by simp
      rw [this]
      simp
    | ending =>
      simp only at hmid
      subst hmid
      have e1 : charAt (pre ++ ('-' :: w) ++ post) pre.length = some '-' := by
        simpa using charAt_split pre (w ++ post) '-' _ rfl
      have e2 : charAt (pre ++ ('-' :: w) ++ post) (↑(pre.length + 1) + (('-' :: w).length - 1) - 1) =
          some b := by
        have := charAt_split (pre ++ '-' :: m') post b (↑(pre.length + 1) + (('-' :: w).length - 1) - 1)
          (by simp; omega)
        rw [hwb] at this ⊢; simpa using this
      rw [e1]
      simp only [if_pos hm']
      rw [e2]
      simp only [if_neg hb']
      refine ⟨_, rfl, ?_, rfl, rfl⟩
      unfold Cleaned.text
      simp only
      rw [if_neg (by simp)]
      have : (('-' :: w).length : Int) - 1 = w.length := by simp
      rw [this]
      have e : pre ++ '-' :: w ++ post = (pre ++ ['-']) ++ (w ++ post) := by simp
      rw [e, List.drop_left' (by simp)]
      simp
  unfold clean
  cases opt with
  | true =>
    have key := frag ['('] [')'] _ true rfl
    generalize hmid : (match mark with | .whole => w | .beginning => w ++ ['-'] | .ending => '-' :: w) = mid
      at key
    have hs : written true mark w = ['('] ++ mid ++ [')'] := by
      unfold written; rw [← hmid]; simp; cases mark <;> rfl
    have hopt : cleanOptional st (['('] ++ mid ++ [')']) = some (1, (mid.length : Int), true) := by
      unfold cleanOptional
      rw [if_pos hst.1]
      have e1 : charAt (['('] ++ mid ++ [')']) 0 = some '(' := by
        simpa using charAt_split [] (mid ++ [')']) '(' 0 rfl
      have e2 : charAt (['('] ++ mid ++ [')']) (((['('] ++ mid ++ [')']).length : Int) - 1) = some ')' := by
        exact charAt_split (['('] ++ mid) [] ')' _ (by simp)
      rw [e1, e2]
      simp only [beginOptional, endOptional, and_self, if_true]
      have : (((['('] ++ mid ++ [')']).length : Int) - 2) = mid.length := by simp; omega
      rw [this]
    rw [hs, hopt]
    exact key
  | false =>
    have key := frag [] [] _ false rfl
    generalize hmid : (match mark with | .whole => w | .beginning => w ++ ['-'] | .ending => '-' :: w) = mid
      at key
    have hs : written false mark w = mid := by
      unfold written; rw [← hmid]; cases mark <;> rfl
    have hopt : cleanOptional st mid = some (0, (mid.length : Int), false) := by
      unfold cleanOptional
      rw [if_pos hst.1]
      have ends : ∃ x y, charAt mid 0 = some x ∧ charAt mid ((mid.length : Int) - 1) = some y ∧
          ¬ (x = '(' ∧ y = ')') := by
        cases mark with
        | whole =>
          simp only at hmid
          rw [← hmid]
          refine ⟨a, b, ?_, ?_, hp rfl⟩
          · rw [hwa]; exact charAt_split [] m a 0 rfl
          · rw [hwb]; exact charAt_split m' [] b _ (by simp)
        | beginning =>
          simp only at hmid
          subst hmid
          refine ⟨a, '-', ?_, ?_, fun h => absurd h.2 (by decide)⟩
          · rw [hwa]; exact charAt_split [] (m ++ ['-']) a 0 rfl
          · exact charAt_split w [] '-' _ (by simp)
        | ending =>
          simp only at hmid
          subst hmid
          refine ⟨'-', b, ?_, ?_, fun h => absurd h.1 (by decide)⟩
          · exact charAt_split [] w '-' 0 rfl
          · have := charAt_split ('-' :: m') [] b (('-' :: w).length - 1) (by simp; omega)
            rw [hwb] at this ⊢; simpa using this
      obtain ⟨x, y, e1, e2, e3⟩ := ends
      rw [e1, e2]
      exact if_neg e3
    rw [hs, hopt]
    simpa using key

example : clean ⟨true, true, false⟩ "(wo-)".toList = some ⟨1, 2, true, .begin⟩ := by decide

theorem lowerChar_eq (c : Char) : lowerChar c = c.toLower := by
  unfold lowerChar Char.toLower
  by_cases h : 'A' ≤ c ∧ c ≤ 'Z'
  · rw [if_pos h]
    have h1 : 65 ≤ c.val := h.1
    have h2 : c.val ≤ 90 := h.2
    have h2' : c.val.toNat ≤ 90 := h2
    rw [dif_pos ⟨h1, h2⟩]
    apply Char.ext
    apply UInt32.toNat_inj.1
    have hv : (c.toNat + 32).isValidChar := by
      left; show c.val.toNat + 32 < 0xd800; omega
    rw [Char.ofNat, dif_pos hv]
    show c.toNat + 32 = (c.val + ('a'.val - 'A'.val)).toNat
    rw [UInt32.toNat_add]
    show c.val.toNat + 32 = (c.val.toNat + 32) % 2 ^ 32
    omega
  · rw [if_neg h]
    have : ¬ (c.val ≥ 'A'.val ∧ c.val ≤ 'Z'.val) := h
    rw [dif_neg this]

/-- C11 from the transcript to the verdict: for words as written in a transcript, two tokens are equal exactly
when `SameWord` holds for their letters, folded to lower case unless the alignment is case sensitive. -/
theorem token_equivalence_written (st : Settings) (hst : st.optionally = true ∧ st.fragments = true)
    (o1 o2 : Bool) (m1 m2 : Mark) (w1 w2 : List Char) (h1 : PlainWord w1) (h2 : PlainWord w2) :
    isEquivalentTo st (written o1 m1 w1) (written o2 m2 w2) = some true ↔
      SameWord m1 (if st.caseSensitive then w1 else w1.map Char.toLower)
        m2 (if st.caseSensitive then w2 else w2.map Char.toLower) := by
  have cl : ∀ (o : Bool) (m : Mark) (w : List Char), PlainWord w →
      ∃ c, clean st (written o m w) = some c ∧
        c.shown st (written o m w) = (if st.caseSensitive then w else w.map Char.toLower) ∧
        c.frag = (match m with | .whole => Frag.no | .beginning => .begin | .ending => .fin) := by
    intro o m w hw
    obtain ⟨hne, ha, hb, hp⟩ := hw
    cases hc : w with
    | nil => exact absurd hc hne
    | cons a m0 =>
      have hlast : w = w.dropLast ++ [w.getLast hne] := (List.dropLast_concat_getLast hne).symm
      have e1 : w.head? = some a := by rw [hc]; rfl
      have e2 : w.getLast? = some (w.getLast hne) := List.getLast?_eq_some_getLast hne
      rw [e1] at ha hp
      rw [e2] at hb hp
      obtain ⟨c, c1, c2, _, c4⟩ := clean_written st hst o m a (w.getLast hne) m0 w ⟨hc, _, hlast⟩
        (fun e => ha (by rw [e])) (fun e => hb (by rw [e]))
        (fun _ e => hp ⟨by rw [e.1], by rw [e.2]⟩)
      rw [← hc]
      refine ⟨c, c1, ?_, c4⟩
      unfold Cleaned.shown
      rw [c2]
      have : lowerChar = Char.toLower := funext lowerChar_eq
      rw [this]
  obtain ⟨c1, a1, b1, d1⟩ := cl o1 m1 w1 h1
  obtain ⟨c2, a2, b2, d2⟩ := cl o2 m2 w2 h2
  rw [← b1, ← b2]
  have sy := token_equivalence_symm st (written o1 m1 w1) (written o2 m2 w2)
  cases m1 <;> cases m2 <;> simp only at d1 d2 <;> simp only [SameWord]
  · rw [token_equivalence_words st _ _ c1 c2 a1 a2 d1 d2]; simp
  · rw [sy]; exact token_equivalence_beginning st _ _ c2 c1 a2 a1 d2 d1 hst.2
  · rw [sy]; exact token_equivalence_ending st _ _ c2 c1 a2 a1 d2 d1 hst.2
  · exact token_equivalence_beginning st _ _ c1 c2 a1 a2 d1 d2 hst.2
  · exact token_equivalence_two_beginnings st _ _ c1 c2 a1 a2 d1 d2 hst.2
  · rw [sy, (token_equivalence_fragments st _ _ c2 c1 a2 a1 d2 hst.2).1 d1]; simp
  · exact token_equivalence_ending st _ _ c1 c2 a1 a2 d1 d2 hst.2
  · rw [(token_equivalence_fragments st _ _ c1 c2 a1 a2 d1 hst.2).1 d2]; simp
  · exact (token_equivalence_fragments st _ _ c1 c2 a1 a2 d1 hst.2).2 d2

example : PlainWord "house".toList ∧ PlainWord "Hou".toList := by
  unfold PlainWord; decide
example : isEquivalentTo ⟨true, true, false⟩ (written false .beginning "Hou".toList)
    (written true .whole "house".toList) = some true := by decide

/-- The side conditions matter: an optional lone hyphen is shown as `)`. -/
theorem optional_hyphen_shows_parenthesis :
    (clean ⟨true, true, true⟩ "(-)".toList).map (fun c => c.text "(-)".toList) = some ")".toList := by decide

end Verif.Token
