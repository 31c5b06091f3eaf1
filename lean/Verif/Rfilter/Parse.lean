import Verif.Rfilter.Match
/-!
# Reading a rule
-/
set_option autoImplicit false
namespace Verif.Rfilter
open Verif.Lines (isSpace)

theorem isSpace_iff (b : Nat) : isSpace b = true ↔ Blank b := by
  simp only [isSpace, Blank, Bool.or_eq_true, Bool.and_eq_true, decide_eq_true_eq]
  omega

theorem isSpace_false {b : Nat} (h : ¬ Blank b) : isSpace b = false := by
  cases hb : isSpace b with
  | false => rfl
  | true => exact absurd ((isSpace_iff b).1 hb) h

theorem byteAt_mid (a b : List Nat) (c : Nat) : byteAt (a ++ c :: b) a.length = c := by
  simp [byteAt, List.getElem?_append_right]

theorem byteAt_eq {l a b : List Nat} {c n : Nat} (h : l = a ++ c :: b) (hn : n = a.length) : byteAt l n = c := by
  rw [h, hn, byteAt_mid]

theorem takeWhile_blank (s b : List Nat) (hs : ∀ x ∈ s, Blank x) (hb : ∀ x, b.head? = some x → ¬ Blank x) :
    (s ++ b).takeWhile isSpace = s := by
  induction s with
  | nil =>
    cases b with
    | nil => rfl
    | cons x b => simp [isSpace_false (hb x rfl)]
  | cons x s ih =>
    have hx := (isSpace_iff x).2 (hs x (List.mem_cons_self ..))
    rw [List.cons_append, List.takeWhile_cons, if_pos hx, ih (fun y hy => hs y (List.mem_cons_of_mem _ hy))]

theorem skipSp_eq {l a s b : List Nat} {n : Nat} (h : l = a ++ (s ++ b)) (hs : ∀ x ∈ s, Blank x)
    (hb : ∀ x, b.head? = some x → ¬ Blank x) (hn : n = a.length) : skipSp l n = a.length + s.length := by
  rw [skipSp, hn, h, List.drop_left, takeWhile_blank s b hs hb]

theorem skipNon_eq (l : List Nat) (n s m : Nat) (hm : m ≤ n) (h1 : ∀ i, i < m → ¬ Blank (byteAt l (s + i)))
    (h2 : m = n ∨ Blank (byteAt l (s + m))) : skipNon l n s = s + m := by
  induction m generalizing s n with
  | zero =>
    cases n with
    | zero => rfl
    | succ n =>
      rcases h2 with h2 | h2
      · omega
      · rw [Nat.add_zero] at h2
        rw [skipNon, if_pos ((isSpace_iff _).2 h2)]
        rfl
  | succ m ih =>
    cases n with
    | zero => omega
    | succ n =>
      have h0 := h1 0 (by omega)
      rw [Nat.add_zero] at h0
      rw [skipNon, if_neg (by rw [isSpace_false h0]; decide)]
      rw [ih n (s + 1) (by omega) (fun i hi => by have := h1 (i + 1) (by omega); rwa [show s + 1 + i = s + (i + 1) by omega])
        (by
          rcases h2 with h2 | h2
          · left; omega
          · right; rwa [show s + 1 + m = s + (m + 1) by omega])]
      omega

theorem backSp_eq (l : List Nat) (lo m k : Nat) (h1 : ∀ i, i < k → Blank (byteAt l (m + 1 + i)))
    (h2 : m = lo ∨ (lo < m ∧ ¬ Blank (byteAt l m))) : backSp l lo (m + k) = m := by
  induction k with
  | zero =>
    cases m with
    | zero => rfl
    | succ m =>
      rw [Nat.add_zero, backSp, if_neg]
      rintro ⟨q1, q2⟩
      rcases h2 with h2 | h2
      · omega
      · exact h2.2 ((isSpace_iff _).1 q2)
  | succ k ih =>
    have hb := h1 k (by omega)
    rw [show m + (k + 1) = (m + k) + 1 by omega, backSp, if_pos]
    · exact ih (fun i hi => h1 i (by omega))
    · refine ⟨by rcases h2 with h2 | h2 <;> omega, ?_⟩
      rw [show m + k + 1 = m + 1 + k by omega]
      exact (isSpace_iff _).2 hb

theorem byteAt_of_mem_range {l a s b : List Nat} (h : l = a ++ (s ++ b)) {i : Nat} (hi : i < s.length) :
    byteAt l (a.length + i) ∈ s := by
  have : l[a.length + i]? = some s[i] := by
    rw [h, List.getElem?_append_right (by omega), Nat.add_sub_cancel_left, List.getElem?_append_left hi]
    simp
  rw [byteAt, this]
  exact List.getElem_mem hi

theorem byteAt_range {l a s b : List Nat} (h : l = a ++ (s ++ b)) {i n : Nat} (hi : i < s.length) (hn : n = a.length + i) :
    byteAt l n ∈ s := by
  rw [hn]
  exact byteAt_of_mem_range h hi

theorem substr_eq {l a x b : List Nat} (h : l = a ++ (x ++ b)) (p : Int × Int) (h1 : p.1 = a.length)
    (h2 : p.2 = (a.length : Int) + x.length - 1) : substr l p = x := by
  rw [substr, h1, h2]
  by_cases hx : x.length = 0
  · rw [if_pos (by omega), List.length_eq_zero_iff.1 hx]
  · rw [if_neg (by omega)]
    have e1 : (a.length : Int).toNat = a.length := by omega
    have e2 : ((a.length : Int) + x.length - 1 - a.length + 1).toNat = x.length := by omega
    rw [e1, e2, h, List.drop_left, List.take_left]

theorem Part.head {w x : List Nat} (h : Part w x) : ∀ b, w.head? = some b → ¬ Blank b := by
  cases h with
  | none => intro b hb; cases hb
  | brackets => intro b hb; cases hb; simp [Blank]
  | quotes => intro b hb; cases hb; simp [Blank]
  | bare _ _ h _ _ _ => exact h

theorem Part.last {w x : List Nat} (h : Part w x) : ∀ b, w.getLast? = some b → ¬ Blank b := by
  cases h with
  | none => intro b hb; cases hb
  | brackets x =>
    intro b hb
    rw [← List.cons_append, List.getLast?_append] at hb
    cases hb
    simp [Blank]
  | quotes x =>
    intro b hb
    rw [← List.cons_append, List.getLast?_append] at hb
    cases hb
    simp [Blank]
  | bare _ _ _ h _ _ => exact h

/-- The part found between the ends of its writing. -/
theorem part_found {l a w x b : List Nat} (h : l = a ++ (w ++ b)) (hw : Part w x) (hne : w ≠ []) (s e : Nat) (hs : s = a.length)
    (he : e + 1 = a.length + w.length) :
    substr l (unquote l s e) = x ∧ (unquote l s e).2 - (unquote l s e).1 + 1 = x.length := by
  cases hw with
  | none => exact absurd rfl hne
  | brackets x =>
    have h1 : byteAt l s = 91 := byteAt_eq (a := a) (b := x ++ [93] ++ b) (by rw [h]; rfl) hs
    have h2 : byteAt l e = 93 := byteAt_eq (a := a ++ 91 :: x) (b := b) (by rw [h]; simp) (by
      simp at he ⊢; omega)
    simp at he
    rw [unquote, if_pos (.inl ⟨h1, h2⟩)]
    exact ⟨substr_eq (a := a ++ [91]) (b := 93 :: b) (by rw [h]; simp) _ (by simp; omega) (by simp; omega), by simp only; omega⟩
  | quotes x =>
    have h1 : byteAt l s = 34 := byteAt_eq (a := a) (b := x ++ [34] ++ b) (by rw [h]; rfl) hs
    have h2 : byteAt l e = 34 := byteAt_eq (a := a ++ 34 :: x) (b := b) (by rw [h]; simp) (by
      simp at he ⊢; omega)
    simp at he
    rw [unquote, if_pos (.inr ⟨h1, h2⟩)]
    exact ⟨substr_eq (a := a ++ [34]) (b := 34 :: b) (by rw [h]; simp) _ (by simp; omega) (by simp; omega), by simp only; omega⟩
  | bare _ _ _ _ hb hq =>
    have h1 : w.head? = some (byteAt l s) := by
      cases w with
      | nil => exact absurd rfl hne
      | cons c w =>
        rw [byteAt_eq (a := a) (b := w ++ b) (c := c) (by rw [h]; rfl) hs]
        rfl
    have h2 : w.getLast? = some (byteAt l e) := by
      obtain ⟨w', c, hc⟩ : ∃ w' c, w = w' ++ [c] := ⟨w.dropLast, w.getLast hne, (List.dropLast_concat_getLast hne).symm⟩
      rw [byteAt_eq (a := a ++ w') (b := b) (c := c) (by rw [h, hc]; simp) (by rw [hc] at he; simp at he ⊢; omega), hc]
      simp
    rw [unquote, if_neg]
    · exact ⟨substr_eq h _ (by simp only; omega) (by simp only; omega), by simp only; omega⟩
    · rintro (⟨q1, q2⟩ | ⟨q1, q2⟩)
      · exact hb ⟨by rw [h1, q1], by rw [h2, q2]⟩
      · exact hq ⟨by rw [h1, q1], by rw [h2, q2]⟩

/-- A field after a mark. -/
theorem field_eq {l a m s w b x : List Nat} (h : l = a ++ (m ++ (s ++ (w ++ b)))) (hm : ∀ c ∈ m, ¬ Blank c)
    (hs : ∀ c ∈ s, Blank c) (hw : Part w x) (hws : w ≠ [] → s ≠ []) (s0 e : Nat) (h0 : s0 = a.length)
    (he : (w ≠ [] ∧ e + 1 = a.length + m.length + s.length + w.length) ∨ (w = [] ∧ s0 ≤ e ∧ e + 1 ≤ a.length + m.length)) :
    field l s0 e = x := by
  have hnon : ∀ i, i < m.length → ¬ Blank (byteAt l (s0 + i)) := by
    intro i hi
    rw [h0]
    exact hm _ (byteAt_of_mem_range (b := s ++ (w ++ b)) (s := m) h hi)
  rcases he with ⟨hne, he⟩ | ⟨hne, he1, he2⟩
  · have hsne := hws hne
    have hsl : 0 < s.length := List.length_pos_iff.2 hsne
    have hwl : 0 < w.length := List.length_pos_iff.2 hne
    have hb : Blank (byteAt l (s0 + m.length)) := by
      have h' : l = (a ++ m) ++ (s ++ (w ++ b)) := by rw [h]; simp
      have := byteAt_of_mem_range h' hsl
      rw [Nat.add_zero, List.length_append, ← h0] at this
      exact hs _ this
    have hskip : skipNon l (e - s0) s0 = s0 + m.length :=
      skipNon_eq l (e - s0) s0 m.length (by omega) hnon (.inr hb)
    rw [field, hskip, if_pos (by omega)]
    have hh : l = (a ++ m) ++ (s ++ (w ++ b)) := by rw [h]; simp
    rw [skipSp_eq (a := a ++ m) hh hs (by
      intro x hx
      cases w with
      | nil => exact absurd rfl hne
      | cons c w =>
        simp at hx
        subst hx
        exact hw.head c rfl) (by simp; omega)]
    exact (part_found (a := a ++ m ++ s) (b := b) (by rw [h]; simp) hw hne _ e (by simp; try omega) (by simp; omega)).1
  · have hskip : skipNon l (e - s0) s0 = s0 + (e - s0) :=
      skipNon_eq l (e - s0) s0 (e - s0) (Nat.le_refl _) (fun i hi => hnon i (by omega)) (.inl rfl)
    rw [field, hskip, if_neg (by omega)]
    subst hne
    cases hw with
    | none => rfl
    | bare _ h => exact absurd rfl h

theorem lhs_eq {l s1 w s2 b x : List Nat} (h : l = s1 ++ (w ++ (s2 ++ b))) (h1 : ∀ c ∈ s1, Blank c) (h2 : ∀ c ∈ s2, Blank c)
    (hw : Part w x) (hb : ∀ c, b.head? = some c → ¬ Blank c) (ieq : Nat) (hi : ieq = s1.length + w.length + s2.length) :
    lhs l ieq = (x, (x.length : Int)) := by
  by_cases hne : w = []
  · subst hne
    have hx : x = [] := by
      cases hw with
      | none => rfl
      | bare _ h => exact absurd rfl h
    have hsk : skipSp l 0 = 0 + (s1 ++ s2).length :=
      skipSp_eq (a := []) (s := s1 ++ s2) (b := b) (by rw [h]; simp) (by
        intro c hc
        rcases List.mem_append.1 hc with hc | hc
        · exact h1 c hc
        · exact h2 c hc) hb rfl
    rw [lhs, hsk, if_neg (by simp at hi ⊢; omega), hx]
    rfl
  · have hwl : 0 < w.length := List.length_pos_iff.2 hne
    have hsk : skipSp l 0 = 0 + s1.length :=
      skipSp_eq (a := []) (s := s1) (b := w ++ (s2 ++ b)) (by rw [h]; simp) h1 (by
        intro c hc
        cases w with
        | nil => exact absurd rfl hne
        | cons d w =>
          simp at hc
          subst hc
          exact hw.head d rfl) rfl
    obtain ⟨w', c, hc⟩ : ∃ w' c, w = w' ++ [c] := ⟨w.dropLast, w.getLast hne, (List.dropLast_concat_getLast hne).symm⟩
    have hbk : backSp l s1.length (ieq - 1) = s1.length + w.length - 1 := by
      have e1 : ieq - 1 = (s1.length + w.length - 1) + s2.length := by omega
      rw [e1]
      apply backSp_eq
      · intro i hi
        have h' : l = (s1 ++ w) ++ (s2 ++ b) := by rw [h]; simp
        have := byteAt_of_mem_range h' hi
        rw [List.length_append] at this
        rw [show s1.length + w.length - 1 + 1 + i = s1.length + w.length + i by omega]
        exact h2 _ this
      · by_cases hw1 : w.length = 1
        · left; omega
        · right
          refine ⟨by omega, ?_⟩
          rw [byteAt_eq (a := s1 ++ w') (b := s2 ++ b) (c := c) (by rw [h, hc]; simp) (by rw [hc]; simp)]
          exact hw.last c (by rw [hc]; simp)
    rw [lhs, hsk, Nat.zero_add, if_pos (by omega), hbk]
    obtain ⟨g1, g2⟩ := part_found (a := s1) (b := s2 ++ b) h hw hne s1.length (s1.length + w.length - 1) rfl (by omega)
    rw [g1, g2]

theorem strstr_arrow (w s b : List Nat) (hw : ¬ Contains [61, 62] w) (hs : ∀ c ∈ s, Blank c) :
    strstr [61, 62] (w ++ (s ++ ([61, 62] ++ b))) = some (w.length + s.length) := by
  induction w with
  | nil =>
    induction s with
    | nil => simp [strstr]
    | cons c s ih =>
      have hc : c ≠ 61 := by
        intro h
        have := hs c (List.mem_cons_self ..)
        rw [h] at this
        simp [Blank] at this
      simp only [List.nil_append] at ih ⊢
      rw [List.cons_append, strstr, if_neg (by simp [List.isPrefixOf]; exact fun h => absurd h.symm hc),
        ih (fun y hy => hs y (List.mem_cons_of_mem _ hy))]
      simp
  | cons c w ih =>
    have h0 : ¬ Contains [61, 62] w := by
      rintro ⟨a, b, h⟩
      exact hw ⟨c :: a, b, by rw [h]; rfl⟩
    rw [List.cons_append, strstr, if_neg, ih h0]
    · simp; omega
    · intro hp
      cases w with
      | nil =>
        cases s with
        | nil => simp [List.isPrefixOf] at hp
        | cons d s =>
          have hd := hs d (List.mem_cons_self ..)
          simp [List.isPrefixOf] at hp
          rw [← hp.2] at hd
          simp [Blank] at hd
      | cons d w =>
        simp [List.isPrefixOf] at hp
        exact hw ⟨[], w, by rw [← hp.1, ← hp.2]; rfl⟩

theorem strrchr_none (c : Nat) (l : List Nat) (h : c ∉ l) : strrchr c l = none := by
  induction l with
  | nil => rfl
  | cons a l ih =>
    simp only [List.mem_cons, not_or] at h
    rw [strrchr, ih h.2]
    simp only
    rw [if_neg (fun e => h.1 e.symm)]

theorem strrchr_last (c : Nat) (a b : List Nat) (h : c ∉ b) : strrchr c (a ++ c :: b) = some a.length := by
  induction a with
  | nil => simp [strrchr, strrchr_none c b h]
  | cons x a ih => rw [List.cons_append, strrchr, ih]; rfl

theorem strchr_first (c : Nat) (a b : List Nat) (h : c ∉ a) : strchr c (a ++ c :: b) = some a.length := by
  induction a with
  | nil => simp [strchr]
  | cons x a ih =>
    simp only [List.mem_cons, not_or] at h
    rw [List.cons_append, strchr, if_neg (fun e => h.1 e.symm), ih h.2]
    simp

theorem strchr_none (c : Nat) (l : List Nat) (h : c ∉ l) : strchr c l = none := by
  induction l with
  | nil => rfl
  | cons a l ih =>
    simp only [List.mem_cons, not_or] at h
    rw [strchr, if_neg (fun e => h.1 e.symm), ih h.2]
    rfl

/-- The first occurrence splits the text. -/
theorem first_split {c : Nat} {l : List Nat} (h : c ∈ l) : ∃ x y, l = x ++ c :: y ∧ c ∉ x := by
  induction l with
  | nil => simp at h
  | cons a l ih =>
    by_cases ha : a = c
    · exact ⟨[], l, by rw [ha]; rfl, by simp⟩
    · rcases List.mem_cons.1 h with h | h
      · exact absurd h.symm ha
      · obtain ⟨x, y, h1, h2⟩ := ih h
        exact ⟨a :: x, y, by rw [h1]; rfl, by
          simp only [List.mem_cons, not_or]
          exact ⟨fun e => ha e.symm, h2⟩⟩

theorem prtrim_eq {l a t : List Nat} {c : Nat} (h : l = a ++ c :: t) (hc : ¬ Blank c) (ht : ∀ x ∈ t, Blank x) : prtrim l = a.length := by
  have hrev : (l.reverse.takeWhile isSpace).length = t.length := by
    rw [h]
    simp only [List.reverse_append, List.reverse_cons, List.append_assoc]
    rw [List.takeWhile_append_of_pos]
    · simp [isSpace_false hc]
    · intro x hx
      exact (isSpace_iff x).2 (ht x (List.mem_reverse.1 hx))
  rw [prtrim, hrev, h]
  simp

theorem not_blank_mem {l : List Nat} {c : Nat} (h : ∀ x ∈ l, Blank x) (hc : ¬ Blank c) : c ∉ l := fun hm => hc (h c hm)

/-- The end of a text that ends with a part or a mark. -/
theorem part_end {w x : List Nat} (h : Part w x) (hne : w ≠ []) : ∃ w' c, w = w' ++ [c] ∧ ¬ Blank c := by
  refine ⟨w.dropLast, w.getLast hne, (List.dropLast_concat_getLast hne).symm, ?_⟩
  exact h.last _ (List.getLast?_eq_some_getLast hne)

theorem all_space_false {l a b : List Nat} {c : Nat} (h : l = a ++ c :: b) (hc : ¬ Blank c) : ¬ (l.all isSpace = true) := by
  intro h'
  rw [List.all_eq_true] at h'
  exact hc ((isSpace_iff c).1 (h' c (by rw [h]; simp)))

/-- Every line that is to be read as a rule is read as that rule, with white space after it. -/
theorem parseRule_text {line : List Nat} {r : SRule} (h : RuleText line r) (trail : List Nat) (ht : ∀ b ∈ trail, Blank b) :
    parseRule (line ++ trail) = .ok ⟨r.left, r.source, r.source.length, r.right, r.target⟩ := by
  have b61 : ¬ Blank 61 := by simp [Blank]
  have b62 : ¬ Blank 62 := by simp [Blank]
  have b47 : ¬ Blank 47 := by simp [Blank]
  have b95 : ¬ Blank 95 := by simp [Blank]
  have b91 : ¬ Blank 91 := by simp [Blank]
  have b93 : ¬ Blank 93 := by simp [Blank]
  cases h with
  | plain _ s1 wa s2 s3 wb hs hA hB h3 hno hl hr hctx =>
    have hs1 : ∀ c ∈ s1, Blank c := fun c hc => hs c (by simp [hc])
    have hs2 : ∀ c ∈ s2, Blank c := fun c hc => hs c (by simp [hc])
    have hs3 : ∀ c ∈ s3, Blank c := fun c hc => hs c (by simp [hc])
    generalize hline : s1 ++ (wa ++ (s2 ++ ([61, 62] ++ (s3 ++ wb)))) ++ trail = l
    have hl0 : l = s1 ++ (wa ++ (s2 ++ ([61, 62] ++ (s3 ++ (wb ++ trail))))) := by rw [← hline]; simp
    have hstr : strstr [61, 62] l = some (s1.length + wa.length + s2.length) := by
      rw [hl0, ← List.append_assoc]
      rw [strstr_arrow (s1 ++ wa) s2 (s3 ++ (wb ++ trail)) _ hs2]
      · simp
      · rintro ⟨a, b, e⟩
        rcases List.append_eq_append_iff.1 e with ⟨t, e1, e2⟩ | ⟨t, e1, e2⟩
        · exact hno ⟨t, b, e2⟩
        · cases t with
          | nil =>
            simp at e2
            exact hno ⟨[], b, by simpa using e2.symm⟩
          | cons c t =>
            have : c = 61 := by simp at e2; exact e2.1.symm
            exact b61 (hs1 61 (by rw [e1, this]; simp))
    have hcm : contextMark l = none := by
      rcases hctx with hc | ⟨p, x, y, e, n1, n2, n3, n4⟩
      · have : 47 ∉ l := by
          rw [hl0]
          have n1 := not_blank_mem hs1 b47
          have n2 := not_blank_mem hs2 b47
          have n3 := not_blank_mem hs3 b47
          have n4 := not_blank_mem ht b47
          simp only [List.mem_append, not_or] at hc ⊢
          exact ⟨n1, hc.1, n2, by decide, n3, hc.2, n4⟩
        rw [contextMark, strrchr_none 47 l this]
      · have e' : l = p ++ 47 :: (x ++ 93 :: (y ++ trail)) := by rw [← hline, e]; simp
        have hmark : strrchr 47 l = some p.length := by
          rw [e']
          apply strrchr_last
          have := not_blank_mem ht b47
          simp [n1, n2, this]
        rw [contextMark, hmark]
        simp only
        have hd : l.drop p.length = 47 :: (x ++ 93 :: (y ++ trail)) := by rw [e', List.drop_left]
        obtain ⟨y1, y2, hy, hy1⟩ := first_split n4
        have q1 : strchr 91 (l.drop p.length) = some (47 :: (x ++ 93 :: y1)).length := by
          rw [hd, hy]
          have : (47 :: (x ++ 93 :: (y1 ++ 91 :: y2 ++ trail))) = (47 :: (x ++ 93 :: y1)) ++ 91 :: (y2 ++ trail) := by simp
          rw [this]
          apply strchr_first
          simp [n3, hy1]
        have q2 : ∃ k, strchr 93 (l.drop p.length) = some k ∧ k ≤ x.length + 1 := by
          by_cases h93 : 93 ∈ x
          · obtain ⟨x1, x2, hx, hx1⟩ := first_split h93
            refine ⟨(47 :: x1).length, ?_, by rw [hx]; simp⟩
            rw [hd, hx]
            have : (47 :: (x1 ++ 93 :: x2 ++ 93 :: (y ++ trail))) = (47 :: x1) ++ 93 :: (x2 ++ 93 :: (y ++ trail)) := by simp
            rw [this]
            exact strchr_first 93 _ _ (by simp [hx1])
          · refine ⟨(47 :: x).length, ?_, by simp⟩
            rw [hd]
            exact strchr_first 93 (47 :: x) _ (by simp [h93])
        obtain ⟨k, q2, q3⟩ := q2
        rw [q1, q2, if_pos]
        simp [ptrLt]
        omega
    have hall : ¬ (l.all isSpace = true) :=
      all_space_false (a := s1 ++ (wa ++ s2)) (b := 62 :: (s3 ++ (wb ++ trail))) (c := 61) (by rw [hl0]; simp) b61
    have hlhs : lhs l (s1.length + wa.length + s2.length) = (r.source, (r.source.length : Int)) :=
      lhs_eq (b := [61, 62] ++ (s3 ++ (wb ++ trail))) hl0 hs1 hs2 hA (by intro c hc; simp at hc; subst hc; exact b61) _ rfl
    have hrhs : field l (s1.length + wa.length + s2.length) (prtrim l) = r.target := by
      apply field_eq (a := s1 ++ (wa ++ s2)) (m := [61, 62]) (s := s3) (w := wb) (b := trail) (by rw [hl0]; simp)
        (by intro c hc; simp at hc; rcases hc with rfl | rfl <;> simp [Blank]) hs3 hB (fun hne h => hne (h3.2 h)) _ _
        (by simp; omega)
      by_cases hwb : wb = []
      · right
        have h3' := h3.1 hwb
        have hp : prtrim l = (s1 ++ (wa ++ (s2 ++ [61]))).length :=
          prtrim_eq (t := trail) (c := 62) (by rw [hl0, hwb, h3']; simp) b62 ht
        rw [hp]
        refine ⟨hwb, by simp; omega, by simp; omega⟩
      · left
        obtain ⟨w', c, e, hc⟩ := part_end hB hwb
        have hp : prtrim l = (s1 ++ (wa ++ (s2 ++ ([61, 62] ++ (s3 ++ w'))))).length :=
          prtrim_eq (t := trail) (c := c) (by rw [hl0, e]; simp) hc ht
        rw [hp, e]
        refine ⟨by simp, by simp; omega⟩
    rw [parseRule, if_neg hall, hstr]
    simp only
    rw [hcm]
    simp only
    rw [hlhs, hrhs, hl, hr]
  | context _ s1 wa s2 s3 wb s4 s5 wc s6 s7 wd k hs hA hB hC hD h3 h5 h7 hno h47 h95 hbr =>
    have hs1 : ∀ c ∈ s1, Blank c := fun c hc => hs c (by simp [hc])
    have hs2 : ∀ c ∈ s2, Blank c := fun c hc => hs c (by simp [hc])
    have hs3 : ∀ c ∈ s3, Blank c := fun c hc => hs c (by simp [hc])
    have hs4 : ∀ c ∈ s4, Blank c := fun c hc => hs c (by simp [hc])
    have hs5 : ∀ c ∈ s5, Blank c := fun c hc => hs c (by simp [hc])
    have hs6 : ∀ c ∈ s6, Blank c := fun c hc => hs c (by simp [hc])
    have hs7 : ∀ c ∈ s7, Blank c := fun c hc => hs c (by simp [hc])
    simp only [List.mem_append, not_or] at h47
    generalize hline : s1 ++ (wa ++ (s2 ++ ([61, 62] ++ (s3 ++ (wb ++ (s4 ++ ([47] ++ (s5 ++ (wc ++ (s6 ++ (List.replicate (k + 1) 95 ++
        (s7 ++ wd)))))))))))) ++ trail = l
    have hl0 : l = s1 ++ (wa ++ (s2 ++ ([61, 62] ++ (s3 ++ (wb ++ (s4 ++ ([47] ++ (s5 ++ (wc ++ (s6 ++ (List.replicate (k + 1) 95 ++
        (s7 ++ (wd ++ trail))))))))))))) := by rw [← hline]; simp
    have hstr : strstr [61, 62] l = some (s1.length + wa.length + s2.length) := by
      rw [hl0, ← List.append_assoc]
      rw [strstr_arrow (s1 ++ wa) s2 _ _ hs2]
      · simp
      · rintro ⟨a, b, e⟩
        rcases List.append_eq_append_iff.1 e with ⟨t, e1, e2⟩ | ⟨t, e1, e2⟩
        · exact hno ⟨t, b, e2⟩
        · cases t with
          | nil =>
            simp at e2
            exact hno ⟨[], b, by simpa using e2.symm⟩
          | cons c t =>
            have : c = 61 := by simp at e2; exact e2.1.symm
            exact b61 (hs1 61 (by rw [e1, this]; simp))
    -- the context mark
    generalize hp : s1 ++ (wa ++ (s2 ++ ([61, 62] ++ (s3 ++ (wb ++ s4))))) = p
    generalize hq : s5 ++ (wc ++ (s6 ++ (List.replicate (k + 1) 95 ++ (s7 ++ (wd ++ trail))))) = q
    have hlp : l = p ++ 47 :: q := by rw [hl0, ← hp, ← hq]; simp
    have hpl : p.length = s1.length + wa.length + s2.length + 2 + s3.length + wb.length + s4.length := by
      rw [← hp]; simp; omega
    have h47q : 47 ∉ q := by
      rw [← hq]
      simp only [List.mem_append, not_or]
      exact ⟨not_blank_mem hs5 b47, h47.1, not_blank_mem hs6 b47, by
        intro h
        have := (List.mem_replicate.1 h).2
        omega, not_blank_mem hs7 b47, h47.2, not_blank_mem ht b47⟩
    have hmark : strrchr 47 l = some p.length := by rw [hlp]; exact strrchr_last 47 p q h47q
    have hdrop : l.drop p.length = 47 :: q := by rw [hlp, List.drop_left]
    have hcm : contextMark l = some p.length := by
      rw [contextMark, hmark]
      simp only
      rw [hdrop, if_neg]
      rcases hbr with hbr | ⟨x, y, e, e1, e2⟩
      · have : 91 ∉ 47 :: q := by
          rw [← hq]
          simp only [List.mem_append, not_or] at hbr
          simp only [List.mem_append, List.mem_cons, not_or]
          exact ⟨by decide, not_blank_mem hs5 b91, hbr.1, not_blank_mem hs6 b91, by
            intro h
            have := (List.mem_replicate.1 h).2
            omega, not_blank_mem hs7 b91, hbr.2, not_blank_mem ht b91⟩
        rw [strchr_none 91 _ this]
        cases strchr 93 (47 :: q) <;> simp [ptrLt]
      · -- the first `[` comes before the first `]`
        have hu : 91 ∉ List.replicate (k + 1) 95 := fun h => by have := (List.mem_replicate.1 h).2; omega
        have hu3 : 93 ∉ List.replicate (k + 1) 95 := fun h => by have := (List.mem_replicate.1 h).2; omega
        have hx : ∃ u v, 47 :: q = u ++ 91 :: v ∧ 91 ∉ u ∧ 93 ∉ u ∧ 93 ∈ v := by
          rcases List.append_eq_append_iff.1 e with ⟨t, e3, e4⟩ | ⟨t, e3, e4⟩
          · -- x = wc ++ t, wd = t ++ 93 :: y
            rw [e3] at e1 e2
            simp only [List.mem_append, not_or] at e1
            by_cases hwc : 91 ∈ wc
            · obtain ⟨m, n, f1, f2⟩ := first_split hwc
              refine ⟨47 :: (s5 ++ m), n ++ (s6 ++ (List.replicate (k + 1) 95 ++ (s7 ++ (wd ++ trail)))), ?_, ?_, ?_, ?_⟩
              · rw [← hq, f1]; simp
              · simp [not_blank_mem hs5 b91, f2]
              · have : 93 ∉ m := fun h => e1.1 (by rw [f1]; simp [h])
                simp [not_blank_mem hs5 b93, this]
              · rw [e4]; simp
            · have ht1 : 91 ∈ t := by
                rcases List.mem_append.1 e2 with h | h
                · exact absurd h hwc
                · exact h
              obtain ⟨m, n, f1, f2⟩ := first_split ht1
              refine ⟨47 :: (s5 ++ (wc ++ (s6 ++ (List.replicate (k + 1) 95 ++ (s7 ++ m))))), n ++ 93 :: (y ++ trail), ?_, ?_, ?_, ?_⟩
              · rw [← hq, e4, f1]; simp
              · simp only [List.mem_cons, List.mem_append, not_or]
                exact ⟨by decide, not_blank_mem hs5 b91, hwc, not_blank_mem hs6 b91, hu, not_blank_mem hs7 b91, f2⟩
              · have : 93 ∉ m := fun h => e1.2 (by rw [f1]; simp [h])
                simp only [List.mem_cons, List.mem_append, not_or]
                exact ⟨by decide, not_blank_mem hs5 b93, e1.1, not_blank_mem hs6 b93, hu3, not_blank_mem hs7 b93, this⟩
              · simp
          · -- wc = x ++ t, t ++ wd = 93 :: y
            obtain ⟨m, n, f1, f2⟩ := first_split e2
            cases t with
            | nil =>
              simp only [List.append_nil] at e3
              refine ⟨47 :: (s5 ++ m), n ++ (s6 ++ (List.replicate (k + 1) 95 ++ (s7 ++ (wd ++ trail)))), ?_, ?_, ?_, ?_⟩
              · rw [← hq, e3, f1]; simp
              · simp [not_blank_mem hs5 b91, f2]
              · have : 93 ∉ m := fun h => e1 (by rw [f1]; simp [h])
                simp [not_blank_mem hs5 b93, this]
              · simp only [List.nil_append] at e4
                rw [← e4]; simp
            | cons c t =>
              have hc : c = 93 := by simp at e4; exact e4.1.symm
              refine ⟨47 :: (s5 ++ m), n ++ (c :: t ++ (s6 ++ (List.replicate (k + 1) 95 ++ (s7 ++ (wd ++ trail))))), ?_, ?_, ?_, ?_⟩
              · rw [← hq, e3, f1]; simp
              · simp [not_blank_mem hs5 b91, f2]
              · have : 93 ∉ m := fun h => e1 (by rw [f1]; simp [h])
                simp [not_blank_mem hs5 b93, this]
              · rw [hc]; simp
        obtain ⟨u, v, f1, f2, f3, f4⟩ := hx
        obtain ⟨v1, v2, f5, f6⟩ := first_split f4
        rw [f1, strchr_first 91 u v f2]
        have : strchr 93 (u ++ 91 :: v) = some (u ++ 91 :: v1).length := by
          rw [f5]
          have : u ++ 91 :: (v1 ++ 93 :: v2) = (u ++ 91 :: v1) ++ 93 :: v2 := by simp
          rw [this]
          exact strchr_first 93 _ _ (by simp [f3, f6])
        rw [this]
        simp [ptrLt]
    have hall : ¬ (l.all isSpace = true) :=
      all_space_false (a := p) (b := q) (c := 47) hlp b47
    have hlhs : lhs l (s1.length + wa.length + s2.length) = (r.source, (r.source.length : Int)) :=
      lhs_eq (b := [61, 62] ++ (s3 ++ (wb ++ (s4 ++ ([47] ++ (s5 ++ (wc ++ (s6 ++ (List.replicate (k + 1) 95 ++
        (s7 ++ (wd ++ trail)))))))))))
        hl0 hs1 hs2 hA (by intro c hc; simp at hc; subst hc; exact b61) _ rfl
    -- the right hand side ends before the mark
    have hrhs : field l (s1.length + wa.length + s2.length) (backSp l (s1.length + wa.length + s2.length) (p.length - 1)) = r.target := by
      apply field_eq (a := s1 ++ (wa ++ s2)) (m := [61, 62]) (s := s3) (w := wb)
        (b := s4 ++ ([47] ++ (s5 ++ (wc ++ (s6 ++ (List.replicate (k + 1) 95 ++ (s7 ++ (wd ++ trail)))))))) (by rw [hl0]; simp)
        (by intro c hc; simp at hc; rcases hc with rfl | rfl <;> simp [Blank]) hs3 hB h3 _ _
        (by simp; omega)
      by_cases hwb : wb = []
      · right
        have hbk : backSp l (s1.length + wa.length + s2.length) (p.length - 1) = s1.length + wa.length + s2.length + 1 := by
          have e1 : p.length - 1 = (s1.length + wa.length + s2.length + 1) + (s3 ++ s4).length := by
            rw [hpl, hwb]; simp; omega
          rw [e1]
          apply backSp_eq
          · intro i hi
            have h' : l = (s1 ++ (wa ++ (s2 ++ [61, 62]))) ++ ((s3 ++ s4) ++ (47 :: q)) := by rw [hlp, ← hp, hwb]; simp
            have := byteAt_range (n := s1.length + wa.length + s2.length + 1 + 1 + i) h' hi (by simp; omega)
            rcases List.mem_append.1 this with h | h
            · exact hs3 _ h
            · exact hs4 _ h
          · right
            refine ⟨by omega, ?_⟩
            rw [byteAt_eq (a := s1 ++ (wa ++ (s2 ++ [61]))) (b := s3 ++ (wb ++ (s4 ++ 47 :: q))) (c := 62)
              (by rw [hlp, ← hp]; simp) (by simp; omega)]
            exact b62
        rw [hbk]
        exact ⟨hwb, by omega, by simp; omega⟩
      · left
        obtain ⟨w', c, e, hc⟩ := part_end hB hwb
        have hwl : wb.length = w'.length + 1 := by rw [e]; simp
        have hbk : backSp l (s1.length + wa.length + s2.length) (p.length - 1)
            = s1.length + wa.length + s2.length + 2 + s3.length + w'.length := by
          have e1 : p.length - 1 = (s1.length + wa.length + s2.length + 2 + s3.length + w'.length) + s4.length := by
            rw [hpl, hwl]; omega
          rw [e1]
          apply backSp_eq
          · intro i hi
            have h' : l = (s1 ++ (wa ++ (s2 ++ ([61, 62] ++ (s3 ++ wb))))) ++ (s4 ++ (47 :: q)) := by rw [hlp, ← hp]; simp
            have := byteAt_range (n := s1.length + wa.length + s2.length + 2 + s3.length + w'.length + 1 + i) h' hi (by simp; omega)
            exact hs4 _ this
          · right
            refine ⟨by omega, ?_⟩
            rw [byteAt_eq (a := s1 ++ (wa ++ (s2 ++ ([61, 62] ++ (s3 ++ w'))))) (b := s4 ++ 47 :: q) (c := c)
              (by rw [hlp, ← hp, e]; simp) (by simp; omega)]
            exact hc
        rw [hbk]
        refine ⟨hwb, ?_⟩
        rw [hwl]
        simp
        omega
    -- the slot
    have hslot : strchr 95 (l.drop p.length) = some (1 + s5.length + wc.length + s6.length) := by
      rw [hdrop, ← hq]
      have : 47 :: (s5 ++ (wc ++ (s6 ++ (List.replicate (k + 1) 95 ++ (s7 ++ (wd ++ trail)))))) =
          (47 :: (s5 ++ (wc ++ s6))) ++ 95 :: (List.replicate k 95 ++ (s7 ++ (wd ++ trail))) := by
        simp [List.replicate_succ]
      rw [this, strchr_first]
      · simp; omega
      · simp only [List.mem_cons, List.mem_append, not_or]
        exact ⟨by decide, not_blank_mem hs5 b95, h95, not_blank_mem hs6 b95⟩
    have hleft : field l p.length (backSp l p.length (p.length + (1 + s5.length + wc.length + s6.length) - 1)) = r.left := by
      apply field_eq (a := p) (m := [47]) (s := s5) (w := wc)
        (b := s6 ++ (List.replicate (k + 1) 95 ++ (s7 ++ (wd ++ trail)))) (by rw [hlp, ← hq]; simp)
        (by intro c hc; simp at hc; subst hc; exact b47) hs5 hC h5 _ _ rfl
      by_cases hwc : wc = []
      · right
        have hbk : backSp l p.length (p.length + (1 + s5.length + wc.length + s6.length) - 1) = p.length := by
          have e1 : p.length + (1 + s5.length + wc.length + s6.length) - 1 = p.length + (s5 ++ s6).length := by
            rw [hwc]; simp; omega
          rw [e1]
          apply backSp_eq
          · intro i hi
            have h' : l = (p ++ [47]) ++ ((s5 ++ s6) ++ (List.replicate (k + 1) 95 ++ (s7 ++ (wd ++ trail)))) := by
              rw [hlp, ← hq, hwc]; simp
            have := byteAt_range (n := p.length + 1 + i) h' hi (by simp)
            rcases List.mem_append.1 this with h | h
            · exact hs5 _ h
            · exact hs6 _ h
          · exact .inl rfl
        rw [hbk]
        exact ⟨hwc, Nat.le_refl _, by simp⟩
      · left
        obtain ⟨w', c, e, hc⟩ := part_end hC hwc
        have hwl : wc.length = w'.length + 1 := by rw [e]; simp
        have hbk : backSp l p.length (p.length + (1 + s5.length + wc.length + s6.length) - 1) = p.length + 1 + s5.length + w'.length := by
          have e1 : p.length + (1 + s5.length + wc.length + s6.length) - 1 = (p.length + 1 + s5.length + w'.length) + s6.length := by
            rw [hwl]; omega
          rw [e1]
          apply backSp_eq
          · intro i hi
            have h' : l = (p ++ 47 :: (s5 ++ wc)) ++ (s6 ++ (List.replicate (k + 1) 95 ++ (s7 ++ (wd ++ trail)))) := by
              rw [hlp, ← hq]; simp
            have := byteAt_range (n := p.length + 1 + s5.length + w'.length + 1 + i) h' hi (by simp; omega)
            exact hs6 _ this
          · right
            refine ⟨by omega, ?_⟩
            rw [byteAt_eq (a := p ++ 47 :: (s5 ++ w')) (b := s6 ++ (List.replicate (k + 1) 95 ++ (s7 ++ (wd ++ trail)))) (c := c)
              (by rw [hlp, ← hq, e]; simp) (by simp; omega)]
            exact hc
        rw [hbk]
        refine ⟨hwc, ?_⟩
        rw [hwl]
        simp
        omega
    have hright : field l (p.length + (1 + s5.length + wc.length + s6.length)) (prtrim l) = r.right := by
      apply field_eq (a := p ++ 47 :: (s5 ++ (wc ++ s6))) (m := List.replicate (k + 1) 95) (s := s7) (w := wd) (b := trail)
        (by rw [hlp, ← hq]; simp)
        (by intro c hc; rw [(List.mem_replicate.1 hc).2]; exact b95) hs7 hD (fun hne h => hne (h7.2 h)) _ _
        (by simp; omega)
      by_cases hwd : wd = []
      · right
        have h7' := h7.1 hwd
        have hpt : prtrim l = (p ++ 47 :: (s5 ++ (wc ++ (s6 ++ List.replicate k 95)))).length :=
          prtrim_eq (t := trail) (c := 95) (by rw [hlp, ← hq, hwd, h7']; simp [List.replicate_succ']) b95 ht
        rw [hpt]
        refine ⟨hwd, by simp; omega, by simp; omega⟩
      · left
        obtain ⟨w', c, e, hc⟩ := part_end hD hwd
        have hpt : prtrim l = (p ++ 47 :: (s5 ++ (wc ++ (s6 ++ (List.replicate (k + 1) 95 ++ (s7 ++ w')))))).length :=
          prtrim_eq (t := trail) (c := c) (by rw [hlp, ← hq, e]; simp) hc ht
        rw [hpt, e]
        refine ⟨by simp, by simp; omega⟩
    rw [parseRule, if_neg hall, hstr]
    simp only
    rw [hcm]
    obtain ⟨n, hn⟩ : ∃ n, p.length = n + 1 := ⟨p.length - 1, by omega⟩
    rw [hn]
    simp only
    rw [contexts, ← hn, hslot]
    simp only
    rw [show n = p.length - 1 by omega]
    rw [hlhs, hrhs, hleft, hright]

end Verif.Rfilter
