import Verif.Lines.Spec
/-!
# Proofs about reading lines
-/
set_option autoImplicit false
namespace Verif.Lines
open Verif.Text

theorem cstr_eq {l : List Nat} (h : ∀ c ∈ l, c ≠ 0) : cstr l = l := by
  unfold cstr
  induction l with
  | nil => rfl
  | cons a l ih =>
    have ha := h a List.mem_cons_self
    rw [List.takeWhile_cons_of_pos (by simpa using ha), ih (fun c hc => h c (List.mem_cons_of_mem _ hc))]

/-- A line as far as it was read: complete with its newline, or without one. -/
def Ended (l : List Nat) : Prop := ∃ l', l = l' ++ [10] ∧ 10 ∉ l'

theorem takeLine_spec (n : Nat) (s : List Nat) :
    (takeLine n s).1 ++ (takeLine n s).2 = s ∧
    (Ended (takeLine n s).1 ∨ (10 ∉ (takeLine n s).1 ∧
      ((takeLine n s).1.length = n ∨ ((takeLine n s).1.length < n ∧ (takeLine n s).2 = [])))) := by
  induction n generalizing s with
  | zero => exact ⟨rfl, .inr ⟨by simp [takeLine], .inl rfl⟩⟩
  | succ n ih =>
    cases s with
    | nil => exact ⟨rfl, .inr ⟨by simp [takeLine], .inr ⟨by simp [takeLine], rfl⟩⟩⟩
    | cons c s =>
      unfold takeLine
      by_cases hc : c = 10
      · rw [if_pos hc]
        subst hc
        exact ⟨rfl, .inl ⟨[], rfl, by simp⟩⟩
      · rw [if_neg hc]
        obtain ⟨h1, h2⟩ := ih s
        refine ⟨by simp only [List.cons_append, h1], ?_⟩
        rcases h2 with ⟨l', e, hn⟩ | ⟨hn, h⟩
        · refine .inl ⟨c :: l', by simp only [e, List.cons_append], ?_⟩
          simp only [List.mem_cons, not_or]
          exact ⟨fun h => hc h.symm, hn⟩
        · refine .inr ⟨?_, ?_⟩
          · simp only [List.mem_cons, not_or]
            exact ⟨fun h => hc h.symm, hn⟩
          · rcases h with h | ⟨h, h'⟩
            · exact .inl (by simp [h])
            · exact .inr ⟨by simp only [List.length_cons]; omega, h'⟩

theorem growLoop_spec (fuel cap len : Nat) (l rest : List Nat) (h0 : ∀ c ∈ l ++ rest, c ≠ 0) (hl : 2 ≤ len) (hc : len ≤ cap)
    (hne : l ≠ []) (hf : rest.length < fuel)
    (hinv : Ended l ∨ (10 ∉ l ∧ (l.length = len - 1 ∨ (l.length < len - 1 ∧ rest = [])))) :
    ∃ cap' len' l' rest', growLoop fuel cap len l rest = .line cap' len' l' rest' ∧ l' ++ rest' = l ++ rest ∧
      2 ≤ len' ∧ len' ≤ cap' ∧ l' ≠ [] ∧ (Ended l' ∨ (10 ∉ l' ∧ rest' = [])) := by
  induction fuel generalizing cap len l rest with
  | zero => omega
  | succ fuel ih =>
    unfold growLoop
    rw [if_neg hne]
    by_cases hlast : l.getLast? = some 10
    · rw [if_pos hlast]
      refine ⟨cap, len, l, rest, rfl, rfl, hl, hc, hne, ?_⟩
      rcases hinv with h | ⟨h, _⟩
      · exact .inl h
      · exact absurd (List.mem_of_getLast? hlast) h
    · rw [if_neg hlast]
      rcases hinv with ⟨l', e, _⟩ | ⟨hn, hinv⟩
      · rw [e] at hlast
        simp at hlast
      · by_cases hs : l.length < len - 1
        · rw [if_pos hs]
          refine ⟨cap, len, l, rest, rfl, rfl, hl, hc, hne, .inr ⟨hn, ?_⟩⟩
          rcases hinv with h | h
          · omega
          · exact h.2
        · rw [if_neg hs]
          have hlen : l.length = len - 1 := by rcases hinv with h | h <;> omega
          rw [if_pos (by omega)]
          unfold fgets
          by_cases hr : rest = []
          · rw [if_pos hr]
            exact ⟨len * 2, len, l, rest, rfl, rfl, hl, by omega, hne, .inr ⟨hn, hr⟩⟩
          · rw [if_neg hr]
            simp only [Nat.add_sub_cancel]
            obtain ⟨t1, t2⟩ := takeLine_spec len rest
            generalize (takeLine len rest).1 = m at *
            generalize (takeLine len rest).2 = r at *
            subst t1
            have hz : cstr (l.take (len - 1) ++ m) = l ++ m := by
              rw [← hlen, List.take_length]
              apply cstr_eq
              intro c hcm
              apply h0
              simp only [List.mem_append] at hcm ⊢
              rcases hcm with h | h
              · exact .inl h
              · exact .inr (.inl h)
            have hm : m ≠ [] := by
              intro hm
              subst hm
              rcases t2 with ⟨l', e, _⟩ | ⟨_, h⟩
              · simp at e
              · simp only [List.length_nil] at h
                rcases h with h | h
                · omega
                · exact hr h.2
            rw [hz]
            obtain ⟨cap', len', l', rest', g1, g2, g3⟩ := ih (len * 2) (len * 2) (l ++ m) r (by simpa using h0) (by omega)
              (by omega) (by simp [hne]) (by
                have : 0 < m.length := List.length_pos_iff.2 hm
                simp only [List.length_append] at hf
                omega) (by
                rcases t2 with ⟨m', e, hm'⟩ | ⟨h1, h2⟩
                · refine .inl ⟨l ++ m', by rw [e, List.append_assoc], ?_⟩
                  simp only [List.mem_append, not_or]
                  exact ⟨hn, hm'⟩
                · refine .inr ⟨?_, ?_⟩
                  · simp only [List.mem_append, not_or]
                    exact ⟨hn, h1⟩
                  · simp only [List.length_append]
                    rcases h2 with h | ⟨h, h'⟩
                    · exact .inl (by omega)
                    · exact .inr ⟨by omega, h'⟩)
            exact ⟨cap', len', l', rest', g1, by rw [g2, List.append_assoc], g3⟩

theorem ensureFgets_spec (cap len : Nat) (s : List Nat) (h0 : ∀ c ∈ s, c ≠ 0) (hl : 2 ≤ len) (hc : len ≤ cap) (hs : s ≠ []) :
    ∃ cap' len' l rest, ensureFgets cap len s = .line cap' len' l rest ∧ l ++ rest = s ∧ 2 ≤ len' ∧ len' ≤ cap' ∧ l ≠ [] ∧
      (Ended l ∨ (10 ∉ l ∧ rest = [])) := by
  unfold ensureFgets fgets
  rw [if_neg (by omega), if_neg hs]
  simp only
  obtain ⟨t1, t2⟩ := takeLine_spec (len - 1) s
  generalize (takeLine (len - 1) s).1 = m at *
  generalize (takeLine (len - 1) s).2 = r at *
  subst t1
  have hm : m ≠ [] := by
    intro hm
    subst hm
    rcases t2 with ⟨l', e, _⟩ | ⟨_, h⟩
    · simp at e
    · simp only [List.length_nil] at h
      rcases h with h | h
      · omega
      · exact hs h.2
  rw [cstr_eq (fun c hcm => h0 c (List.mem_append_left _ hcm))]
  exact growLoop_spec _ cap len m r h0 hl hc hm (by
    have : 0 < m.length := List.length_pos_iff.2 hm
    simp only [List.length_append]; omega) t2

theorem readAll_spec (fuel cap len : Nat) (s : List Nat) (h0 : ∀ c ∈ s, c ≠ 0) (hl : 2 ≤ len) (hc : len ≤ cap)
    (hf : s.length < fuel) : ∃ ls, readAll fuel cap len s = some ls ∧ IsLines s ls := by
  induction fuel generalizing cap len s with
  | zero => omega
  | succ fuel ih =>
    by_cases hs : s = []
    · subst hs
      refine ⟨[], ?_, .nil⟩
      unfold readAll ensureFgets fgets
      rw [if_neg (by omega)]
      rfl
    · obtain ⟨cap', len', l, rest, g1, g2, g3, g4, g5, g6⟩ := ensureFgets_spec cap len s h0 hl hc hs
      subst g2
      have hp : 0 < l.length := List.length_pos_iff.2 g5
      obtain ⟨ls, h1, h2⟩ := ih cap' len' rest (fun c hcm => h0 c (List.mem_append_right _ hcm)) g3 g4 (by
        simp only [List.length_append] at hf; omega)
      unfold readAll
      simp only [g1, h1, Option.map_some]
      refine ⟨_, rfl, ?_⟩
      rcases g6 with ⟨l', e, hn⟩ | ⟨hn, e⟩
      · subst e
        rw [List.append_assoc]
        exact .cons hn h2
      · have : ls = [] := by
          generalize rest = r at *
          subst e
          generalize hr : ([] : List Nat) = r at h2
          cases h2 with
          | nil => rfl
          | last h => exact absurd hr.symm h
          | cons => simp at hr
        subst e this
        rw [List.append_nil]
        exact .last g5 hn

/-- The lines of a file are determined by it. -/
theorem IsLines.unique {s : List Nat} {ls ms : List (List Nat)} (h1 : IsLines s ls) (h2 : IsLines s ms) : ls = ms := by
  induction h1 generalizing ms with
  | nil =>
    generalize hs : ([] : List Nat) = s at h2
    cases h2 with
    | nil => rfl
    | last h => exact absurd hs.symm h
    | cons => simp at hs
  | @last l hne hn =>
    generalize hs : l = s at h2
    cases h2 with
    | nil => exact absurd hs hne
    | last => rfl
    | cons => subst hs; simp at hn
  | @cons l s ls hn h ih =>
    generalize hs : l ++ 10 :: s = s' at h2
    cases h2 with
    | nil => simp at hs
    | last _ h' => subst hs; simp at h'
    | @cons l2 s2 ls2 hn2 h2' =>
      have : l = l2 ∧ s = s2 := by
        clear ih h h2'
        induction l generalizing l2 with
        | nil =>
          cases l2 with
          | nil => simpa using hs
          | cons a l2 =>
            simp at hs hn2
            exact absurd hs.1 hn2.1
        | cons b l ihl =>
          cases l2 with
          | nil =>
            simp at hs hn
            exact absurd hs.1.symm hn.1
          | cons a l2 =>
            simp only [List.cons_append, List.cons.injEq] at hs
            obtain ⟨e1, e2⟩ := ihl (fun h => hn (List.mem_cons_of_mem _ h)) (fun h => hn2 (List.mem_cons_of_mem _ h)) hs.2
            exact ⟨by rw [hs.1, e1], e2⟩
      obtain ⟨e1, e2⟩ := this
      subst e1 e2
      rw [ih h2']

end Verif.Lines
