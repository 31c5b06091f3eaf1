import Verif.Split.Lemmas
/-!
# Escaped parts of a word: lemmas
-/
set_option autoImplicit false
namespace Verif.Split
open Verif.Text

theorem escape_append (c : Nat) (p q : List Nat) : escape c (p ++ q) = escape c p ++ escape c q := by
  induction p with
  | nil => rfl
  | cons b p ih =>
    simp only [List.cons_append, escape]
    split <;> simp [ih]

theorem escape_clean (c : Nat) (p : List Nat) (h : c ∉ p) : escape c p = p := by
  induction p with
  | nil => rfl
  | cons b p ih =>
    rw [List.mem_cons, not_or] at h
    simp only [escape]
    rw [if_neg (fun x => h.1 x.symm), ih h.2]

theorem unescape_escape (p : List Nat) : unescape (escape 59 p) = p.filter (· ≠ 92) := by
  induction p with
  | nil => rfl
  | cons b p ih =>
    simp only [escape]
    unfold unescape at *
    split
    · rename_i h; subst h
      rw [List.filter_cons_of_neg (by decide), List.filter_cons_of_pos (by decide), List.filter_cons_of_pos (by decide), ih]
    · simp only [List.filter_cons, ih]

theorem filter_self (p : List Nat) (h : 92 ∉ p) : p.filter (· ≠ 92) = p := by
  rw [List.filter_eq_self]
  intro a ha
  simp only [ne_eq, decide_not, Bool.not_eq_true', decide_eq_false_iff_not]
  rintro rfl
  exact h ha

theorem strstr_none (e : Enc) (cs : List (List Nat)) (hc : ∀ c ∈ cs, IsChar e c ∧ c ≠ [59]) (fuel : Nat)
    (hf : cs.flatten.length ≤ fuel) : strstr e fuel cs.flatten = some none := by
  induction cs generalizing fuel with
  | nil => cases fuel <;> rfl
  | cons c cs ih =>
    obtain ⟨⟨b, t, rfl, hn, hb⟩, h59⟩ := hc c (List.mem_cons_self ..)
    simp only [List.flatten_cons, List.cons_append, List.length_cons, List.length_append] at hf
    obtain ⟨fuel, rfl⟩ : ∃ k, fuel = k + 1 := ⟨fuel - 1, by omega⟩
    rw [List.flatten_cons, List.cons_append]
    unfold strstr
    rw [hn]
    simp only
    rw [if_pos (by simp only [List.length_cons, List.length_append]; omega)]
    rw [← List.cons_append, List.take_left, List.drop_left, if_neg h59,
      ih (fun d hd => hc d (List.mem_cons_of_mem _ hd)) fuel (by omega)]
    rfl

theorem strstr_some (e : Enc) (cs : List (List Nat)) (hc : ∀ c ∈ cs, IsChar e c ∧ c ≠ [59]) (rest : List Nat) (fuel : Nat)
    (hf : cs.flatten.length < fuel) : strstr e fuel (cs.flatten ++ 59 :: rest) = some (some (cs.flatten, 59 :: rest)) := by
  induction cs generalizing fuel with
  | nil =>
    obtain ⟨fuel, rfl⟩ : ∃ k, fuel = k + 1 := ⟨fuel - 1, by simp only [List.flatten_nil, List.length_nil] at hf; omega⟩
    simp only [List.flatten_nil, List.nil_append]
    unfold strstr
    rw [nbytes_lt e 59 (by decide)]
    simp
  | cons c cs ih =>
    obtain ⟨⟨b, t, rfl, hn, hb⟩, h59⟩ := hc c (List.mem_cons_self ..)
    simp only [List.flatten_cons, List.cons_append, List.length_cons, List.length_append] at hf
    obtain ⟨fuel, rfl⟩ : ∃ k, fuel = k + 1 := ⟨fuel - 1, by omega⟩
    rw [List.flatten_cons, List.append_assoc, List.cons_append]
    unfold strstr
    rw [hn]
    simp only
    rw [if_pos (by simp only [List.length_cons, List.length_append]; omega)]
    rw [← List.cons_append, List.take_left, List.drop_left, if_neg h59,
      ih (fun d hd => hc d (List.mem_cons_of_mem _ hd)) fuel (by omega)]
    rfl

theorem flatten_no {cs : List (List Nat)} {x : Nat} (h : ∀ c ∈ cs, x ∉ c) : x ∉ cs.flatten := by
  intro hx
  obtain ⟨c, h1, h2⟩ := List.mem_flatten.1 hx
  exact h c h1 h2

/-- The next separator after an escaped part is the one that follows it. -/
theorem nextColon_spec (e : Enc) (n : Nat) : ∀ (cs : List (List Nat)), cs.length ≤ n →
    (∀ c ∈ cs, IsChar e c ∧ 92 ∉ c ∧ (59 ∈ c → c = [59])) → ∀ (rest : List Nat), (rest = [] ∨ ∃ r, rest = 59 :: r) →
    ∀ (prev : Option Nat), prev ≠ some 92 → (prev = none → cs ≠ []) → ∀ (fuel : Nat), cs.length < fuel →
    nextColon e fuel prev (escape 59 cs.flatten ++ rest) = some (escape 59 cs.flatten, rest) := by
  induction n with
  | zero =>
    intro cs hn hc rest hr prev hp hp0 fuel hf
    have : cs = [] := List.eq_nil_of_length_eq_zero (by omega)
    subst this
    obtain ⟨fuel, rfl⟩ : ∃ k, fuel = k + 1 := ⟨fuel - 1, by omega⟩
    simp only [List.flatten_nil, escape, List.nil_append]
    unfold nextColon
    rcases hr with rfl | ⟨r, rfl⟩
    · simp [strstr]
    · have := strstr_some e [] (by intro c hc; cases hc) r (59 :: r).length (by simp)
      simp only [List.flatten_nil, List.nil_append] at this
      rw [this]
      cases prev with
      | none => exact absurd rfl (hp0 rfl)
      | some c =>
        simp only [List.getLast?_nil, Option.none_or]
        rw [if_neg (fun h => hp (by rw [h]))]
  | succ n ih =>
    intro cs hn hc rest hr prev hp hp0 fuel hf
    obtain ⟨fuel, rfl⟩ : ∃ k, fuel = k + 1 := ⟨fuel - 1, by omega⟩
    by_cases hm : [59] ∈ cs
    · obtain ⟨as, bs, hcs, has⟩ := List.eq_append_cons_of_mem hm
      subst hcs
      have has59 : 59 ∉ as.flatten := flatten_no (fun c hc' h => has (by
        have := (hc c (List.mem_append_left _ hc')).2.2 h
        rw [← this]; exact hc'))
      have h1 : escape 59 (as ++ [59] :: bs).flatten = as.flatten ++ 92 :: 59 :: escape 59 bs.flatten := by
        rw [List.flatten_append, escape_append, escape_clean 59 _ has59, List.flatten_cons]
        simp [escape]
      have h92 : IsChar e [92] := ⟨92, [], rfl, by rw [nbytes_lt e 92 (by decide)]; rfl, by
        intro x hx; rw [List.mem_singleton] at hx; omega⟩
      have hss := strstr_some e (as ++ [[92]]) (by
        intro c hc'
        rcases List.mem_append.1 hc' with h | h
        · exact ⟨(hc c (List.mem_append_left _ h)).1, fun x => has (x ▸ h)⟩
        · rw [List.mem_singleton] at h; subst h; exact ⟨h92, by decide⟩) (escape 59 bs.flatten ++ rest)
        (as.flatten ++ 92 :: 59 :: escape 59 bs.flatten ++ rest).length (by
          simp only [List.flatten_append, List.length_append, List.flatten_cons, List.flatten_nil, List.length_cons, List.length_nil]; omega)
      rw [h1]
      unfold nextColon
      have h2 : (as ++ [[92]]).flatten ++ 59 :: (escape 59 bs.flatten ++ rest) =
          as.flatten ++ 92 :: 59 :: escape 59 bs.flatten ++ rest := by simp
      rw [h2] at hss
      rw [hss]
      have h3 : (as ++ [[92]]).flatten.getLast? = some 92 := by simp
      simp only [h3, Option.some_or, if_true, List.head?_cons, List.drop_succ_cons, List.drop_zero, List.take_succ_cons, List.take_zero]
      simp only [List.length_append, List.length_cons] at hn hf
      rw [ih bs (by omega) (fun c h => hc c (List.mem_append_right _ (List.mem_cons_of_mem _ h))) rest hr (some 59) (by simp)
        (by simp) fuel (by omega)]
      simp
    · have hc59 : 59 ∉ cs.flatten := flatten_no (fun c hc' h => hm (by
        have := (hc c hc').2.2 h
        rw [← this]; exact hc'))
      have hcc : ∀ c ∈ cs, IsChar e c ∧ c ≠ [59] := fun c h => ⟨(hc c h).1, fun x => hm (x ▸ h)⟩
      rw [escape_clean 59 _ hc59]
      unfold nextColon
      rcases hr with rfl | ⟨r, rfl⟩
      · rw [List.append_nil, strstr_none e cs hcc _ (Nat.le_refl _)]
      · rw [strstr_some e cs hcc r _ (by simp)]
        simp only
        have hl : ∃ c, cs.flatten.getLast?.or prev = some c ∧ c ≠ 92 := by
          cases hg : cs.flatten.getLast? with
          | some c =>
            refine ⟨c, rfl, ?_⟩
            rintro rfl
            exact flatten_no (fun c h => (hc c h).2.1) (List.mem_of_getLast? hg)
          | none =>
            have hce : cs.flatten = [] := List.getLast?_eq_none_iff.1 hg
            have : cs = [] := by
              cases cs with
              | nil => rfl
              | cons c cs =>
                obtain ⟨b, t, rfl, _⟩ := (hc c (List.mem_cons_self ..)).1
                simp at hce
            cases prev with
            | none => exact absurd this (hp0 rfl)
            | some c => exact ⟨c, rfl, fun h => hp (by rw [h])⟩
        obtain ⟨c, h1, h2⟩ := hl
        rw [h1]
        simp only
        rw [if_neg h2]

theorem clean_no {e : Enc} {v : List Nat} (h : Clean e v) : 92 ∉ v := by
  obtain ⟨cs, rfl, hc⟩ := h
  exact flatten_no fun c h => (hc c h).2.1

theorem chars_le {e : Enc} {cs : List (List Nat)} (hc : ∀ c ∈ cs, IsChar e c) : cs.length ≤ cs.flatten.length := by
  induction cs with
  | nil => simp
  | cons c cs ih =>
    obtain ⟨b, t, rfl, _⟩ := hc c (List.mem_cons_self ..)
    have := ih (fun d hd => hc d (List.mem_cons_of_mem _ hd))
    simp only [List.flatten_cons, List.length_append, List.length_cons]
    omega

theorem escape_len (p : List Nat) : p.length ≤ (escape 59 p).length := by
  induction p with
  | nil => simp
  | cons b p ih => simp only [escape]; split <;> simp <;> omega

theorem nextColon_clean {e : Enc} {v : List Nat} (h : Clean e v) (rest : List Nat) (hr : rest = [] ∨ ∃ r, rest = 59 :: r)
    (prev : Option Nat) (hp : prev ≠ some 92) (hp0 : prev = none → v ≠ []) :
    nextColon e ((escape 59 v ++ rest).length + 1) prev (escape 59 v ++ rest) = some (escape 59 v, rest) := by
  obtain ⟨cs, rfl, hc⟩ := h
  refine nextColon_spec e cs.length cs (Nat.le_refl _) hc rest hr prev hp (fun h1 h2 => hp0 h1 (by rw [h2]; rfl)) _ ?_
  have := chars_le (fun c h => (hc c h).1)
  have := escape_len cs.flatten
  rw [List.length_append]
  omega

end Verif.Split
