import Verif.Split.Spec
/-!
# Separating characters: lemmas
-/
set_option autoImplicit false
namespace Verif.Split
open Verif.Text Verif.Lines

/-- The separated sequence of glyphs, given whether the previous one was ASCII or a blank. -/
def go (e : Enc) (f : Flags) : Bool → Bool → List (List Nat) → List (List Nat)
  | _, _, [] => []
  | la, ls, g :: gs =>
    if f.delHyphen ∧ g = [45] then go e f la ls gs
    else (if ls || g = [32] || (f.noAscii && asciiGlyph e g && la) then [g] else [[32], g]) ++
      go e f (asciiGlyph e g) (g = [32]) gs

theorem nbytes_lt (e : Enc) : ∀ b : Nat, b < 128 → nbytes e b = some 1 := by
  cases e <;> decide +kernel

theorem and80 : ∀ b : Nat, b < 256 → (b &&& 0x80 = 0 ↔ b < 128) := by decide +kernel

theorem nbytes_le (e : Enc) : ∀ b : Nat, b < 256 → ∀ n : Nat, nbytes e b = some n → 1 ≤ n ∧ n ≤ 6 := by
  intro b _ n h
  cases e <;> simp only [nbytes] at h <;> (repeat' split at h) <;> cases h <;> omega

theorem isAscii_char {e : Enc} {b : Nat} {t : List Nat} (h : IsChar e (b :: t)) : isAscii e b = asciiGlyph e (b :: t) := by
  obtain ⟨b', t', he, hn, hb⟩ := h
  cases he
  have hb' := (hb b (List.mem_cons_self ..)).2
  cases e with
  | ascii => simp [isAscii, asciiGlyph]
  | extAscii => simp [isAscii, asciiGlyph]
  | gb =>
    simp only [isAscii, asciiGlyph, reduceCtorEq, false_or, List.head?_cons, Option.mem_some_iff, exists_eq_left', List.length_cons]
    rw [decide_eq_decide, and80 b hb']
    constructor
    · intro h; refine ⟨h, ?_⟩
      have := nbytes_lt .gb b h
      rw [hn] at this; simpa using this
    · exact fun h => h.1
  | utf8 =>
    simp only [isAscii, asciiGlyph, reduceCtorEq, false_or, List.head?_cons, Option.mem_some_iff, exists_eq_left', List.length_cons]
    rw [decide_eq_decide, and80 b hb']
    constructor
    · intro h; refine ⟨h, ?_⟩
      have := nbytes_lt .utf8 b h
      rw [hn] at this; simpa using this
    · exact fun h => h.1

theorem asciiG_tilde {e : Enc} (he : e = .utf8 ∨ e = .gb) (x y z : Nat) : asciiGlyph e [x, y, z] = false := by
  rcases he with rfl | rfl <;> simp [asciiGlyph]

/-- The two bytes of the combining tilde come from one character. -/
theorem tilde_char {e : Enc} (he : e = .utf8 ∨ e = .gb) {cs : List (List Nat)} (hc : ∀ c ∈ cs, IsChar e c)
    (h : cs.flatten.take 2 = [0xCC, 0x83]) : ∃ ds, cs = [0xCC, 0x83] :: ds := by
  cases cs with
  | nil => simp at h
  | cons d ds =>
    obtain ⟨b, t, hd, hn, hb⟩ := hc d (List.mem_cons_self ..)
    subst hd
    simp only [List.flatten_cons, List.cons_append, List.take_succ_cons, List.cons.injEq] at h
    obtain ⟨h1, h2⟩ := h
    subst h1
    have hl : nbytes e 0xCC = some 2 := by rcases he with rfl | rfl <;> decide
    rw [hl] at hn
    simp only [Option.some.injEq, List.length_cons] at hn
    match t, hn with
    | [x], _ =>
      simp only [List.cons_append, List.take_succ_cons, List.take_zero, List.cons.injEq, and_true] at h2
      exact ⟨ds, by rw [h2]⟩

/-- One step on an ordinary character. -/
theorem step_char {e : Enc} {f : Flags} {st : St} {b : Nat} {t rest : List Nat} (hc : IsChar e (b :: t))
    (hg : ¬ (f.guarani ∧ (b = 71 ∨ b = 103) ∧ (t ++ rest).take 2 = [0xCC, 0x83]))
    (hs : 16 ≤ st.size) (hl : st.out.length + 1 ≤ st.size) (h0 : st.out = [] → st.lastSpace = true) :
    ∃ size', step e f st b (t ++ rest) = some (
      (if f.delHyphen ∧ b :: t = [45] then { st with size := size' }
        else ⟨st.out ++ ((if st.lastSpace || b :: t = [32] || (f.noAscii && asciiGlyph e (b :: t) && st.lastAscii) then [b :: t]
          else [[32], b :: t]) : List (List Nat)).flatten, size', asciiGlyph e (b :: t), b :: t = [32]⟩), rest) ∧ 16 ≤ size' ∧
      (if f.delHyphen ∧ b :: t = [45] then { st with size := size' }
        else ⟨st.out ++ ((if st.lastSpace || b :: t = [32] || (f.noAscii && asciiGlyph e (b :: t) && st.lastAscii) then [b :: t]
          else [[32], b :: t]) : List (List Nat)).flatten, size', asciiGlyph e (b :: t), b :: t = [32]⟩ : St).out.length + 1 ≤ size' := by
  have hA := isAscii_char hc
  obtain ⟨b', t', he, hn, hb⟩ := hc
  cases he
  have hle := nbytes_le e b (hb b (List.mem_cons_self ..)).2 _ hn
  have htake : (b :: (t ++ rest)).take (b :: t).length = b :: t := by
    rw [← List.cons_append, List.take_left]
  have hdrop : (b :: (t ++ rest)).drop (b :: t).length = rest := by
    rw [← List.cons_append, List.drop_left]
  have hyph : ((b :: t).length = 1 ∧ b = 45) ↔ b :: t = [45] := by
    simp only [List.length_cons, List.cons.injEq, Nat.add_eq_right, List.length_eq_zero_iff]
    exact and_comm
  have hsp : ((b :: t).length = 1 ∧ b = 32) ↔ b :: t = [32] := by
    simp only [List.length_cons, List.cons.injEq, Nat.add_eq_right, List.length_eq_zero_iff]
    exact and_comm
  unfold step
  simp only [hn]
  rw [if_pos (by simp only [List.length_cons, List.length_append]; omega)]
  rw [if_neg hg]
  simp only [htake, hdrop, hyph, hsp, hA]
  generalize hsz : (if st.out.length + (b :: t).length + 4 > st.size then st.size * 2 else st.size) = size
  have h1 : 16 ≤ size := by rw [← hsz]; split <;> omega
  have h2 : st.out.length + (b :: t).length + 4 ≤ size := by rw [← hsz]; split <;> omega
  refine ⟨size, ?_, h1, ?_⟩
  · by_cases hd : f.delHyphen = true ∧ b :: t = [45]
    · simp only [if_pos hd]
    · simp only [if_neg hd]
      by_cases ho : st.out = []
      · simp only [h0 ho, Bool.true_or, if_true, put, ho, List.length_nil]
        rw [if_pos (by omega)]
        simp
      · simp only [if_neg ho]
        cases hls : st.lastSpace with
        | true =>
          simp only [Bool.true_or, if_true, put, List.nil_append]
          rw [if_pos (by omega)]
          simp
        | false =>
          simp only [Bool.false_or, Bool.false_eq_true, if_false, put]
          by_cases hsp2 : b :: t = [32]
          · simp only [hsp2, decide_true, if_true, Bool.true_or, List.nil_append]
            rw [if_pos (by rw [hsp2] at h2; omega)]
            simp
          · simp only [hsp2, decide_false, Bool.false_eq_true, if_false, Bool.false_or]
            by_cases hj : f.noAscii = true ∧ asciiGlyph e (b :: t) = true ∧ st.lastAscii = true
            · simp only [hj, and_self, if_true, Bool.and_self, List.nil_append]
              rw [if_pos (by omega)]
              simp
            · have hj2 : ¬ ((f.noAscii && asciiGlyph e (b :: t) && st.lastAscii) = true) := by
                simpa [and_assoc] using hj
              simp only [if_neg hj, if_neg hj2]
              rw [if_pos (by simp only [List.length_append, List.length_cons, List.length_nil] at h2 ⊢; omega)]
              simp
  · split
    · simp only; omega
    · simp only [List.length_append]
      have : ((if st.lastSpace || b :: t = [32] || (f.noAscii && asciiGlyph e (b :: t) && st.lastAscii) then [b :: t]
          else [[32], b :: t]) : List (List Nat)).flatten.length ≤ (b :: t).length + 1 := by
        split <;> simp <;> omega
      omega

theorem step_tilde {e : Enc} (he : e = .utf8 ∨ e = .gb) {f : Flags} {st : St} {b : Nat} {rest : List Nat} (hf : f.guarani = true)
    (hb : b = 71 ∨ b = 103) (hs : 16 ≤ st.size) (hl : st.out.length + 1 ≤ st.size) :
    ∃ size', step e f st b (0xCC :: 0x83 :: rest) = some (
      ⟨st.out ++ ((if st.lastSpace then [[b, 0xCC, 0x83]] else [[32], [b, 0xCC, 0x83]]) : List (List Nat)).flatten, size', false, false⟩,
        rest) ∧ 16 ≤ size' ∧
      (st.out ++ ((if st.lastSpace then [[b, 0xCC, 0x83]] else [[32], [b, 0xCC, 0x83]]) : List (List Nat)).flatten).length + 1 ≤ size' := by
  unfold step
  have hn : nbytes e b = some 1 := nbytes_lt e b (by omega)
  simp only [hn]
  rw [if_pos (by simp), if_pos ⟨hf, hb, rfl⟩, if_neg (by rcases he with rfl | rfl <;> simp)]
  generalize hsz : (if st.out.length + 1 + 4 > st.size then st.size * 2 else st.size) = size
  have h1 : 16 ≤ size := by rw [← hsz]; split <;> omega
  have h2 : st.out.length + 1 + 4 ≤ size := by rw [← hsz]; split <;> omega
  refine ⟨size, ?_, h1, ?_⟩
  · cases st.lastSpace <;> simp [put, h2] <;> omega
  · cases st.lastSpace <;> simp <;> omega

theorem loop_spec (e : Enc) (f : Flags) (hg : f.guarani = true → e = .utf8 ∨ e = .gb) (n : Nat) : ∀ (cs : List (List Nat)),
    cs.length ≤ n → (∀ c ∈ cs, IsChar e c) → ∀ (fuel : Nat) (st : St), cs.flatten.length ≤ fuel → 16 ≤ st.size →
    st.out.length + 1 ≤ st.size → (st.out = [] → st.lastSpace = true) →
    ∃ st', loop e f fuel st cs.flatten = some st' ∧
      st'.out = st.out ++ (go e f st.lastAscii st.lastSpace (glyphs f.guarani cs)).flatten := by
  induction n with
  | zero =>
    intro cs hn
    cases cs with
    | nil => intro _ fuel st _ _ _ _; exact ⟨st, by cases fuel <;> simp [loop], by simp [glyphs, go]⟩
    | cons c cs => simp at hn
  | succ n ih =>
    intro cs hn hc fuel st hf hs hl h0
    cases cs with
    | nil => exact ⟨st, by cases fuel <;> simp [loop], by simp [glyphs, go]⟩
    | cons c cs =>
      have hcc := hc c (List.mem_cons_self ..)
      have hcs : ∀ d ∈ cs, IsChar e d := fun d hd => hc d (List.mem_cons_of_mem _ hd)
      obtain ⟨b, t, rfl, hnb, hbb⟩ := hcc
      simp only [List.flatten_cons, List.cons_append, List.length_cons, List.length_append] at hf
      obtain ⟨fuel, rfl⟩ : ∃ k, fuel = k + 1 := ⟨fuel - 1, by omega⟩
      rw [List.flatten_cons, List.cons_append]
      unfold loop
      by_cases hG : f.guarani = true ∧ (b = 71 ∨ b = 103) ∧ (t ++ cs.flatten).take 2 = [0xCC, 0x83]
      · obtain ⟨hG1, hG2, hG3⟩ := hG
        have he := hg hG1
        have hlt : nbytes e b = some 1 := nbytes_lt e b (by omega)
        rw [hlt] at hnb
        have ht : t = [] := by
          simp only [Option.some.injEq, List.length_cons] at hnb
          exact List.eq_nil_of_length_eq_zero (by omega)
        subst ht
        obtain ⟨ds, rfl⟩ := tilde_char he hcs hG3
        obtain ⟨size', h1, h2, h3⟩ := step_tilde he (f := f) (st := st) (rest := ds.flatten) hG1 hG2 hs hl
        simp only [List.nil_append, List.flatten_cons, List.cons_append]
        rw [h1]
        simp only [List.flatten_cons, List.length_append, List.length_cons, List.length_nil] at hf
        obtain ⟨st', h4, h5⟩ := ih ds (by simp only [List.length_cons] at hn; omega) (fun d hd => hcs d (List.mem_cons_of_mem _ hd)) fuel
          ⟨st.out ++ ((if st.lastSpace then [[b, 0xCC, 0x83]] else [[32], [b, 0xCC, 0x83]]) : List (List Nat)).flatten, size', false, false⟩
          (by omega) h2 h3 (by
            intro h
            exfalso
            revert h
            simp only
            split <;> simp)
        refine ⟨st', h4, ?_⟩
        rw [h5]
        have hgl : glyphs f.guarani ([b] :: [0xCC, 0x83] :: ds) = [b, 0xCC, 0x83] :: glyphs f.guarani ds := by
          simp only [glyphs]
          rw [if_pos ⟨hG1, by rcases hG2 with rfl | rfl <;> simp, trivial⟩]
          simp
        rw [hgl]
        simp only [go]
        rw [if_neg (show ¬ (f.delHyphen = true ∧ [b, 0xCC, 0x83] = [45]) by simp)]
        rw [asciiG_tilde he]
        simp
      · obtain ⟨size', h1, h2, h3⟩ := step_char (f := f) (st := st) (rest := cs.flatten) ⟨b, t, rfl, hnb, hbb⟩ hG hs hl h0
        rw [h1]
        have hgl : glyphs f.guarani ((b :: t) :: cs) = (b :: t) :: glyphs f.guarani cs := by
          cases cs with
          | nil => rfl
          | cons d ds =>
            simp only [glyphs]
            rw [if_neg]
            rintro ⟨g1, g2, g3⟩
            apply hG
            refine ⟨g1, ?_, ?_⟩
            · rcases g2 with g2 | g2 <;> cases g2 <;> simp
            · rcases g2 with g2 | g2 <;> cases g2 <;> simp [g3]
        rw [hgl]
        simp only [go]
        by_cases hd : f.delHyphen = true ∧ b :: t = [45]
        · simp only [if_pos hd] at h3 ⊢
          exact ih cs (by simp only [List.length_cons] at hn; omega) hcs fuel { st with size := size' } (by omega) h2 h3 h0
        · simp only [if_neg hd] at h3 ⊢
          obtain ⟨st', h4, h5⟩ := ih cs (by simp only [List.length_cons] at hn; omega) hcs fuel
            ⟨st.out ++ ((if st.lastSpace || b :: t = [32] || (f.noAscii && asciiGlyph e (b :: t) && st.lastAscii) then [b :: t]
              else [[32], b :: t]) : List (List Nat)).flatten, size', asciiGlyph e (b :: t), b :: t = [32]⟩
            (by omega) h2 h3 (by
              intro h
              exfalso
              revert h
              split <;> simp)
          refine ⟨st', h4, ?_⟩
          rw [h5]
          simp only [List.flatten_append, List.append_assoc]

/-! ## The separated glyphs -/

theorem go_filter (e : Enc) (f : Flags) (gs : List (List Nat)) : ∀ (la ls : Bool),
    (go e f la ls gs).filter (· ≠ [32]) = gs.filter fun g => !(f.delHyphen && g = [45]) && (g ≠ [32] : Bool) := by
  induction gs with
  | nil => intro la ls; rfl
  | cons g gs ih =>
    intro la ls
    simp only [go]
    by_cases hd : f.delHyphen = true ∧ g = [45]
    · rw [if_pos hd, ih, List.filter_cons]
      rw [if_neg (by simp [hd])]
    · rw [if_neg hd, List.filter_append, ih, List.filter_cons]
      by_cases hg : g = [32]
      · subst hg; simp
      · have : (!(f.delHyphen && decide (g = [45])) && (g ≠ [32] : Bool)) = true := by
          simp only [Bool.and_eq_true, Bool.not_eq_true', Bool.and_eq_false_iff, decide_eq_true_eq, ne_eq, hg, not_false_eq_true,
            decide_eq_false_iff_not, and_true]
          by_cases h1 : f.delHyphen = true
          · exact Or.inr fun h2 => hd ⟨h1, h2⟩
          · left; simpa using h1
        rw [if_pos this]
        split <;> simp [hg]

/-- The state before the rest of the output, as a previous glyph. -/
theorem runs_go (e : Enc) (f : Flags) (gs : List (List Nat)) : ∀ (p : List Nat),
    runs (fun _ _ => true) (p :: go e f (asciiGlyph e p) (p = [32]) gs) =
      runs (fun g h => f.noAscii && asciiGlyph e g && asciiGlyph e h) (p :: gs.filter fun g => !(f.delHyphen && g = [45])) := by
  induction gs with
  | nil => intro p; simp only [go, List.filter_nil, runs]
  | cons g gs ih =>
    intro p
    simp only [go, List.filter_cons]
    by_cases hd : f.delHyphen = true ∧ g = [45]
    · rw [if_pos hd, ih p, if_neg (by simp [hd])]
    · have hk : (!(f.delHyphen && decide (g = [45]))) = true := by
        cases h1 : f.delHyphen with
        | false => rfl
        | true => simpa using fun h2 => hd ⟨h1, h2⟩
      rw [if_neg hd, if_pos hk]
      have ihg := ih g
      generalize hX : go e f (asciiGlyph e g) (g = [32]) gs = X at *
      generalize hY : gs.filter (fun g => !(f.delHyphen && decide (g = [45]))) = Y at *
      by_cases hp : p = [32]
      · subst hp
        simp only [decide_true, Bool.true_or, if_true, List.cons_append, List.nil_append, runs]
        exact ihg
      · simp only [hp, decide_false, Bool.false_or]
        by_cases hg : g = [32]
        · subst hg
          simp only [decide_true, Bool.true_or, if_true, List.cons_append, List.nil_append, runs, if_neg hp, ne_eq, not_true_eq_false,
            false_and, if_false]
          rw [ihg]
        · simp only [hg, decide_false, Bool.false_or]
          by_cases hj : (f.noAscii && asciiGlyph e g && asciiGlyph e p) = true
          · rw [if_pos hj]
            simp only [List.cons_append, List.nil_append, runs, if_neg hp]
            rw [if_pos ⟨hg, trivial⟩, if_pos ⟨hg, by simp only [Bool.and_eq_true] at hj ⊢; exact ⟨⟨hj.1.1, hj.2⟩, hj.1.2⟩⟩, ihg]
          · rw [if_neg hj]
            simp only [List.cons_append, List.nil_append, runs, if_neg hp]
            have hj2 : ¬ (g ≠ [32] ∧ (f.noAscii && asciiGlyph e p && asciiGlyph e g) = true) := by
              rintro ⟨_, h⟩
              apply hj
              simp only [Bool.and_eq_true] at h ⊢; exact ⟨⟨h.1.1, h.2⟩, h.1.2⟩
            rw [if_neg hj2]
            simp only [ne_eq, not_true_eq_false, false_and, if_false, if_true]
            rw [ihg]

theorem fields_cons {sep : List Nat → Prop} {l cs : List (List Nat)} {R : List (List (List Nat))} {g h : List Nat}
    (hf : Fields sep l R) (hl : l = h :: cs) (hg : ¬ sep g) (hh : ¬ sep h) :
    ∃ r rs, R = r :: rs ∧ Fields sep (g :: l) ((g :: r) :: rs) := by
  cases hf with
  | nil => cases hl
  | skip h1 h2 => cases hl; exact absurd h1 hh
  | last h1 h2 =>
    refine ⟨_, _, rfl, .last (by simp) ?_⟩
    intro c hc
    rcases List.mem_cons.1 hc with rfl | hc
    · exact hg
    · exact h2 c hc
  | tok h1 h2 h3 h4 =>
    refine ⟨_, _, rfl, ?_⟩
    rw [← List.cons_append]
    refine .tok (by simp) ?_ h3 h4
    intro c hc
    rcases List.mem_cons.1 hc with rfl | hc
    · exact hg
    · exact h2 c hc

theorem fields_single {sep : List Nat → Prop} {l cs : List (List Nat)} {R : List (List (List Nat))} {g s : List Nat}
    (hf : Fields sep l R) (hl : l = s :: cs) (hg : ¬ sep g) (hs : sep s) : Fields sep (g :: l) ([g] :: R) := by
  cases hf with
  | nil => cases hl
  | skip h1 h2 =>
    cases hl
    exact .tok (t := [g]) (by simp) (by intro c hc; rw [List.mem_singleton] at hc; rw [hc]; exact hg) h1 h2
  | last h1 h2 => subst hl; exact absurd hs (h2 _ (List.mem_cons_self ..))
  | tok h1 h2 h3 h4 =>
    rename_i t _ _ _
    cases t with
    | nil => exact absurd rfl h1
    | cons x t => 
      cases hl
      exact absurd hs (h2 _ (List.mem_cons_self ..))

/-- Maximal runs without blanks are the fields. -/
theorem runs_fields (gs : List (List Nat)) : Fields (IsSep [32]) gs (runs (fun _ _ => true) gs) := by
  have hsep : ∀ g : List Nat, IsSep [32] g ↔ g = [32] := by
    intro g
    constructor
    · rintro ⟨b, rfl, hb⟩; rw [List.mem_singleton] at hb; rw [hb]
    · rintro rfl; exact ⟨32, rfl, List.mem_singleton.2 rfl⟩
  induction gs with
  | nil => exact .nil
  | cons g gs ih =>
    cases gs with
    | nil =>
      simp only [runs]
      by_cases hg : g = [32]
      · rw [if_pos hg]; exact .skip ((hsep g).2 hg) .nil
      · rw [if_neg hg]; exact .last (by simp) (by intro c hc; rw [List.mem_singleton] at hc; rw [hc, hsep]; exact hg)
    | cons h gs =>
      simp only [runs]
      by_cases hg : g = [32]
      · rw [if_pos hg]; exact .skip ((hsep g).2 hg) ih
      · rw [if_neg hg]
        by_cases hh : h = [32]
        · rw [if_neg (fun x => x.1 hh)]
          exact fields_single ih rfl (fun x => hg ((hsep g).1 x)) ((hsep h).2 hh)
        · rw [if_pos ⟨hh, trivial⟩]
          obtain ⟨r, rs, h1, h2⟩ := fields_cons ih rfl (fun x => hg ((hsep g).1 x)) (fun x => hh ((hsep h).1 x))
          rw [h1]
          exact h2

end Verif.Split
