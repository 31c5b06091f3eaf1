import Verif.Text.Order
/-!
# UTF-8 and case conversion
-/
set_option autoImplicit false
namespace Verif.Text

set_option maxRecDepth 20000 in
theorem nbytes_utf8 : ∀ b : Nat, b < 256 → nbytes .utf8 b =
    if b < 128 then some 1 else if b < 192 then none else if b < 224 then some 2 else if b < 240 then some 3
    else if b < 248 then some 4 else if b < 252 then some 5 else if b < 254 then some 6 else none := by decide

theorem and_mask (b k : Nat) : b &&& (2 ^ k - 1) = b % 2 ^ k := Nat.and_two_pow_sub_one_eq_mod b k

theorem and_1F (b : Nat) : b &&& 0x1F = b % 32 := and_mask b 5
theorem and_F (b : Nat) : b &&& 0xF = b % 16 := and_mask b 4
theorem and_7 (b : Nat) : b &&& 0x7 = b % 8 := and_mask b 3
theorem and_3F (b : Nat) : b &&& 0x3F = b % 64 := and_mask b 6

/-- The UTF-8 bytes of a code point. -/
def enc (c : Nat) : List Nat :=
  if c < 0x80 then [c]
  else if c < 0x800 then [0xC0 + c / 64, 0x80 + c % 64]
  else if c < 0x10000 then [0xE0 + c / 4096, 0x80 + c / 64 % 64, 0x80 + c % 64]
  else [0xF0 + c / 262144, 0x80 + c / 4096 % 64, 0x80 + c / 64 % 64, 0x80 + c % 64]

theorem enc_cases (c : Nat) :
    (c < 0x80 ∧ enc c = [c]) ∨
    (0x80 ≤ c ∧ c < 0x800 ∧ enc c = [0xC0 + c / 64, 0x80 + c % 64]) ∨
    (0x800 ≤ c ∧ c < 0x10000 ∧ enc c = [0xE0 + c / 4096, 0x80 + c / 64 % 64, 0x80 + c % 64]) ∨
    (0x10000 ≤ c ∧ enc c = [0xF0 + c / 262144, 0x80 + c / 4096 % 64, 0x80 + c / 64 % 64, 0x80 + c % 64]) := by
  unfold enc
  by_cases h1 : c < 0x80
  · exact Or.inl ⟨h1, if_pos h1⟩
  · by_cases h2 : c < 0x800
    · exact Or.inr (Or.inl ⟨by omega, h2, by rw [if_neg h1, if_pos h2]⟩)
    · by_cases h3 : c < 0x10000
      · exact Or.inr (Or.inr (Or.inl ⟨by omega, h3, by rw [if_neg h1, if_neg h2, if_pos h3]⟩))
      · exact Or.inr (Or.inr (Or.inr ⟨by omega, by rw [if_neg h1, if_neg h2, if_neg h3]⟩))

theorem encode_some {c : Nat} (h : c < 0x20000) : encode c = some (enc c) := by
  rcases enc_cases c with ⟨h1, e⟩ | ⟨h0, h1, e⟩ | ⟨h0, h1, e⟩ | ⟨h0, e⟩ <;> rw [e] <;> unfold encode
  · rw [if_pos h1]
  · rw [if_neg (by omega), if_pos h1, Nat.mod_eq_of_lt (by omega), Nat.mod_eq_of_lt (by omega)]
  · rw [if_neg (by omega), if_neg (by omega), if_pos h1, Nat.mod_eq_of_lt (by omega),
      Nat.mod_eq_of_lt (show 128 + c / 64 % 64 < 256 by omega), Nat.mod_eq_of_lt (show 128 + c % 64 < 256 by omega)]
  · rw [if_neg (by omega), if_neg (by omega), if_neg (by omega), if_pos h, Nat.mod_eq_of_lt (by omega),
      Nat.mod_eq_of_lt (show 128 + c / 4096 % 64 < 256 by omega),
      Nat.mod_eq_of_lt (show 128 + c / 64 % 64 < 256 by omega), Nat.mod_eq_of_lt (show 128 + c % 64 < 256 by omega)]

theorem enc_len (c : Nat) : (enc c).length ≤ 4 ∧ enc c ≠ [] := by
  rcases enc_cases c with ⟨_, e⟩ | ⟨_, _, e⟩ | ⟨_, _, e⟩ | ⟨_, e⟩ <;> rw [e] <;> simp

theorem enc_isChar {c : Nat} (h0 : 0 < c) (h : c < 0x110000) : IsChar .utf8 (enc c) := by
  rcases enc_cases c with ⟨h1, e⟩ | ⟨h1, h2, e⟩ | ⟨h1, h2, e⟩ | ⟨h1, e⟩ <;> rw [e]
  · refine ⟨c, [], rfl, ?_, ?_⟩
    · rw [nbytes_utf8 c (by omega), if_pos (by omega)]; rfl
    · intro x hx; simp at hx; omega
  · refine ⟨_, _, rfl, ?_, ?_⟩
    · rw [nbytes_utf8 _ (by omega)]
      simp only [if_neg (show ¬ 0xC0 + c / 64 < 128 by omega), if_neg (show ¬ 0xC0 + c / 64 < 192 by omega),
        if_pos (show 0xC0 + c / 64 < 224 by omega)]
      rfl
    · intro x hx; simp at hx; omega
  · refine ⟨_, _, rfl, ?_, ?_⟩
    · rw [nbytes_utf8 _ (by omega)]
      simp only [if_neg (show ¬ 0xE0 + c / 4096 < 128 by omega), if_neg (show ¬ 0xE0 + c / 4096 < 192 by omega),
        if_neg (show ¬ 0xE0 + c / 4096 < 224 by omega), if_pos (show 0xE0 + c / 4096 < 240 by omega)]
      rfl
    · intro x hx; simp at hx; omega
  · refine ⟨_, _, rfl, ?_, ?_⟩
    · rw [nbytes_utf8 _ (by omega)]
      simp only [if_neg (show ¬ 0xF0 + c / 262144 < 128 by omega), if_neg (show ¬ 0xF0 + c / 262144 < 192 by omega),
        if_neg (show ¬ 0xF0 + c / 262144 < 224 by omega), if_neg (show ¬ 0xF0 + c / 262144 < 240 by omega),
        if_pos (show 0xF0 + c / 262144 < 248 by omega)]
      rfl
    · intro x hx; simp at hx; omega

theorem decode_enc {c : Nat} (h : c < 0x110000) (rest : List Nat) : decode (enc c ++ rest) = some c := by
  rcases enc_cases c with ⟨h1, e⟩ | ⟨h1, h2, e⟩ | ⟨h1, h2, e⟩ | ⟨h1, e⟩ <;> rw [e]
  · have : nbytes .utf8 c = some 1 := by rw [nbytes_utf8 c (by omega), if_pos (by omega)]
    simp only [List.cons_append, List.nil_append, decode, this]
  · have : nbytes .utf8 (0xC0 + c / 64) = some 2 := by
      rw [nbytes_utf8 _ (by omega)]
      simp only [if_neg (show ¬ 0xC0 + c / 64 < 128 by omega), if_neg (show ¬ 0xC0 + c / 64 < 192 by omega),
        if_pos (show 0xC0 + c / 64 < 224 by omega)]
    simp only [List.cons_append, List.nil_append, decode, this, and_1F, and_3F, Nat.shiftLeft_eq]
    congr 1
    omega
  · have : nbytes .utf8 (0xE0 + c / 4096) = some 3 := by
      rw [nbytes_utf8 _ (by omega)]
      simp only [if_neg (show ¬ 0xE0 + c / 4096 < 128 by omega), if_neg (show ¬ 0xE0 + c / 4096 < 192 by omega),
        if_neg (show ¬ 0xE0 + c / 4096 < 224 by omega), if_pos (show 0xE0 + c / 4096 < 240 by omega)]
    simp only [List.cons_append, List.nil_append, decode, this, and_F, and_3F, Nat.shiftLeft_eq]
    congr 1
    omega
  · have : nbytes .utf8 (0xF0 + c / 262144) = some 4 := by
      rw [nbytes_utf8 _ (by omega)]
      simp only [if_neg (show ¬ 0xF0 + c / 262144 < 128 by omega), if_neg (show ¬ 0xF0 + c / 262144 < 192 by omega),
        if_neg (show ¬ 0xF0 + c / 262144 < 224 by omega), if_neg (show ¬ 0xF0 + c / 262144 < 240 by omega),
        if_pos (show 0xF0 + c / 262144 < 248 by omega)]
    simp only [List.cons_append, List.nil_append, decode, this, and_7, and_3F, Nat.shiftLeft_eq]
    congr 1
    omega

theorem enc_inj {c d : Nat} (hc : c < 0x110000) (hd : d < 0x110000) (h : enc c = enc d) : c = d := by
  have h1 := decode_enc hc []
  have h2 := decode_enc hd []
  rw [h, h2] at h1
  injection h1 with h1
  exact h1.symm

/-- The specification of UTF-8 texts is concatenation of encoded code points. -/
theorem utf8_iff (cps bs : List Nat) :
    Utf8 cps bs ↔ (∀ c ∈ cps, 0 < c ∧ c < 0x110000) ∧ bs = (cps.map enc).flatten := by
  constructor
  · intro h
    induction h with
    | nil => exact ⟨by simp, rfl⟩
    | @one c cps bs h0 h1 _ ih =>
      refine ⟨?_, ?_⟩
      · intro x hx
        rcases List.mem_cons.1 hx with e | hx
        · subst e; omega
        · exact ih.1 x hx
      · rcases enc_cases c with ⟨_, e⟩ | ⟨_, _, e⟩ | ⟨_, _, e⟩ | ⟨_, e⟩ <;> try omega
        simp [e, ih.2]
    | @two c x y cps bs h0 h1 hc hy _ ih =>
      refine ⟨?_, ?_⟩
      · intro x hx
        rcases List.mem_cons.1 hx with e | hx
        · subst e; omega
        · exact ih.1 x hx
      · rcases enc_cases c with ⟨_, e⟩ | ⟨_, _, e⟩ | ⟨_, _, e⟩ | ⟨_, e⟩ <;> try omega
        have e1 : c / 64 = x := by omega
        have e2 : c % 64 = y := by omega
        simp [e, ih.2, e1, e2]
    | @three c x y z cps bs h0 h1 hc hy hz _ ih =>
      refine ⟨?_, ?_⟩
      · intro x hx
        rcases List.mem_cons.1 hx with e | hx
        · subst e; omega
        · exact ih.1 x hx
      · rcases enc_cases c with ⟨_, e⟩ | ⟨_, _, e⟩ | ⟨_, _, e⟩ | ⟨_, e⟩ <;> try omega
        have e0 : c / 4096 = x := by omega
        have e1 : c / 64 % 64 = y := by omega
        have e2 : c % 64 = z := by omega
        simp [e, ih.2, e0, e1, e2]
    | @four c w x y z cps bs h0 h1 hc hx hy hz _ ih =>
      refine ⟨?_, ?_⟩
      · intro x hx
        rcases List.mem_cons.1 hx with e | hx
        · subst e; omega
        · exact ih.1 x hx
      · rcases enc_cases c with ⟨_, e⟩ | ⟨_, _, e⟩ | ⟨_, _, e⟩ | ⟨_, e⟩ <;> try omega
        have e0 : c / 262144 = w := by omega
        have e0' : c / 4096 % 64 = x := by omega
        have e1 : c / 64 % 64 = y := by omega
        have e2 : c % 64 = z := by omega
        simp [e, ih.2, e0, e0', e1, e2]
  · rintro ⟨h, e⟩
    subst e
    induction cps with
    | nil => exact .nil
    | cons c cps ih =>
      have hc := h c List.mem_cons_self
      have ih := ih (fun x hx => h x (List.mem_cons_of_mem _ hx))
      rcases enc_cases c with ⟨h1, e⟩ | ⟨h1, h2, e⟩ | ⟨h1, h2, e⟩ | ⟨h1, e⟩
      · simp only [List.map_cons, List.flatten_cons, e, List.cons_append, List.nil_append]
        exact .one hc.1 h1 ih
      · simp only [List.map_cons, List.flatten_cons, e, List.cons_append, List.nil_append]
        exact .two h1 h2 (by omega) (by omega) ih
      · simp only [List.map_cons, List.flatten_cons, e, List.cons_append, List.nil_append]
        exact .three h1 h2 (by omega) (by omega) (by omega) ih
      · simp only [List.map_cons, List.flatten_cons, e, List.cons_append, List.nil_append]
        exact .four h1 hc.2 (by omega) (by omega) (by omega) (by omega) ih

/-! ## The conversion loop -/

theorem store_ok {size len c2 k : Nat} (h1 : len + 1 ≤ size) (h2 : c2 ≤ k) (h3 : k ≤ size / 2) :
    ∃ s', store size len c2 = some s' ∧ len + c2 + 1 ≤ s' ∧ size ≤ s' := by
  unfold store
  by_cases h : len + c2 + 1 > size
  · simp only [if_pos h]
    rw [if_pos (by omega)]
    exact ⟨_, rfl, by omega, by omega⟩
  · simp only [if_neg h]
    rw [if_pos (by omega)]
    exact ⟨_, rfl, by omega, by omega⟩

theorem caseLoop_ok (e : Enc) (tbl : List (Nat × Nat)) (low : Bool) (f : List Nat → List Nat) (k : Nat)
    (cs : List (List Nat)) (hc : ∀ c ∈ cs, IsChar e c) (hf : ∀ c ∈ cs, caseChar e tbl low c = some (f c))
    (hk : ∀ c ∈ cs, (f c).length ≤ k) (fuel size : Nat) (acc : List Nat) (hfu : cs.flatten.length ≤ fuel)
    (ha : acc.length + 1 ≤ size) (hs : k ≤ size / 2) :
    ∃ s', caseLoop e tbl low fuel size acc cs.flatten = some (acc ++ (cs.map f).flatten, s') ∧ size ≤ s' := by
  induction cs generalizing fuel size acc with
  | nil =>
    refine ⟨size, ?_, Nat.le_refl _⟩
    cases fuel <;> simp [caseLoop]
  | cons c cs ih =>
    obtain ⟨b, rest, hcb, hn, _⟩ := hc c List.mem_cons_self
    have e1 : (c :: cs).flatten = b :: (rest ++ cs.flatten) := by rw [hcb]; simp
    have e2 : b :: (rest ++ cs.flatten) = c ++ cs.flatten := by rw [hcb]; rfl
    cases fuel with
    | zero => rw [e1] at hfu; simp at hfu
    | succ fuel =>
      obtain ⟨s1, g1, g2, g3⟩ := store_ok ha (hk c List.mem_cons_self) hs
      obtain ⟨s2, g4, g5⟩ := ih (fun x hx => hc x (List.mem_cons_of_mem _ hx)) (fun x hx => hf x (List.mem_cons_of_mem _ hx))
        (fun x hx => hk x (List.mem_cons_of_mem _ hx)) fuel s1 (acc ++ f c)
        (by rw [e1] at hfu; simp at hfu ⊢; omega) (by simp; omega) (by omega)
      refine ⟨s2, ?_, by omega⟩
      rw [e1]
      unfold caseLoop
      simp only [hn]
      rw [e2, if_pos (by simp), List.take_left, List.drop_left, hf c List.mem_cons_self]
      simp only [g1]
      rw [g4]
      simp

theorem chrlen_ok (e : Enc) (cs : List (List Nat)) (hc : ∀ c ∈ cs, IsChar e c) (fuel : Nat)
    (hf : cs.flatten.length ≤ fuel) : chrlen e fuel cs.flatten = some cs.length := by
  induction cs generalizing fuel with
  | nil => cases fuel <;> simp [chrlen]
  | cons c cs ih =>
    obtain ⟨b, rest, hcb, hn, _⟩ := hc c List.mem_cons_self
    have e1 : (c :: cs).flatten = b :: (rest ++ cs.flatten) := by rw [hcb]; simp
    have e2 : b :: (rest ++ cs.flatten) = c ++ cs.flatten := by rw [hcb]; rfl
    cases fuel with
    | zero => rw [e1] at hf; simp at hf
    | succ fuel =>
      rw [e1]
      unfold chrlen
      simp only [hn]
      rw [e2, if_pos (by simp), List.drop_left, ih (fun x hx => hc x (List.mem_cons_of_mem _ hx)) fuel
        (by rw [e1] at hf; simp at hf ⊢; omega)]
      rfl

/-! ## Tables -/

/-- All code points of the table can be encoded. -/
def TblOK (tbl : List (Nat × Nat)) : Prop := ∀ r ∈ tbl, 0 < r.1 ∧ r.1 < 0x20000 ∧ 0 < r.2 ∧ r.2 < 0x20000

theorem known_mem {low : Bool} {cp o : Nat} {tbl : List (Nat × Nat)} (h : known low cp tbl = some o) :
    ∃ r ∈ tbl, (if low then r.1 else r.2) = cp ∧ o = (if low then r.2 else r.1) := by
  induction tbl with
  | nil => cases h
  | cons r t ih =>
    obtain ⟨u, l⟩ := r
    unfold known at h
    by_cases hc : (if low then u else l) = cp
    · rw [if_pos hc] at h
      injection h with h
      exact ⟨(u, l), List.mem_cons_self, hc, h.symm⟩
    · rw [if_neg hc] at h
      obtain ⟨r, hr, h'⟩ := ih h
      exact ⟨r, List.mem_cons_of_mem _ hr, h'⟩

theorem fold_range {tbl : List (Nat × Nat)} (ht : TblOK tbl) (low : Bool) {c : Nat} (h0 : 0 < c) (h : c < 0x110000) :
    0 < foldCP tbl low c ∧ foldCP tbl low c < 0x110000 := by
  unfold foldCP
  split
  · rename_i o ho
    obtain ⟨r, hr, _, e⟩ := known_mem ho
    have := ht r hr
    cases low <;> simp at e <;> omega
  · split
    · unfold cCase
      split <;> split <;> omega
    · exact ⟨h0, h⟩

theorem caseChar_enc {tbl : List (Nat × Nat)} (ht : TblOK tbl) (low : Bool) {c : Nat} (h : c < 0x110000) :
    caseChar .utf8 tbl low (enc c) = some (enc (foldCP tbl low c)) := by
  have hd := decode_enc h []
  rw [List.append_nil] at hd
  obtain ⟨b, rest, hb⟩ : ∃ b rest, enc c = b :: rest := by
    cases he : enc c with
    | nil => exact absurd he (enc_len c).2
    | cons b rest => exact ⟨b, rest, rfl⟩
  have hdef : (if rest = [] then some [cCase low b] else some (b :: rest)) =
      some (enc (if c < 128 then cCase low c else c)) := by
    rcases enc_cases c with ⟨h1, e⟩ | ⟨h1, h2, e⟩ | ⟨h1, h2, e⟩ | ⟨h1, e⟩
    · rw [hb] at e
      injection e with e1 e2
      subst e1 e2
      rw [if_pos rfl, if_pos h1]
      have hlt : cCase low b < 128 := by unfold cCase; split <;> split <;> omega
      rcases enc_cases (cCase low b) with ⟨_, e⟩ | ⟨_, _, e⟩ | ⟨_, _, e⟩ | ⟨_, e⟩ <;>
        first | omega | rw [e]
    · have hr : rest ≠ [] := by rw [hb] at e; injection e with _ e2; rw [e2]; simp
      rw [if_neg hr, if_neg (show ¬ c < 128 by omega), hb]
    · have hr : rest ≠ [] := by rw [hb] at e; injection e with _ e2; rw [e2]; simp
      rw [if_neg hr, if_neg (show ¬ c < 128 by omega), hb]
    · have hr : rest ≠ [] := by rw [hb] at e; injection e with _ e2; rw [e2]; simp
      rw [if_neg hr, if_neg (show ¬ c < 128 by omega), hb]
  rw [hb] at hd ⊢
  unfold caseChar
  simp only [hd]
  unfold foldCP
  cases hk : known low c tbl with
  | none => exact hdef
  | some o =>
    simp only
    obtain ⟨r, hr, _, e⟩ := known_mem hk
    have := ht r hr
    have ho : 0 < o ∧ o < 0x20000 := by cases low <;> simp at e <;> omega
    rw [if_pos ho.1, encode_some ho.2]

/-- Conversion of a UTF-8 text. -/
theorem caseText_utf8 {tbl : List (Nat × Nat)} (ht : TblOK tbl) (low : Bool) {cps p : List Nat} (hu : Utf8 cps p) (s : Nat)
    (hs : 8 ≤ s) : ∃ s', caseText .utf8 tbl low (some s) p = some (((cps.map (foldCP tbl low)).map enc).flatten, s') ∧ s ≤ s' := by
  obtain ⟨h1, h2⟩ := (utf8_iff cps p).1 hu
  subst h2
  obtain ⟨s', g1, g2⟩ := caseLoop_ok .utf8 tbl low (fun c => (caseChar .utf8 tbl low c).getD []) 4 (cps.map enc)
    (by intro c hc; obtain ⟨x, hx, e⟩ := List.mem_map.1 hc; subst e; exact enc_isChar (h1 x hx).1 (h1 x hx).2)
    (by intro c hc; obtain ⟨x, hx, e⟩ := List.mem_map.1 hc; subst e; rw [caseChar_enc ht low (h1 x hx).2]; rfl)
    (by intro c hc; obtain ⟨x, hx, e⟩ := List.mem_map.1 hc; subst e
        rw [caseChar_enc ht low (h1 x hx).2]
        exact (enc_len _).1)
    (cps.map enc).flatten.length s [] (Nat.le_refl _) (by simp; omega) (by omega)
  refine ⟨s', ?_, g2⟩
  unfold caseText
  simp only [g1, List.nil_append]
  congr 2
  rw [List.map_map, List.map_map]
  congr 1
  apply List.map_congr_left
  intro x hx
  simp only [Function.comp]
  rw [caseChar_enc ht low (h1 x hx).2]
  rfl

end Verif.Text
