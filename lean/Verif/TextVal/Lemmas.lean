import Verif.TextVal.Spec
/-!
# Lemmas on the validators
-/
set_option autoImplicit false
namespace Verif.TextVal

/-! ## Matching -/

/-- The texts a regular expression stands for. -/
inductive Lang : Re → List Char → Prop where
  | eps : Lang .eps []
  | cls {p : Char → Bool} {c : Char} : p c = true → Lang (.cls p) [c]
  | seq {a b : Re} {s t : List Char} : Lang a s → Lang b t → Lang (.seq a b) (s ++ t)
  | altL {a b : Re} {s : List Char} : Lang a s → Lang (.alt a b) s
  | altR {a b : Re} {s : List Char} : Lang b s → Lang (.alt a b) s
  | nil {a : Re} : Lang (.star a) []
  | cons {a : Re} {s t : List Char} : Lang a s → Lang (.star a) t → Lang (.star a) (s ++ t)

theorem lang_eps {s : List Char} : Lang .eps s ↔ s = [] :=
  ⟨fun h => by cases h; rfl, fun h => h ▸ .eps⟩

theorem lang_none {s : List Char} : Lang .none s ↔ False := ⟨fun h => (by cases h), False.elim⟩

theorem lang_cls {p : Char → Bool} {s : List Char} : Lang (.cls p) s ↔ ∃ c, s = [c] ∧ p c = true :=
  ⟨fun h => by cases h; exact ⟨_, rfl, by assumption⟩, fun ⟨_, e, h⟩ => e ▸ .cls h⟩

theorem lang_seq {a b : Re} {s : List Char} : Lang (.seq a b) s ↔ ∃ u v, s = u ++ v ∧ Lang a u ∧ Lang b v :=
  ⟨fun h => by cases h; exact ⟨_, _, rfl, by assumption, by assumption⟩, fun ⟨_, _, e, h1, h2⟩ => e ▸ .seq h1 h2⟩

theorem lang_alt {a b : Re} {s : List Char} : Lang (.alt a b) s ↔ Lang a s ∨ Lang b s :=
  ⟨fun h => by cases h; exact .inl (by assumption); exact .inr (by assumption), fun h => h.elim .altL .altR⟩

theorem nullable_iff (r : Re) : r.nullable = true ↔ Lang r [] := by
  induction r with
  | none => simp [Re.nullable, lang_none]
  | eps => simp [Re.nullable, lang_eps]
  | cls p => simp [Re.nullable, lang_cls]
  | seq a b iha ihb =>
    rw [Re.nullable, Bool.and_eq_true, iha, ihb, lang_seq]
    constructor
    · rintro ⟨h1, h2⟩; exact ⟨[], [], rfl, h1, h2⟩
    · rintro ⟨u, v, e, h1, h2⟩
      have := List.append_eq_nil_iff.1 e.symm
      rw [this.1] at h1
      rw [this.2] at h2
      exact ⟨h1, h2⟩
  | alt a b iha ihb => rw [Re.nullable, Bool.or_eq_true, iha, ihb, lang_alt]
  | star a _ => simp [Re.nullable, Lang.nil]

theorem star_cons {a : Re} {c : Char} {s : List Char} : Lang (.star a) (c :: s) → ∃ u v, s = u ++ v ∧ Lang a (c :: u) ∧ Lang (.star a) v := by
  generalize hr : Re.star a = r
  generalize hw : c :: s = w
  intro h
  induction h with
  | eps => cases hr
  | cls => cases hr
  | seq => cases hr
  | altL => cases hr
  | altR => cases hr
  | nil => cases hw
  | @cons b u v h1 h2 _ ih =>
    cases hr
    cases u with
    | nil => exact ih rfl hw
    | cons d u =>
      rw [List.cons_append] at hw
      cases hw
      exact ⟨u, v, rfl, h1, h2⟩

theorem deriv_iff (c : Char) (r : Re) (s : List Char) : Lang (r.deriv c) s ↔ Lang r (c :: s) := by
  induction r generalizing s with
  | none => simp [Re.deriv, lang_none]
  | eps => simp [Re.deriv, lang_none, lang_eps]
  | cls p =>
    rw [Re.deriv, lang_cls]
    split
    · rename_i h
      rw [lang_eps]
      constructor
      · rintro rfl; exact ⟨c, rfl, h⟩
      · rintro ⟨d, e, _⟩; simp at e; exact e.2
    · rename_i h
      rw [lang_none]
      constructor
      · exact False.elim
      · rintro ⟨d, e, hd⟩
        simp at e
        exact h (e.1 ▸ hd)
  | seq a b iha ihb =>
    have key : Lang (.seq a b) (c :: s) ↔ (∃ u v, s = u ++ v ∧ Lang a (c :: u) ∧ Lang b v) ∨ (Lang a [] ∧ Lang b (c :: s)) := by
      rw [lang_seq]
      constructor
      · rintro ⟨u, v, e, h1, h2⟩
        cases u with
        | nil => right; rw [List.nil_append] at e; rw [e]; exact ⟨h1, h2⟩
        | cons d u =>
          rw [List.cons_append] at e
          cases e
          exact .inl ⟨u, v, rfl, h1, h2⟩
      · rintro (⟨u, v, e, h1, h2⟩ | ⟨h1, h2⟩)
        · exact ⟨c :: u, v, by rw [e]; rfl, h1, h2⟩
        · exact ⟨[], c :: s, rfl, h1, h2⟩
    rw [key, Re.deriv]
    split
    · rename_i hn
      rw [nullable_iff] at hn
      rw [lang_alt, lang_seq, ihb]
      simp only [iha]
      exact ⟨fun h => h.imp id (fun h => ⟨hn, h⟩), fun h => h.imp id (fun h => h.2)⟩
    · rename_i hn
      rw [nullable_iff] at hn
      rw [lang_seq]
      simp only [iha]
      exact ⟨.inl, fun h => h.elim id (fun h => absurd h.1 hn)⟩
  | alt a b iha ihb => rw [Re.deriv, lang_alt, lang_alt, iha, ihb]
  | star a iha =>
    rw [Re.deriv, lang_seq]
    simp only [iha]
    constructor
    · rintro ⟨u, v, e, h1, h2⟩
      rw [e]
      exact Lang.cons (s := c :: u) h1 h2
    · exact star_cons

theorem run_iff (r : Re) (s : List Char) : run r s = true ↔ Lang r s := by
  induction s generalizing r with
  | nil => exact nullable_iff r
  | cons c s ih => rw [run, ih, deriv_iff]

/-! ## Languages of the building blocks -/

theorem lang_star_cls {p : Char → Bool} {s : List Char} : Lang (.star (.cls p)) s ↔ ∀ c ∈ s, p c = true := by
  constructor
  · intro h
    induction s with
    | nil => simp
    | cons c s ih =>
      obtain ⟨u, v, e, h1, h2⟩ := star_cons h
      obtain ⟨d, e', hd⟩ := lang_cls.1 h1
      simp at e'
      obtain ⟨rfl, rfl⟩ := e'
      rw [List.nil_append] at e
      rw [← e] at h2
      intro x hx
      rcases List.mem_cons.1 hx with rfl | hx
      · exact hd
      · exact ih h2 x hx
  · intro h
    induction s with
    | nil => exact .nil
    | cons c s ih => exact Lang.cons (s := [c]) (.cls (h c (by simp))) (ih (fun x hx => h x (by simp [hx])))

theorem lang_plus_cls {p : Char → Bool} {s : List Char} : Lang (Re.plus (.cls p)) s ↔ Some p s := by
  unfold Re.plus Some
  rw [lang_seq]
  constructor
  · rintro ⟨u, v, rfl, h1, h2⟩
    obtain ⟨c, rfl, hc⟩ := lang_cls.1 h1
    rw [lang_star_cls] at h2
    exact ⟨by simp, fun x hx => by
      rcases List.mem_cons.1 hx with rfl | hx
      · exact hc
      · exact h2 x hx⟩
  · rintro ⟨h1, h2⟩
    cases s with
    | nil => exact absurd rfl h1
    | cons c s => exact ⟨[c], s, rfl, .cls (h2 c (by simp)), lang_star_cls.2 (fun x hx => h2 x (by simp [hx]))⟩

theorem lang_any {s : List Char} : Lang any s := lang_star_cls.2 (fun _ _ => rfl)

theorem lang_opt {r : Re} {s : List Char} : Lang r.opt s ↔ s = [] ∨ Lang r s := by
  unfold Re.opt
  rw [lang_alt, lang_eps]

theorem lang_txt {x : String} {s : List Char} : Lang (txt x) s ↔ s = x.toList := by
  unfold txt
  generalize x.toList = l
  induction l generalizing s with
  | nil => exact lang_eps
  | cons c l ih =>
    rw [List.foldr_cons, lang_seq]
    constructor
    · rintro ⟨u, v, rfl, h1, h2⟩
      obtain ⟨d, rfl, hd⟩ := lang_cls.1 h1
      rw [ih.1 h2, eq_of_beq hd]
      rfl
    · rintro rfl
      exact ⟨[c], l, rfl, .cls (by simp), ih.2 rfl⟩

theorem lang_chr {x : Char} {s : List Char} : Lang (chr x) s ↔ s = [x] := by
  unfold chr
  rw [lang_cls]
  constructor
  · rintro ⟨c, rfl, h⟩; rw [eq_of_beq h]
  · rintro rfl; exact ⟨x, rfl, by simp⟩

theorem lang_lit {x : String} {s : List Char} : Lang (lit x) s ↔ s.map Char.toLower = x.toList := by
  unfold lit
  generalize x.toList = l
  induction l generalizing s with
  | nil => rw [List.foldr_nil, lang_eps]; simp
  | cons c l ih =>
    rw [List.foldr_cons, lang_seq]
    constructor
    · rintro ⟨u, v, rfl, h1, h2⟩
      obtain ⟨d, rfl, hd⟩ := lang_cls.1 h1
      rw [List.map_append, ih.1 h2, List.map_singleton, eq_of_beq hd]
      rfl
    · intro h
      cases s with
      | nil => cases h
      | cons d s =>
        rw [List.map_cons] at h
        injection h with h1 h2
        exact ⟨[d], s, rfl, .cls (by simp [h1]), ih.2 h2⟩

/-! ## Cases -/

theorem alpha_lower (c : Char) : c.isAlpha = c.toLower.isLower := by
  rw [Bool.eq_iff_iff]
  unfold Char.isAlpha Char.isUpper Char.isLower Char.toLower
  simp only [Bool.or_eq_true, decide_eq_true_eq, Bool.and_eq_true, ge_iff_le, UInt32.le_iff_toNat_le]
  split
  · rename_i h
    rw [UInt32.toNat_add]
    simp at h ⊢
    omega
  · rename_i h
    simp at h ⊢
    omega

/-- All classes of an expression disregard case. -/
def CaseFree : Re → Prop
  | .none => True
  | .eps => True
  | .cls p => ∀ a b : Char, a.toLower = b.toLower → p a = p b
  | .seq a b => CaseFree a ∧ CaseFree b
  | .alt a b => CaseFree a ∧ CaseFree b
  | .star a => CaseFree a

theorem deriv_case {c d : Char} (h : c.toLower = d.toLower) (r : Re) (hr : CaseFree r) : r.deriv c = r.deriv d ∧ CaseFree (r.deriv c) := by
  induction r with
  | none => exact ⟨rfl, trivial⟩
  | eps => exact ⟨rfl, trivial⟩
  | cls p =>
    simp only [Re.deriv, hr c d h, true_and]
    split <;> trivial
  | seq a b iha ihb =>
    obtain ⟨h1, h2⟩ := hr
    simp only [Re.deriv, (iha h1).1, (ihb h2).1, true_and]
    have e1 := (iha h1).2
    have e2 := (ihb h2).2
    rw [(iha h1).1] at e1
    rw [(ihb h2).1] at e2
    split
    · exact ⟨⟨e1, h2⟩, e2⟩
    · exact ⟨e1, h2⟩
  | alt a b iha ihb =>
    obtain ⟨h1, h2⟩ := hr
    exact ⟨by simp only [Re.deriv, (iha h1).1, (ihb h2).1], (iha h1).2, (ihb h2).2⟩
  | star a iha => exact ⟨by simp only [Re.deriv, (iha hr).1], (iha hr).2, hr⟩

theorem run_case (s t : List Char) (h : s.map Char.toLower = t.map Char.toLower) (r : Re) (hr : CaseFree r) : run r s = run r t := by
  induction s generalizing t r with
  | nil =>
    cases t with
    | nil => rfl
    | cons d t => cases h
  | cons c s ih =>
    cases t with
    | nil => cases h
    | cons d t =>
      rw [List.map_cons, List.map_cons] at h
      injection h with h1 h2
      have := deriv_case h1 r hr
      rw [run, run, ← this.1]
      exact ih t h2 _ this.2

theorem lit_case (x : String) : CaseFree (lit x) := by
  unfold lit
  generalize x.toList = l
  induction l with
  | nil => trivial
  | cons c l ih => exact ⟨fun a b h => by dsimp only; rw [h], ih⟩

theorem space_lower (c : Char) : space c.toLower = space c := by
  unfold Char.toLower
  split
  · rename_i h
    rw [Bool.eq_iff_iff]
    simp only [space, Bool.or_eq_true, beq_iff_eq, Char.ext_iff, ← UInt32.toNat_inj]
    simp only [ge_iff_le, UInt32.le_iff_toNat_le] at h
    rw [UInt32.toNat_add]
    simp at h ⊢
    omega
  · rfl

/-- All characters an expression can match are of a kind. -/
def Over (p : Char → Prop) : Re → Prop
  | .none => True
  | .eps => True
  | .cls q => ∀ c, q c = true → p c
  | .seq a b => Over p a ∧ Over p b
  | .alt a b => Over p a ∧ Over p b
  | .star a => Over p a

theorem over_lang {p : Char → Prop} {r : Re} {s : List Char} (h : Lang r s) (hr : Over p r) : ∀ c ∈ s, p c := by
  induction h with
  | eps => simp
  | cls h => intro c hc; rw [List.mem_singleton.1 hc]; exact hr _ h
  | seq _ _ ih1 ih2 =>
    intro c hc
    rcases List.mem_append.1 hc with hc | hc
    · exact ih1 hr.1 c hc
    · exact ih2 hr.2 c hc
  | altL _ ih => exact ih hr.1
  | altR _ ih => exact ih hr.2
  | nil => simp
  | cons _ _ ih1 ih2 =>
    intro c hc
    rcases List.mem_append.1 hc with hc | hc
    · exact ih1 hr c hc
    · exact ih2 hr c hc

theorem over_lit {p : Char → Prop} {x : String} (h : ∀ y ∈ x.toList, ∀ c : Char, c.toLower = y → p c) : Over p (lit x) := by
  unfold lit
  generalize x.toList = l at h
  induction l with
  | nil => trivial
  | cons a l ih => exact ⟨fun c hc => h a (by simp) c (eq_of_beq hc), ih (fun y hy => h y (by simp [hy]))⟩

/-- Every text of an expression has a character that is the given one in small letters. -/
def Has (d : Char) (r : Re) : Prop := ∀ s, Lang r s → ∃ c ∈ s, c.toLower = d

theorem has_left {d : Char} {a b : Re} (h : Has d a) : Has d (.seq a b) := by
  intro s hs
  obtain ⟨u, v, rfl, h1, _⟩ := lang_seq.1 hs
  obtain ⟨c, hc, e⟩ := h u h1
  exact ⟨c, by simp [hc], e⟩

theorem has_right {d : Char} {a b : Re} (h : Has d b) : Has d (.seq a b) := by
  intro s hs
  obtain ⟨u, v, rfl, _, h1⟩ := lang_seq.1 hs
  obtain ⟨c, hc, e⟩ := h v h1
  exact ⟨c, by simp [hc], e⟩

theorem has_lit {d : Char} {x : String} (h : d ∈ x.toList) : Has d (lit x) := by
  intro s hs
  rw [← lang_lit.1 hs] at h
  obtain ⟨c, hc, e⟩ := List.mem_map.1 h
  exact ⟨c, hc, e⟩

/-- A character that is not a letter is its own small letter, and that of no other. -/
theorem lower_eq {c d : Char} (hd : d.isLower = false) (h : c.toLower = d) : c = d := by
  by_cases hc : c.isAlpha = true
  · rw [alpha_lower, h, hd] at hc
    cases hc
  · have : ¬ (c.val ≥ 'A'.val ∧ c.val ≤ 'Z'.val) := by
      intro h'
      apply hc
      simp only [Char.isAlpha, Char.isUpper, h', and_self, decide_true, Bool.true_or]
    rw [← h, Char.toLower, dif_neg this]

theorem lower_alpha {c : Char} {d : Char} (hd : d.isLower = true) (h : c.toLower = d) : c.isAlpha = true := by
  rw [alpha_lower, h, hd]

/-! ## Splitting -/

theorem white_eq : white = space := by
  funext c
  rw [Bool.eq_iff_iff]
  simp [white, space, or_assoc]

theorem words_word (w s cur : List Char) (hw : ∀ c ∈ w, (!space c) = true) : words cur (w ++ s) = words (w.reverse ++ cur) s := by
  induction w generalizing cur with
  | nil => rfl
  | cons c w ih =>
    have hc : space c = false := by simpa using hw c (by simp)
    rw [List.cons_append, words, hc]
    simp only [Bool.false_eq_true, if_false]
    rw [ih _ (fun x hx => hw x (by simp [hx]))]
    simp

theorem words_space (g s : List Char) (hg : ∀ c ∈ g, space c = true) : words [] (g ++ s) = words [] s := by
  induction g with
  | nil => rfl
  | cons c g ih =>
    rw [List.cons_append, words, hg c (by simp)]
    simp only [if_true]
    exact ih (fun x hx => hg x (by simp [hx]))

theorem words_last (w t : List Char) (hw : Some (fun c => !space c) w) (ht : ∀ c ∈ t, space c = true) : words [] (w ++ t) = [w] := by
  have hne : w.reverse ≠ [] := by simpa using hw.1
  rw [words_word w t [] hw.2, List.append_nil]
  cases t with
  | nil => rw [words, if_neg hne, List.reverse_reverse]
  | cons c t =>
    rw [words, ht c (by simp)]
    simp only [if_true, if_neg hne, List.reverse_reverse]
    have := words_space t [] (fun x hx => ht x (by simp [hx]))
    rw [List.append_nil] at this
    rw [this]
    rfl

theorem words_cons (w g l : List Char) (hw : Some (fun c => !space c) w) (hg : Some space g) : words [] (w ++ g ++ l) = w :: words [] l := by
  have hne : w.reverse ≠ [] := by simpa using hw.1
  rw [List.append_assoc, words_word w _ [] hw.2, List.append_nil]
  cases g with
  | nil => exact absurd rfl hg.1
  | cons c g =>
    rw [List.cons_append, words, hg.2 c (by simp)]
    simp only [if_true, if_neg hne, List.reverse_reverse]
    rw [words_space g l (fun x hx => hg.2 x (by simp [hx]))]

theorem layout_words {fs : List (List Char)} {line : List Char} (h : Layout fs line) :
    words [] line = fs ∧ ∃ c l, line = c :: l ∧ space c = false := by
  have hd : ∀ (w t : List Char), Some (fun c => !space c) w → ∃ c l, w ++ t = c :: l ∧ space c = false := by
    intro w t hw
    cases w with
    | nil => exact absurd rfl hw.1
    | cons c w => exact ⟨c, w ++ t, rfl, by simpa using hw.2 c (by simp)⟩
  induction h with
  | last w t hw ht =>
    rw [white_eq] at hw ht
    exact ⟨words_last w t hw ht, hd w t hw⟩
  | cons w g fs l hw hg _ ih =>
    rw [white_eq] at hw hg
    refine ⟨by rw [words_cons w g l hw hg, ih.1], ?_⟩
    rw [List.append_assoc]
    exact hd w _ hw

theorem words_layout : ∀ (n : Nat) (line : List Char), line.length ≤ n → (∃ c l, line = c :: l ∧ space c = false) → Layout (words [] line) line := by
  intro n
  induction n with
  | zero => rintro line h ⟨c, l, rfl, _⟩; simp at h
  | succ n ih =>
    rintro line h ⟨c, l, e, hc⟩
    have hsplit := List.takeWhile_append_dropWhile (p := fun c => !space c) (l := line)
    have hw : Some (fun c => !space c) (line.takeWhile (fun c => !space c)) := by
      refine ⟨by rw [e]; simp [hc], fun x hx => ?_⟩
      have := List.all_takeWhile (p := fun c => !space c) (l := line)
      exact List.all_eq_true.1 this x hx
    generalize hW : line.takeWhile (fun c => !space c) = w at hsplit hw
    generalize hR : line.dropWhile (fun c => !space c) = r at hsplit
    have hsplit2 := List.takeWhile_append_dropWhile (p := space) (l := r)
    have hg : ∀ x ∈ r.takeWhile space, space x = true := fun x hx => List.all_eq_true.1 (List.all_takeWhile (p := space) (l := r)) x hx
    cases hl : r.dropWhile space with
    | nil =>
      rw [hl, List.append_nil] at hsplit2
      rw [hsplit2] at hg
      rw [← hsplit, words_last w r hw hg]
      exact .last w r (white_eq ▸ hw) (white_eq ▸ hg)
    | cons d l' =>
      have hd : space d = false := by
        have := List.head?_dropWhile_not space r
        rw [hl] at this
        simpa using this
      have hgne : r.takeWhile space ≠ [] := by
        cases hr : r with
        | nil => rw [hr] at hl; simp at hl
        | cons x r' =>
          have := List.head?_dropWhile_not (fun c => !space c) line
          rw [hR, hr] at this
          have hx : space x = true := by simpa using this
          simp [hx]
      have hlen : (d :: l').length ≤ n := by
        have h1 := congrArg List.length hsplit
        have h2 := congrArg List.length hsplit2
        rw [hl] at h2
        have h3 := List.length_pos_iff.2 hw.1
        simp only [List.length_append] at h1 h2
        omega
      have := ih (d :: l') hlen ⟨d, l', rfl, hd⟩
      rw [hl] at hsplit2
      rw [← hsplit, ← hsplit2, ← List.append_assoc, words_cons w _ _ hw ⟨hgne, hg⟩]
      exact .cons w _ _ _ (white_eq ▸ hw) (by rw [white_eq]; exact ⟨hgne, hg⟩) this

/-- Splitting, for a line that does not begin with white space. -/
theorem layout_iff (fs : List (List Char)) (line : List Char) : Layout fs line ↔ split line = fs ∧ ∃ c l, line = c :: l ∧ space c = false := by
  constructor
  · intro h
    obtain ⟨h1, c, l, rfl, hc⟩ := layout_words h
    refine ⟨?_, c, l, rfl, hc⟩
    simp only [split, hc, Bool.false_and, Bool.false_eq_true, if_false]
    exact h1
  · rintro ⟨h1, c, l, rfl, hc⟩
    simp only [split, hc, Bool.false_and, Bool.false_eq_true, if_false] at h1
    rw [← h1]
    exact words_layout _ _ (Nat.le_refl _) ⟨c, l, rfl, hc⟩

theorem split_space {c : Char} {l : List Char} (hc : space c = true) : split (c :: l) = [] ∨ ∃ ws, split (c :: l) = [] :: ws := by
  simp only [split, hc, Bool.true_and]
  cases h : words [] (c :: l) with
  | nil => left; rfl
  | cons w ws => right; exact ⟨w :: ws, rfl⟩

end Verif.TextVal
