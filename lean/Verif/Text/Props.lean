import Verif.Text.Case
/-!
# Properties of sclite's texts
-/
set_option autoImplicit false
namespace Verif.Text

/-! ### C40: text comparison -/

/-- C40: complete texts can be compared. -/
theorem strcmp_defined (e : Enc) (p q : List Nat) (hp : Valid e p) (hq : Valid e q) : ∃ r, strcmp e p q = some r := by
  obtain ⟨cs, rfl, hc⟩ := hp
  obtain ⟨ds, rfl, hd⟩ := hq
  exact ⟨_, strcmp_key e cs ds hc hd⟩

/-- C40: two texts compare as equal exactly if they are the same. -/
theorem strcmp_zero_iff (e : Enc) (p q : List Nat) (hp : Valid e p) (hq : Valid e q) : strcmp e p q = some 0 ↔ p = q := by
  obtain ⟨cs, rfl, hc⟩ := hp
  obtain ⟨ds, rfl, hd⟩ := hq
  rw [strcmp_key e cs ds hc hd]
  simp only [Option.some.injEq, lexN_zero]
  exact ⟨fun h => by rw [key_inj h], fun h => by rw [chars_unique hc hd h]⟩

/-- C40: exchanging the texts negates the result. -/
theorem strcmp_antisymm (e : Enc) (p q : List Nat) (hp : Valid e p) (hq : Valid e q) (r : Int)
    (h : strcmp e p q = some r) : strcmp e q p = some (-r) := by
  obtain ⟨cs, rfl, hc⟩ := hp
  obtain ⟨ds, rfl, hd⟩ := hq
  rw [strcmp_key e cs ds hc hd] at h
  rw [strcmp_key e ds cs hd hc, lexN_antisymm]
  injection h with h
  rw [h]

/-- C40: the comparison is transitive. -/
theorem strcmp_trans (e : Enc) (p q t : List Nat) (hp : Valid e p) (hq : Valid e q) (ht : Valid e t) (r s : Int)
    (h1 : strcmp e p q = some r) (h2 : strcmp e q t = some s) (hr : r ≤ 0) (hs : s ≤ 0) :
    ∃ v, strcmp e p t = some v ∧ v ≤ 0 := by
  obtain ⟨cs, rfl, hc⟩ := hp
  obtain ⟨ds, rfl, hd⟩ := hq
  obtain ⟨es, rfl, he⟩ := ht
  rw [strcmp_key e cs ds hc hd] at h1
  rw [strcmp_key e ds es hd he] at h2
  refine ⟨_, strcmp_key e cs es hc he, ?_⟩
  injection h1 with h1
  injection h2 with h2
  exact lexN_trans (key cs) (key ds) (key es) (by omega) (by omega)

theorem bsearch_ok (e : Enc) (key : List Nat) (elems : List (List Nat)) (hk : Valid e key)
    (hv : ∀ x ∈ elems, Valid e x) (hs : SortedBy e elems) (fuel l u : Nat) (hf : u - l ≤ fuel) (hu : u ≤ elems.length)
    (hlo : ∀ i x, i < l → elems[i]? = some x → x ≠ key) (hhi : ∀ i x, u ≤ i → elems[i]? = some x → x ≠ key) :
    ∃ r, bsearch e key elems fuel l u = some r ∧ (∀ i, r = some i → elems[i]? = some key) ∧ (r = none → key ∉ elems) := by
  have hnone : u ≤ l → key ∉ elems := by
    intro hul hm
    obtain ⟨i, hi, hx⟩ := List.mem_iff_getElem.1 hm
    have : elems[i]? = some key := by rw [List.getElem?_eq_getElem hi, hx]
    by_cases h : i < l
    · exact hlo i key h this rfl
    · exact hhi i key (by omega) this rfl
  induction fuel generalizing l u with
  | zero =>
    refine ⟨none, ?_, nofun, fun _ => hnone (by omega)⟩
    unfold bsearch
    rw [if_neg (by omega)]
  | succ fuel ih =>
    by_cases hlu : l < u
    · have hi : (l + u) / 2 < elems.length := by omega
      have hx : elems[(l + u) / 2]? = some elems[(l + u) / 2] := List.getElem?_eq_getElem hi
      generalize hxe : elems[(l + u) / 2] = x at hx
      have hxv : Valid e x := hv x (hxe ▸ List.getElem_mem hi)
      obtain ⟨r, hr⟩ := strcmp_defined e key x hk hxv
      have hr' := strcmp_antisymm e key x hk hxv r hr
      unfold bsearch
      simp only [if_pos hlu, hx, hr]
      by_cases h1 : r < 0
      · rw [if_pos h1]
        refine ih l ((l + u) / 2) (by omega) (by omega) hlo ?_ ?_
        · intro i y hi' hy hyk
          subst hyk
          by_cases he : i = (l + u) / 2
          · subst he
            rw [hx] at hy
            injection hy with hy
            subst hy
            rw [(strcmp_zero_iff e x x hxv hxv).2 rfl] at hr
            injection hr with hr
            omega
          · obtain ⟨v, hv1, hv2⟩ := hs _ _ _ _ (show (l + u) / 2 < i by omega) hx hy
            rw [hr'] at hv1
            injection hv1 with hv1
            omega
        · intro hul hm
          obtain ⟨i, hi', hx'⟩ := List.mem_iff_getElem.1 hm
          have hy : elems[i]? = some key := by rw [List.getElem?_eq_getElem hi', hx']
          by_cases h : i < l
          · exact hlo i key h hy rfl
          · by_cases he : i = (l + u) / 2
            · subst he
              rw [hx] at hy
              injection hy with hy
              subst hy
              rw [(strcmp_zero_iff e x x hxv hxv).2 rfl] at hr
              injection hr with hr
              omega
            · obtain ⟨v, hv1, hv2⟩ := hs _ _ _ _ (show (l + u) / 2 < i by omega) hx hy
              rw [hr'] at hv1
              injection hv1 with hv1
              omega
      · rw [if_neg h1]
        by_cases h2 : r > 0
        · rw [if_pos h2]
          have hlo' : ∀ i x, i < (l + u) / 2 + 1 → elems[i]? = some x → x ≠ key := by
            intro i y hi' hy hyk
            subst hyk
            by_cases he : i = (l + u) / 2
            · subst he
              rw [hx] at hy
              injection hy with hy
              subst hy
              rw [(strcmp_zero_iff e x x hxv hxv).2 rfl] at hr
              injection hr with hr
              omega
            · obtain ⟨v, hv1, hv2⟩ := hs _ _ _ _ (show i < (l + u) / 2 by omega) hy hx
              rw [hr] at hv1
              injection hv1 with hv1
              omega
          refine ih ((l + u) / 2 + 1) u (by omega) (by omega) hlo' hhi ?_
          intro hul hm
          obtain ⟨i, hi', hx'⟩ := List.mem_iff_getElem.1 hm
          have hy : elems[i]? = some key := by rw [List.getElem?_eq_getElem hi', hx']
          by_cases h : i < (l + u) / 2 + 1
          · exact hlo' i key h hy rfl
          · exact hhi i key (by omega) hy rfl
        · rw [if_neg h2]
          have : r = 0 := by omega
          subst this
          refine ⟨_, rfl, ?_, nofun⟩
          intro i hi'
          injection hi' with hi'
          subst hi'
          rw [hx, (strcmp_zero_iff e key x hk hxv).1 hr]
    · unfold bsearch
      rw [if_neg hlu]
      exact ⟨none, rfl, nofun, fun _ => hnone (by omega)⟩

/-- C40: looking up a word in a sorted word list finds it exactly if it is there. -/
theorem lookup_finds_exactly (e : Enc) (key : List Nat) (elems : List (List Nat)) (hk : Valid e key)
    (hv : ∀ x ∈ elems, Valid e x) (hs : SortedBy e elems) :
    ∃ r, inTextList e elems key = some r ∧ (∀ i, r = some i → elems[i]? = some key) ∧ (r = none → key ∉ elems) :=
  bsearch_ok e key elems hk hv hs _ _ _ (by omega) (Nat.le_refl _) (fun i x h => by omega) (fun i x h1 h2 => by
    rw [List.getElem?_eq_none h1] at h2; cases h2)

example : Valid .utf8 [0xC3, 0xA9, 97] ∧ Valid .utf8 [0xC3, 0xA9] := by
  refine ⟨⟨[[0xC3, 0xA9], [97]], rfl, ?_⟩, ⟨[[0xC3, 0xA9]], rfl, ?_⟩⟩
  all_goals
    intro c hc
    simp at hc
  · rcases hc with rfl | rfl
    · exact ⟨_, _, rfl, by decide, by simp⟩
    · exact ⟨_, _, rfl, by decide, by simp⟩
  · subst hc
    exact ⟨_, _, rfl, by decide, by simp⟩

example : strcmp .utf8 [0xC3, 0xA9, 97] [0xC3, 0xA9] = some 1 ∧ strcmp .utf8 [97, 98] [0xC3, 0xA9] = some (-1) := by decide

example : SortedBy .ascii [[97], [97, 98], [99]] ∧ inTextList .ascii [[97], [97, 98], [99]] [97, 98] = some (some 1) := by
  refine ⟨?_, by decide⟩
  intro i j x y hij hx hy
  have hj : j < 3 := by
    rw [List.getElem?_eq_some_iff] at hy
    obtain ⟨h, _⟩ := hy
    exact h
  have hcase : (i = 0 ∧ j = 1) ∨ (i = 0 ∧ j = 2) ∨ (i = 1 ∧ j = 2) := by omega
  rcases hcase with ⟨rfl, rfl⟩ | ⟨rfl, rfl⟩ | ⟨rfl, rfl⟩ <;> simp at hx hy <;> subst hx hy <;> exact ⟨-1, by decide, by decide⟩

/-! ### C41: UTF-8 -/

/-- C41 (part): every code point below 0x20000 is encoded in correct UTF-8 and decoded again.  Missing: the code points from
0x20000 on, which the encoder rejects (see `encoder_rejects`). -/
theorem utf8_round_trip_partial (c : Nat) (h : c < 0x20000) :
    ∃ bs, encode c = some bs ∧ decode bs = some c ∧ (0 < c → Utf8 [c] bs) := by
  refine ⟨enc c, encode_some h, by simpa using decode_enc (show c < 0x110000 by omega) [], ?_⟩
  intro h0
  exact (utf8_iff _ _).2 ⟨by intro d hd; simp at hd; omega, by simp⟩

/-- C41 is false from 0x20000 on: these code points (CJK extension B and more) are rejected. -/
theorem encoder_rejects (c : Nat) (h : 0x20000 ≤ c) : encode c = none := by
  unfold encode
  rw [if_neg (by omega), if_neg (by omega), if_neg (by omega), if_neg (by omega)]

/-- C41: decoding is right for every well-formed UTF-8 text (code points up to 0x10FFFF): it gives the first code point, whatever follows. -/
theorem decode_first (c : Nat) (cps bs : List Nat) (h : Utf8 (c :: cps) bs) : decode bs = some c := by
  obtain ⟨h1, h2⟩ := (utf8_iff _ _).1 h
  subst h2
  simp only [List.map_cons, List.flatten_cons]
  exact decode_enc (h1 c List.mem_cons_self).2 _

example : Utf8 [0x20AC, 0x1F600] [0xE2, 0x82, 0xAC, 0xF0, 0x9F, 0x98, 0x80] :=
  .three (x := 2) (y := 2) (z := 0x2C) (by decide) (by decide) (by decide) (by decide) (by decide)
    (.four (w := 0) (x := 0x1F) (y := 0x18) (z := 0) (by decide) (by decide) (by decide) (by decide) (by decide) (by decide) .nil)

/-! ### C60: the conversion buffer -/

/-- Facts about the letter tables checked row by row. -/
theorem table_ok (prof : Profile) : TblOK prof.table := by
  show ∀ r ∈ prof.table, _
  cases prof <;> decide +kernel

/-- C60 (part): converting a UTF-8 text never writes outside the static buffer once the buffer has at least 8 bytes, and
the buffer never shrinks.  Missing: smaller buffers, for which the property is false (`case_buffer_overrun`). -/
theorem case_buffer_safe_partial (prof : Profile) (low : Bool) (cps p : List Nat) (hu : Utf8 cps p) (s : Nat) (hs : 8 ≤ s) :
    ∃ p' s', caseText .utf8 prof.table low (some s) p = some (p', s') ∧ s ≤ s' := by
  obtain ⟨s', h1, h2⟩ := caseText_utf8 (table_ok prof) low hu s hs
  exact ⟨_, s', h1, h2⟩

/-- C60: in the other encodings converting is safe whatever was converted before. -/
theorem case_buffer_safe_bytes (e : Enc) (he : e ≠ .utf8) (tbl : List (Nat × Nat)) (low : Bool) (p : List Nat)
    (hv : Valid e p) (size : Option Nat) (hs : ∀ s, size = some s → 5 ≤ s) :
    ∃ p' s', caseText e tbl low size p = some (p', s') ∧ 5 ≤ s' := by
  obtain ⟨cs, rfl, hc⟩ := hv
  have hone : ∀ c ∈ cs, ∃ o, caseChar e tbl low c = some o ∧ o.length ≤ 2 := by
    intro c hcc
    obtain ⟨b, rest, hb, hn, _⟩ := hc c hcc
    cases e with
    | utf8 => exact absurd rfl he
    | ascii =>
      simp only [nbytes, Option.some.injEq] at hn
      have : rest = [] := by subst hb; simpa using hn.symm
      subst hb this
      exact ⟨_, rfl, by simp⟩
    | extAscii =>
      simp only [nbytes, Option.some.injEq] at hn
      have : rest = [] := by subst hb; simpa using hn.symm
      subst hb this
      unfold caseChar
      simp only
      split
      · split <;> exact ⟨_, rfl, by simp⟩
      · exact ⟨_, rfl, by simp⟩
    | gb =>
      have hl : c.length ≤ 2 := by
        unfold nbytes at hn
        simp only at hn
        split at hn <;> injection hn with hn <;> omega
      subst hb
      unfold caseChar
      simp only
      split
      · exact ⟨_, rfl, by simp⟩
      · exact ⟨_, rfl, hl⟩
  have hinit : ∃ s, (match size with
    | some s => some s
    | none => (chrlen e cs.flatten.length cs.flatten).map fun n => if n + 1 < 5 then 5 else n + 1) = some s ∧ 5 ≤ s := by
    cases size with
    | some s => exact ⟨s, rfl, hs s rfl⟩
    | none =>
      simp only
      rw [chrlen_ok e cs hc _ (Nat.le_refl _)]
      simp only [Option.map_some]
      refine ⟨_, rfl, ?_⟩
      split <;> omega
  obtain ⟨s, h1, h2⟩ := hinit
  obtain ⟨s', g1, g2⟩ := caseLoop_ok e tbl low (fun c => (caseChar e tbl low c).getD []) 2 cs hc
    (by intro c hcc; obtain ⟨o, ho, _⟩ := hone c hcc; rw [ho]; rfl)
    (by intro c hcc; obtain ⟨o, ho, hl⟩ := hone c hcc; rw [ho]; exact hl)
    cs.flatten.length s [] (Nat.le_refl _) (by simp; omega) (by omega)
  have : caseText e tbl low size cs.flatten = caseLoop e tbl low cs.flatten.length s [] cs.flatten := by
    unfold caseText
    cases size with
    | some s0 => simp only at h1 ⊢; injection h1 with h1; rw [h1]
    | none => simp only at h1 ⊢; rw [h1]
  rw [this]
  exact ⟨_, s', g1, by omega⟩

/-- C60 is false in UTF-8: after a first text of five characters ("utf-8" in `-e utf-8`) the buffer has 6 bytes, and
converting five ASCII letters and one four-byte character then writes past its end; with 8 bytes the same text is converted.
Likewise two four-byte characters as the first text of all, and "abcd€" after a first text of at most four characters. -/
theorem case_buffer_overrun :
    caseText .utf8 [] true none [117, 116, 102, 45, 56] = some ([117, 116, 102, 45, 56], 6) ∧
    caseText .utf8 [] true (some 6) [97, 98, 99, 100, 101, 0xF0, 0x9F, 0x98, 0x80] = none ∧
    caseText .utf8 [] true (some 8) [97, 98, 99, 100, 101, 0xF0, 0x9F, 0x98, 0x80]
      = some ([97, 98, 99, 100, 101, 0xF0, 0x9F, 0x98, 0x80], 12) ∧
    caseText .utf8 [] true none [0xF0, 0x9F, 0x98, 0x80, 0xF0, 0x9F, 0x98, 0x80] = none ∧
    caseText .utf8 [] true (some 5) [97, 98, 99, 100, 0xE2, 0x82, 0xAC] = none := by decide

/-! ### C61: case folding -/

theorem table_rows (prof : Profile) : ∀ r ∈ prof.table, foldCP prof.table true r.2 = r.2 ∧ foldCP prof.table false r.1 = r.1 ∧
    foldCP prof.table true r.1 = r.2 ∧ foldCP prof.table false r.2 = r.1 := by
  cases prof <;> decide +kernel

theorem table_ascii (prof : Profile) : ∀ c < 128, foldCP prof.table true (foldCP prof.table true c) = foldCP prof.table true c ∧
    foldCP prof.table false (foldCP prof.table false c) = foldCP prof.table false c ∧
    foldCP prof.table true (foldCP prof.table false c) = foldCP prof.table true c ∧
    foldCP prof.table false (foldCP prof.table true c) = foldCP prof.table false c := by
  cases prof <;> decide +kernel

theorem fold_cases (tbl : List (Nat × Nat)) (low : Bool) (c : Nat) :
    (∃ r ∈ tbl, (if low then r.1 else r.2) = c ∧ foldCP tbl low c = (if low then r.2 else r.1)) ∨ c < 128 ∨ foldCP tbl low c = c := by
  unfold foldCP
  cases h : known low c tbl with
  | some o =>
    obtain ⟨r, h1, h2, h3⟩ := known_mem h
    exact .inl ⟨r, h1, h2, h3⟩
  | none =>
    simp only
    by_cases hc : c < 128
    · exact .inr (.inl hc)
    · rw [if_neg hc]
      exact .inr (.inr rfl)

/-- C61: for every language profile, lower case of a lower-cased code point is that code point, lower case does not depend
on a previous change to upper case, and likewise the other way round. -/
theorem fold_laws (prof : Profile) (low : Bool) (c : Nat) :
    foldCP prof.table low (foldCP prof.table low c) = foldCP prof.table low c ∧
    foldCP prof.table low (foldCP prof.table (!low) c) = foldCP prof.table low c := by
  constructor
  · rcases fold_cases prof.table low c with ⟨r, hr, h1, h2⟩ | h | h
    · obtain ⟨r1, r2, r3, r4⟩ := table_rows prof r hr
      rw [h2]
      cases low <;> assumption
    · obtain ⟨r1, r2, r3, r4⟩ := table_ascii prof c h
      cases low <;> assumption
    · rw [h, h]
  · rcases fold_cases prof.table (!low) c with ⟨r, hr, h1, h2⟩ | h | h
    · obtain ⟨r1, r2, r3, r4⟩ := table_rows prof r hr
      rw [h2]
      cases low
      · simp only [Bool.not_false, if_true] at h1 ⊢
        rw [r4, ← h1, r2]
      · simp only [Bool.not_true] at h1 ⊢
        simp at h1 ⊢
        rw [r3, ← h1, r1]
    · obtain ⟨r1, r2, r3, r4⟩ := table_ascii prof c h
      cases low <;> assumption
    · rw [h]

theorem utf8_folded (prof : Profile) (low : Bool) {cps p : List Nat} (hu : Utf8 cps p) :
    Utf8 (cps.map (foldCP prof.table low)) ((cps.map (foldCP prof.table low)).map enc).flatten := by
  refine (utf8_iff _ _).2 ⟨?_, rfl⟩
  intro c hc
  obtain ⟨d, hd, rfl⟩ := List.mem_map.1 hc
  obtain ⟨h1, _⟩ := (utf8_iff _ _).1 hu
  exact fold_range (table_ok prof) low (h1 d hd).1 (h1 d hd).2

theorem utf8_valid {cps p : List Nat} (hu : Utf8 cps p) : Valid .utf8 p := by
  obtain ⟨h1, h2⟩ := (utf8_iff _ _).1 hu
  refine ⟨_, h2, ?_⟩
  intro c hc
  obtain ⟨d, hd, rfl⟩ := List.mem_map.1 hc
  exact enc_isChar (h1 d hd).1 (h1 d hd).2

/-- C61 (part): converting the case of a UTF-8 text converts each code point by the profile's table and leaves well-formed
UTF-8; this also shows that the result is independent of the buffer.  Missing: buffers smaller than 8 bytes (C60). -/
theorem case_text_partial (prof : Profile) (low : Bool) (cps p : List Nat) (hu : Utf8 cps p) (s : Nat) (hs : 8 ≤ s) :
    ∃ p' s', caseText .utf8 prof.table low (some s) p = some (p', s') ∧ s ≤ s' ∧ Utf8 (cps.map (foldCP prof.table low)) p' := by
  obtain ⟨s', h1, h2⟩ := caseText_utf8 (table_ok prof) low hu s hs
  exact ⟨_, s', h1, h2, utf8_folded prof low hu⟩

/-- C61 (part): texts compared without regard to case are equal exactly if their lower-cased code points are. Missing: as in
`case_text_partial`. -/
theorem strcasecmp_zero_iff_partial (prof : Profile) (cps dps p q : List Nat) (hp : Utf8 cps p) (hq : Utf8 dps q) (s : Nat)
    (hs : 8 ≤ s) : ∃ r s', strcasecmp .utf8 prof.table (some s) p q = some (r, s') ∧
      (r = 0 ↔ cps.map (foldCP prof.table true) = dps.map (foldCP prof.table true)) := by
  obtain ⟨s1, h1, h2⟩ := caseText_utf8 (table_ok prof) true hp s hs
  obtain ⟨s2, h3, h4⟩ := caseText_utf8 (table_ok prof) true hq s1 (by omega)
  have v1 := utf8_valid (utf8_folded prof true hp)
  have v2 := utf8_valid (utf8_folded prof true hq)
  obtain ⟨r, hr⟩ := strcmp_defined .utf8 _ _ v1 v2
  refine ⟨r, s2, ?_, ?_⟩
  · unfold strcasecmp
    rw [h1]
    simp only [h3, hr, Option.map_some]
  · have hz := strcmp_zero_iff .utf8 _ _ v1 v2
    rw [hr] at hz
    simp only [Option.some.injEq] at hz
    rw [hz]
    constructor
    · intro h
      have e1 := (utf8_iff _ _).1 (utf8_folded prof true hp)
      have e2 := (utf8_iff _ _).1 (utf8_folded prof true hq)
      have hcs := chars_unique (e := .utf8) (cs := (cps.map (foldCP prof.table true)).map enc)
        (ds := (dps.map (foldCP prof.table true)).map enc)
        (by intro c hc; obtain ⟨d, hd, rfl⟩ := List.mem_map.1 hc; exact enc_isChar (e1.1 d hd).1 (e1.1 d hd).2)
        (by intro c hc; obtain ⟨d, hd, rfl⟩ := List.mem_map.1 hc; exact enc_isChar (e2.1 d hd).1 (e2.1 d hd).2) h
      exact map_enc_inj (fun c hc => (e1.1 c hc).2) (fun c hc => (e2.1 c hc).2) hcs
    · intro h
      rw [h]
where
  map_enc_inj {l m : List Nat} (hl : ∀ c ∈ l, c < 0x110000) (hm : ∀ c ∈ m, c < 0x110000) (h : l.map enc = m.map enc) : l = m := by
    induction l generalizing m with
    | nil =>
      cases m with
      | nil => rfl
      | cons _ _ => simp at h
    | cons a l ih =>
      cases m with
      | nil => simp at h
      | cons b m =>
        simp only [List.map_cons, List.cons.injEq] at h
        rw [enc_inj (hl a List.mem_cons_self) (hm b List.mem_cons_self) h.1,
          ih (fun c hc => hl c (List.mem_cons_of_mem _ hc)) (fun c hc => hm c (List.mem_cons_of_mem _ hc)) h.2]

/-- C61: a text and its upper-cased (or lower-cased) form are equal without regard to case. -/
theorem case_change_ignored (prof : Profile) (low : Bool) (cps p : List Nat) (hp : Utf8 cps p) (s : Nat) (hs : 8 ≤ s) :
    ∃ p' s' s'', caseText .utf8 prof.table low (some s) p = some (p', s') ∧
      strcasecmp .utf8 prof.table (some s') p' p = some (0, s'') := by
  obtain ⟨p', s', h1, h2, h3⟩ := case_text_partial prof low cps p hp s hs
  obtain ⟨r, s'', g1, g2⟩ := strcasecmp_zero_iff_partial prof _ _ p' p h3 hp s' (by omega)
  have : r = 0 := by
    rw [g2, List.map_map]
    apply List.map_congr_left
    intro c _
    simp only [Function.comp]
    cases low
    · exact (fold_laws prof true c).2
    · exact (fold_laws prof true c).1
  subst this
  exact ⟨p', s', s'', h1, g1⟩

/-- In Turkish, I and ı are one letter, İ and i another. -/
example : (strcasecmp .utf8 Profile.turkish.table (some 8) [0x49] [0xC4, 0xB1]).map (·.1) = some 0 ∧
    (strcasecmp .utf8 Profile.turkish.table (some 8) [0x49] [0x69]).map (·.1) ≠ some 0 ∧
    (strcasecmp .utf8 Profile.generic.table (some 8) [0x49] [0x69]).map (·.1) = some 0 := by decide

/-- C61 is false in the extended ASCII encoding: the multiplication sign and the division sign are taken for the two cases
of one letter, and so are ß and ÿ. -/
theorem ext_ascii_folds_symbols :
    strcasecmp .extAscii [] none [0xD7] [0xF7] = some (0, 5) ∧ strcasecmp .extAscii [] none [0xDF] [0xFF] = some (0, 5) := by
  decide

/-! ### C25: word equality -/

theorem strBcmp_zero (n : Nat) (p q : List Nat) : strBcmp n p q = 0 ↔ p.take n = q.take n := by
  induction n generalizing p q with
  | zero => simp [strBcmp]
  | succ n ih =>
    cases p with
    | nil => cases q <;> simp [strBcmp]
    | cons x p =>
      cases q with
      | nil => simp [strBcmp]
      | cons y q =>
        simp only [strBcmp, List.take_succ_cons, List.cons.injEq]
        by_cases h1 : x < y
        · rw [if_pos h1]
          constructor
          · intro h; simp at h
          · intro h; omega
        · rw [if_neg h1]
          by_cases h2 : y < x
          · rw [if_pos h2]
            constructor
            · intro h; simp at h
            · intro h; omega
          · rw [if_neg h2, ih]
            constructor
            · intro h; exact ⟨by omega, h⟩
            · intro h; exact h.2

theorem suffix_iff (x u : List Nat) (h : x.length ≤ u.length) : x = u.drop (u.length - x.length) ↔ x <:+ u := by
  constructor
  · intro hx
    rw [hx]
    exact List.drop_suffix _ _
  · rintro ⟨v, rfl⟩
    simp

/-- C25: if fragments do not count, two words are equal exactly if their texts are the same. -/
theorem equal_word_exact (e : Enc) (w1 w2 : Word) (h1 : Valid e w1.text) (h2 : Valid e w2.text)
    (hf : w1.fragCorr = false ∧ w2.fragCorr = false) : equalWord e w1 w2 = some 0 ↔ w1.text = w2.text := by
  unfold equalWord
  simp only [hf.1, hf.2, Bool.or_self, Bool.false_eq_true, if_false]
  exact strcmp_zero_iff e _ _ h1 h2

/-- C25: so it is for two words that are not fragments even if fragments count. -/
theorem equal_word_whole (e : Enc) (w1 w2 : Word) (h1 : Valid e w1.text) (h2 : Valid e w2.text)
    (n1 : ¬ Fragment w1.text) (n2 : ¬ Fragment w2.text) (e1 : w1.text ≠ []) (e2 : w2.text ≠ []) :
    equalWord e w1 w2 = some 0 ↔ w1.text = w2.text := by
  unfold equalWord
  unfold Fragment at n1 n2
  have l1 : ¬ w1.text.length = 0 := by simpa using e1
  have l2 : ¬ w2.text.length = 0 := by simpa using e2
  simp only
  split
  · rw [if_neg (fun h => n1 ⟨h.2, .inl h.1⟩), if_neg (fun h => n1 ⟨h.2, .inr h.1⟩),
      if_neg (fun h => n2 ⟨h.2, .inl h.1⟩), if_neg (fun h => n2 ⟨h.2, .inr h.1⟩)]
    exact strcmp_zero_iff e _ _ h1 h2
  · exact strcmp_zero_iff e _ _ h1 h2

/-- C25: the fragment `x-` equals exactly the words beginning with `x`. -/
theorem fragment_begin (e : Enc) (w1 w2 : Word) (x : List Nat) (hx : x ≠ []) (hx' : x.head? ≠ some 45)
    (h1 : w1.text = x ++ [45]) (hf : w1.fragCorr = true ∨ w2.fragCorr = true) :
    equalWord e w1 w2 = some 0 ↔ x <+: w2.text := by
  have hf' : (w1.fragCorr || w2.fragCorr) = true := by simpa using hf
  have hl : 0 < x.length := List.length_pos_iff.2 hx
  have hh : (x ++ [45]).head? ≠ some 45 := by
    cases x with
    | nil => simp at hx
    | cons a x => simpa using hx'
  unfold equalWord
  simp only [hf', if_true, h1, List.length_append, List.length_cons, List.length_nil]
  rw [if_neg (fun h => hh h.1), if_neg (by omega), if_pos ⟨by simp, by omega⟩]
  simp only [Option.some.injEq, strBcmp_zero]
  simp only [Nat.zero_add, Nat.add_sub_cancel, List.take_left]
  exact List.prefix_iff_eq_take.symm

/-- C25: the fragment `-x` equals exactly the words ending with `x`. -/
theorem fragment_end (e : Enc) (w1 w2 : Word) (x : List Nat) (hx : x ≠ [])
    (h1 : w1.text = 45 :: x) (hf : w1.fragCorr = true ∨ w2.fragCorr = true) :
    equalWord e w1 w2 = some 0 ↔ x <:+ w2.text := by
  have hf' : (w1.fragCorr || w2.fragCorr) = true := by simpa using hf
  have hl : 0 < x.length := List.length_pos_iff.2 hx
  unfold equalWord
  simp only [hf', if_true, h1, List.length_cons, List.head?_cons]
  rw [if_pos ⟨trivial, by omega⟩]
  simp only [Nat.add_sub_cancel, List.drop_succ_cons, List.drop_zero]
  by_cases h : w2.text.length < x.length
  · rw [if_pos h]
    constructor
    · intro h'; simp at h'
    · intro h'; have := h'.length_le; omega
  · rw [if_neg h, Option.some.injEq, strBcmp_zero, ← suffix_iff x w2.text (by omega)]
    rw [List.take_of_length_le (Nat.le_refl _), List.take_of_length_le (by simp; omega)]

/-- C25: the same with the fragment as second word, if the first word is not a fragment. -/
theorem fragment_begin_second (e : Enc) (w1 w2 : Word) (x : List Nat) (hx : x ≠ []) (hx' : x.head? ≠ some 45)
    (h2 : w2.text = x ++ [45]) (hf : w1.fragCorr = true ∨ w2.fragCorr = true) (n1 : ¬ Fragment w1.text) (e1 : w1.text ≠ []) :
    equalWord e w1 w2 = some 0 ↔ x <+: w1.text := by
  have hf' : (w1.fragCorr || w2.fragCorr) = true := by simpa using hf
  have hl : 0 < x.length := List.length_pos_iff.2 hx
  have hh : (x ++ [45]).head? ≠ some 45 := by
    cases x with
    | nil => simp at hx
    | cons a x => simpa using hx'
  have l1 : ¬ w1.text.length = 0 := by simpa using e1
  unfold Fragment at n1
  unfold equalWord
  simp only [hf', if_true, h2, List.length_append, List.length_cons, List.length_nil]
  rw [if_neg (fun h => n1 ⟨h.2, .inl h.1⟩), if_neg l1, if_neg (fun h => n1 ⟨h.2, .inr h.1⟩),
    if_neg (fun h => hh h.1), if_neg (by omega), if_pos ⟨by simp, by omega⟩]
  simp only [Option.some.injEq, strBcmp_zero]
  simp only [Nat.zero_add, Nat.add_sub_cancel, List.take_left]
  exact eq_comm.trans List.prefix_iff_eq_take.symm

/-- C25: likewise for `-x`. -/
theorem fragment_end_second (e : Enc) (w1 w2 : Word) (x : List Nat) (hx : x ≠ [])
    (h2 : w2.text = 45 :: x) (hf : w1.fragCorr = true ∨ w2.fragCorr = true) (n1 : ¬ Fragment w1.text) (e1 : w1.text ≠ []) :
    equalWord e w1 w2 = some 0 ↔ x <:+ w1.text := by
  have hf' : (w1.fragCorr || w2.fragCorr) = true := by simpa using hf
  have hl : 0 < x.length := List.length_pos_iff.2 hx
  have l1 : ¬ w1.text.length = 0 := by simpa using e1
  unfold Fragment at n1
  unfold equalWord
  simp only [hf', if_true, h2, List.length_cons, List.head?_cons]
  rw [if_neg (fun h => n1 ⟨h.2, .inl h.1⟩), if_neg l1, if_neg (fun h => n1 ⟨h.2, .inr h.1⟩), if_pos ⟨trivial, by omega⟩]
  simp only [Nat.add_sub_cancel, List.drop_succ_cons, List.drop_zero]
  by_cases h : w1.text.length < x.length
  · rw [if_pos h]
    constructor
    · intro h'; simp at h'
    · intro h'; have := h'.length_le; omega
  · rw [if_neg h, Option.some.injEq, strBcmp_zero, ← suffix_iff x w1.text (by omega)]
    rw [List.take_of_length_le (by simp; omega), List.take_of_length_le (Nat.le_refl _)]
    exact eq_comm

/-- A fragment is `-x` or, if not, `x-`. -/
theorem fragment_shape {t : List Nat} (h : Fragment t) : (∃ x, x ≠ [] ∧ t = 45 :: x) ∨
    ∃ x, x ≠ [] ∧ x.head? ≠ some 45 ∧ t = x ++ [45] := by
  obtain ⟨hl, h⟩ := h
  cases t with
  | nil => simp at hl
  | cons a t =>
    by_cases ha : a = 45
    · subst ha
      refine .inl ⟨t, ?_, rfl⟩
      intro h0; subst h0; simp at hl
    · rcases h with h | h
      · simp at h; exact absurd h ha
      · rcases List.eq_nil_or_concat (a :: t) with h0 | ⟨x, b, hx⟩
        · cases h0
        · have hx' : a :: t = x ++ [b] := by simpa using hx
          rw [hx'] at h
          simp at h
          subst h
          cases x with
          | nil => simp at hx'; exact absurd hx'.1 ha
          | cons c x =>
            refine .inr ⟨c :: x, by simp, ?_, hx'⟩
            simp at hx' ⊢
            intro hc
            exact ha (hx'.1.trans hc)

/-- C25: a word equals itself. -/
theorem equal_word_refl (e : Enc) (w : Word) (h : Valid e w.text) (hne : w.text ≠ []) : equalWord e w w = some 0 := by
  cases hf : w.fragCorr with
  | false => exact (equal_word_exact e w w h h ⟨hf, hf⟩).2 rfl
  | true =>
    by_cases hfr : Fragment w.text
    · rcases fragment_shape hfr with ⟨x, h1, h2⟩ | ⟨x, h1, h2, h3⟩
      · exact (fragment_end e w w x h1 h2 (.inl hf)).2 (by rw [h2]; exact List.suffix_cons _ _)
      · exact (fragment_begin e w w x h1 h2 h3 (.inl hf)).2 (by rw [h3]; exact List.prefix_append _ _)
    · exact (equal_word_whole e w w h h hfr hfr hne hne).2 rfl

/-- C25 (part): equality does not depend on the order of the words, unless both are fragments.  Missing: two fragments, for
which this is false (`equal_word_not_symm`). -/
theorem equal_word_symm_partial (e : Enc) (w1 w2 : Word) (h1 : Valid e w1.text) (h2 : Valid e w2.text) (e1 : w1.text ≠ [])
    (e2 : w2.text ≠ []) (hn : ¬ (Fragment w1.text ∧ Fragment w2.text)) :
    equalWord e w1 w2 = some 0 ↔ equalWord e w2 w1 = some 0 := by
  by_cases hf : w1.fragCorr = false ∧ w2.fragCorr = false
  · rw [equal_word_exact e w1 w2 h1 h2 hf, equal_word_exact e w2 w1 h2 h1 ⟨hf.2, hf.1⟩]
    exact eq_comm
  · have hf' : w1.fragCorr = true ∨ w2.fragCorr = true := by
      cases ha : w1.fragCorr <;> cases hb : w2.fragCorr <;> simp_all
    by_cases f1 : Fragment w1.text
    · have f2 : ¬ Fragment w2.text := fun f2 => hn ⟨f1, f2⟩
      rcases fragment_shape f1 with ⟨x, g1, g2⟩ | ⟨x, g1, g2, g3⟩
      · rw [fragment_end e w1 w2 x g1 g2 hf', fragment_end_second e w2 w1 x g1 g2 hf'.symm f2 e2]
      · rw [fragment_begin e w1 w2 x g1 g2 g3 hf', fragment_begin_second e w2 w1 x g1 g2 g3 hf'.symm f2 e2]
    · by_cases f2 : Fragment w2.text
      · rcases fragment_shape f2 with ⟨x, g1, g2⟩ | ⟨x, g1, g2, g3⟩
        · rw [fragment_end e w2 w1 x g1 g2 hf'.symm, fragment_end_second e w1 w2 x g1 g2 hf' f1 e1]
        · rw [fragment_begin e w2 w1 x g1 g2 g3 hf'.symm, fragment_begin_second e w1 w2 x g1 g2 g3 hf' f1 e1]
      · rw [equal_word_whole e w1 w2 h1 h2 f1 f2 e1 e2, equal_word_whole e w2 w1 h2 h1 f2 f1 e2 e1]
        exact eq_comm

/-- C25 is false for two fragments: `ab-` does not equal `a-`, but `a-` equals `ab-`. -/
theorem equal_word_not_symm :
    equalWord .ascii ⟨[97, 98, 45], [97, 98, 45], false, true⟩ ⟨[97, 45], [97, 45], false, true⟩ ≠ some 0 ∧
    equalWord .ascii ⟨[97, 45], [97, 45], false, true⟩ ⟨[97, 98, 45], [97, 98, 45], false, true⟩ = some 0 := by decide

/-- C25: parentheses around a word are not part of the text compared, and only those. -/
theorem opt_del_text (w : Word) (x : List Nat) (h : w.value = 40 :: x ++ [41]) :
    ∃ w', decodeOptDel w = some w' ∧ w'.optDel = true ∧ w'.text = x := by
  unfold decodeOptDel
  rw [h]
  simp only [List.cons_append]
  rw [if_pos ⟨by rw [← List.cons_append, List.getLast?_concat], trivial⟩]
  exact ⟨_, rfl, rfl, by simp [Word.text]⟩

/-- C25: any other word keeps its text. -/
theorem opt_del_other (w : Word) (hne : w.value ≠ []) (h : ¬ ∃ x, w.value = 40 :: x ++ [41]) : decodeOptDel w = some w := by
  unfold decodeOptDel
  cases hv : w.value with
  | nil => exact absurd hv hne
  | cons b rest =>
    simp only
    rw [if_neg]
    rintro ⟨h1, rfl⟩
    apply h
    rcases List.eq_nil_or_concat rest with h0 | ⟨x, c, hx⟩
    · subst h0
      simp at h1
    · have hx' : rest = x ++ [c] := by simpa using hx
      subst hx'
      rw [← List.cons_append, List.getLast?_concat] at h1
      injection h1 with h1
      subst h1
      exact ⟨x, hv⟩

example : equalWord .ascii ⟨[97, 45], [], false, true⟩ ⟨[97, 98], [], false, true⟩ = some 0 ∧
    equalWord .ascii ⟨[97, 45], [], false, false⟩ ⟨[97, 98], [], false, false⟩ = some (-1) ∧
    equalWord .ascii ⟨[40, 97, 41], [97], true, false⟩ ⟨[97], [], false, false⟩ = some 0 := by decide

end Verif.Text
