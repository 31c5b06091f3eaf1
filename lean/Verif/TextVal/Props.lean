import Verif.TextVal.Lemmas
/-!
# What is proved of the validators of CTM and STM files (C290 to C296)
-/
set_option autoImplicit false
namespace Verif.TextVal

/-! ## C290: CTM files -/

theorem want_nil {b : Bool} {c : Complaint} : want b c = [] ↔ b = true := by
  unfold want; cases b <;> simp

theorem mem_want {b : Bool} {c d : Complaint} : d ∈ want b c ↔ d = c ∧ ¬ b = true := by
  unfold want; cases b <;> simp

theorem run_ident (s : List Char) : run ident s = true ↔ Ident s := by
  rw [run_iff]; exact lang_plus_cls

theorem run_number (s : List Char) : run number s = true ↔ Number s := by
  rw [run_iff]
  unfold number Number
  rw [lang_seq]
  constructor
  · rintro ⟨u, v, rfl, h1, h2⟩
    rw [lang_plus_cls] at h1
    rcases lang_opt.1 h2 with rfl | h2
    · left; rw [List.append_nil]; exact h1
    · obtain ⟨x, y, rfl, h3, h4⟩ := lang_seq.1 h2
      rw [lang_txt] at h3
      rw [lang_plus_cls] at h4
      exact .inr ⟨u, y, by rw [h3]; rfl, h1, h4⟩
  · rintro (h | ⟨a, b, rfl, h1, h2⟩)
    · exact ⟨s, [], by simp, lang_plus_cls.2 h, lang_opt.2 (.inl rfl)⟩
    · exact ⟨a, '.' :: b, rfl, lang_plus_cls.2 h1, lang_opt.2 (.inr (lang_seq.2 ⟨['.'], b, rfl, lang_txt.2 rfl, lang_plus_cls.2 h2⟩))⟩

theorem run_channel (s : List Char) : run channelRe s = true ↔ (Some Char.isDigit s ∨ s = ['A'] ∨ s = ['B']) := by
  rw [run_iff]
  unfold channelRe
  rw [lang_alt, lang_alt, lang_plus_cls, lang_txt, lang_txt]
  rfl

theorem lang_within {r : Re} {s : List Char} : Lang (.seq any (.seq r any)) s ↔ ∃ a m b, s = a ++ m ++ b ∧ Lang r m := by
  rw [lang_seq]
  constructor
  · rintro ⟨u, v, rfl, _, h⟩
    obtain ⟨x, y, rfl, h1, _⟩ := lang_seq.1 h
    exact ⟨u, x, y, by simp, h1⟩
  · rintro ⟨a, m, b, rfl, h⟩
    exact ⟨a, m ++ b, by simp, lang_any, lang_seq.2 ⟨m, b, rfl, h, lang_any⟩⟩

theorem run_altTag (s : List Char) : run altTag s = true ↔ AltTag s := by
  rw [run_iff]
  unfold altTag AltTag Contains
  rw [lang_within]
  constructor
  · rintro ⟨a, m, b, rfl, h⟩
    rw [lang_alt, lang_alt, lang_txt, lang_txt, lang_txt] at h
    rcases h with rfl | rfl | rfl
    · exact .inl ⟨a, b, rfl⟩
    · exact .inr (.inl ⟨a, b, rfl⟩)
    · exact .inr (.inr ⟨a, b, rfl⟩)
  · rintro (⟨a, b, rfl⟩ | ⟨a, b, rfl⟩ | ⟨a, b, rfl⟩)
    · exact ⟨a, _, b, rfl, .altL (lang_txt.2 rfl)⟩
    · exact ⟨a, _, b, rfl, .altR (.altL (lang_txt.2 rfl))⟩
    · exact ⟨a, _, b, rfl, .altR (.altR (lang_txt.2 rfl))⟩

theorem append_lower {u v : List Char} {x y : List Char} (h1 : u.map Char.toLower = x) (h2 : v.map Char.toLower = y) :
    (u ++ v).map Char.toLower = x ++ y := by
  rw [List.map_append, h1, h2]

theorem lower_append {m x y : List Char} (h : m.map Char.toLower = x ++ y) :
    ∃ u v, m = u ++ v ∧ u.map Char.toLower = x ∧ v.map Char.toLower = y := by
  obtain ⟨u, v, h1, h2, h3⟩ := List.map_eq_append_iff.1 h
  exact ⟨u, v, h1, h2, h3⟩

theorem run_token (t : List Char) : run tokenRe t = true ↔ EnglishToken t := by
  rw [run_iff]
  unfold tokenRe EnglishToken
  rw [lang_alt, lang_alt, lang_alt, lang_plus_cls]
  refine or_congr Iff.rfl (or_congr ?_ (or_congr ?_ ?_))
  · constructor
    · intro h
      obtain ⟨u, v, rfl, h1, h2⟩ := lang_seq.1 h
      obtain ⟨c, rfl, hc⟩ := lang_cls.1 h1
      obtain ⟨x, y, rfl, h3, _⟩ := lang_seq.1 h2
      rw [lang_txt] at h3
      exact ⟨c, y, by rw [h3]; rfl, hc⟩
    · rintro ⟨c, s, rfl, hc⟩
      exact lang_seq.2 ⟨[c], '.' :: s, rfl, .cls hc, lang_seq.2 ⟨['.'], s, rfl, lang_txt.2 rfl, lang_any⟩⟩
  · rw [lang_within]
    constructor
    · rintro ⟨a, m, b, rfl, h⟩
      rw [lang_txt.1 h]
      simp
    · intro h
      obtain ⟨a, b, rfl⟩ := List.append_of_mem h
      exact ⟨a, ['@'], b, by simp, lang_txt.2 rfl⟩
  · constructor
    · intro h
      obtain ⟨a, v, rfl, _, h⟩ := lang_seq.1 h
      obtain ⟨x, v, rfl, h1, h⟩ := lang_seq.1 h
      obtain ⟨y, b, rfl, h2, _⟩ := lang_seq.1 h
      rw [lang_lit] at h1
      rcases lang_alt.1 h2 with h2 | h2
      · obtain ⟨y1, y2, rfl, h3, h4⟩ := lang_seq.1 h2
        obtain ⟨y3, y4, rfl, h5, h6⟩ := lang_seq.1 h4
        rw [lang_lit] at h3 h6
        rcases lang_opt.1 h5 with rfl | h5
        · exact .inl ⟨a, x ++ (y1 ++ y4), b, by simp, append_lower h1 (append_lower h3 h6)⟩
        · rw [lang_lit] at h5
          exact .inr (.inl ⟨a, x ++ (y1 ++ (y3 ++ y4)), b, by simp, append_lower h1 (append_lower h3 (append_lower h5 h6))⟩)
      · rw [lang_lit] at h2
        exact .inr (.inr ⟨a, x ++ y, b, by simp, append_lower h1 h2⟩)
    · rintro (⟨a, m, b, rfl, h⟩ | ⟨a, m, b, rfl, h⟩ | ⟨a, m, b, rfl, h⟩)
      · obtain ⟨u, v, rfl, h1, h2⟩ := lower_append (x := "%".toList) (y := "bcack".toList) h
        obtain ⟨v, w, rfl, h2, h3⟩ := lower_append (x := "bc".toList) (y := "ack".toList) h2
        refine lang_seq.2 ⟨a, u ++ (v ++ w ++ b), by simp, lang_any, lang_seq.2 ⟨u, _, rfl, lang_lit.2 h1, lang_seq.2 ⟨v ++ w, b, rfl, .altL ?_, lang_any⟩⟩⟩
        exact lang_seq.2 ⟨v, w, rfl, lang_lit.2 h2, lang_seq.2 ⟨[], w, rfl, lang_opt.2 (.inl rfl), lang_lit.2 h3⟩⟩
      · obtain ⟨u, v, rfl, h1, h2⟩ := lower_append (x := "%".toList) (y := "bcnack".toList) h
        obtain ⟨v, w, rfl, h2', h3⟩ := lower_append (x := "bc".toList) (y := "nack".toList) h2
        obtain ⟨w, z, rfl, h3', h4⟩ := lower_append (x := "n".toList) (y := "ack".toList) h3
        refine lang_seq.2 ⟨a, u ++ (v ++ (w ++ z) ++ b), by simp, lang_any, lang_seq.2 ⟨u, _, rfl, lang_lit.2 h1, lang_seq.2 ⟨v ++ (w ++ z), b, rfl, .altL ?_, lang_any⟩⟩⟩
        exact lang_seq.2 ⟨v, w ++ z, rfl, lang_lit.2 h2', lang_seq.2 ⟨w, z, rfl, lang_opt.2 (.inr (lang_lit.2 h3')), lang_lit.2 h4⟩⟩
      · obtain ⟨u, v, rfl, h1, h2⟩ := lower_append (x := "%".toList) (y := "hesitation".toList) h
        exact lang_seq.2 ⟨a, u ++ (v ++ b), by simp, lang_any, lang_seq.2 ⟨u, _, rfl, lang_lit.2 h1, lang_seq.2 ⟨v, b, rfl, .altR (lang_lit.2 h2), lang_any⟩⟩⟩

theorem run_star (s : List Char) : run (txt "*") s = true ↔ s = ['*'] := by rw [run_iff, lang_txt]; rfl

theorem number_zero : Number ['0'] := .inl ⟨by simp, by decide⟩

theorem ident_spkr : Ident "spkr".toList := ⟨by decide, by decide⟩

theorem types_any (y : List Char) : types.any (fun t => t.toList = y) = true ↔ ∃ t ∈ types, y = t.toList := by
  rw [List.any_eq_true]
  simp only [decide_eq_true_eq]
  exact ⟨fun ⟨t, h, e⟩ => ⟨t, h, e.symm⟩, fun ⟨t, h, e⟩ => ⟨t, h, e.symm⟩⟩

theorem getD_all {P : List Char → Prop} {o : Option (List Char)} {d : List Char} (hd : P d) : P (o.getD d) ↔ ∀ x ∈ o, P x := by
  cases o with
  | none => simp [hd]
  | some x => simp

theorem check_fields (language : String) (source channel beg dur token : List Char) (more : List (List Char)) (hm : more.length ≤ 3) :
    checkFields language source channel beg dur token more = [] ↔ Record language (source :: channel :: beg :: dur :: token :: more) := by
  have e1 : Record language (source :: channel :: beg :: dur :: token :: more) ↔
      Ident source ∧ (Some Char.isDigit channel ∨ channel = ['A'] ∨ channel = ['B']) ∧
      (AltTag token → beg = ['*'] ∧ dur = ['*']) ∧
      (¬ AltTag token → Number beg ∧ Number dur ∧ (language = "english" → (∀ y ∈ more[1]?, y = "lex".toList) → EnglishToken token)) ∧
      (∀ x ∈ more[0]?, Number x) ∧ (∀ y ∈ more[1]?, ∃ t ∈ types, y = t.toList) ∧ (∀ z ∈ more[2]?, Ident z) := by
    constructor
    · rintro ⟨_, _, _, _, _, _, e, _, h⟩
      simp only [List.cons.injEq] at e
      obtain ⟨rfl, rfl, rfl, rfl, rfl, rfl⟩ := e
      exact h
    · intro h
      exact ⟨_, _, _, _, _, _, rfl, hm, h⟩
  rw [e1]
  unfold checkFields
  simp only [List.append_eq_nil_iff, want_nil]
  rw [run_ident, run_channel, run_number, run_ident, types_any, getD_all (P := Number) number_zero, getD_all (P := Ident) ident_spkr,
    getD_all (P := fun y => ∃ t ∈ types, y = t.toList) ⟨"lex", by decide, rfl⟩]
  have e2 : (if run altTag token = true then want (run (txt "*") beg) .begin ++ want (run (txt "*") dur) .duration
      else want (run number beg) .begin ++ want (run number dur) .duration ++
        (if (language == "english" && (more[1]?).getD "lex".toList == "lex".toList) = true then want (run tokenRe token) .token else [])) = [] ↔
      (AltTag token → beg = ['*'] ∧ dur = ['*']) ∧
      (¬ AltTag token → Number beg ∧ Number dur ∧ (language = "english" → (∀ y ∈ more[1]?, y = "lex".toList) → EnglishToken token)) := by
    by_cases ha : AltTag token
    · rw [if_pos ((run_altTag token).2 ha), List.append_eq_nil_iff, want_nil, want_nil, run_star, run_star]
      exact ⟨fun h => ⟨fun _ => h, fun h' => absurd ha h'⟩, fun h => h.1 ha⟩
    · rw [if_neg (fun h => ha ((run_altTag token).1 h)), List.append_eq_nil_iff, List.append_eq_nil_iff, want_nil, want_nil, run_number, run_number]
      have e3 : (if (language == "english" && (more[1]?).getD "lex".toList == "lex".toList) = true then want (run tokenRe token) .token else []) = [] ↔
          (language = "english" → (∀ y ∈ more[1]?, y = "lex".toList) → EnglishToken token) := by
        rw [← getD_all (P := fun y => y = "lex".toList) rfl]
        split
        · rename_i h
          simp only [Bool.and_eq_true, beq_iff_eq] at h
          rw [want_nil, run_token]
          exact ⟨fun h' _ _ => h', fun h' => h' h.1 h.2⟩
        · rename_i h
          simp only [Bool.and_eq_true, beq_iff_eq] at h
          exact ⟨fun _ h1 h2 => absurd ⟨h1, h2⟩ h, fun _ => rfl⟩
      rw [e3]
      exact ⟨fun h => ⟨fun h' => absurd h' ha, fun _ => ⟨h.1.1, h.1.2, h.2⟩⟩, fun h => ⟨⟨(h.2 ha).1, (h.2 ha).2.1⟩, (h.2 ha).2.2⟩⟩
  rw [e2]
  constructor
  · rintro ⟨⟨⟨⟨⟨h1, h2⟩, h3, h4⟩, h5⟩, h6⟩, h7⟩
    exact ⟨h1, h2, h3, h4, h5, h6, h7⟩
  · rintro ⟨h1, h2, h3, h4, h5, h6, h7⟩
    exact ⟨⟨⟨⟨⟨h1, h2⟩, h3, h4⟩, h5⟩, h6⟩, h7⟩

theorem check_not_comment {language : String} {line : List Char} (h : ¬ Comment line) :
    check language line = match split line with
      | source :: channel :: beg :: dur :: token :: more =>
        if more.length > 3 then [.many] else checkFields language source channel beg dur token more
      | _ => [.few] := by
  unfold check
  split
  · exact absurd ⟨_, rfl⟩ h
  · rfl

theorem check_iff (language : String) (line : List Char) :
    check language line = [] ↔ Comment line ∨ ∃ fs, Layout fs line ∧ Record language fs := by
  by_cases hc : Comment line
  · obtain ⟨s, rfl⟩ := hc
    exact ⟨fun _ => .inl ⟨s, rfl⟩, fun _ => rfl⟩
  · rw [check_not_comment hc]
    have e : (Comment line ∨ ∃ fs, Layout fs line ∧ Record language fs) ↔ ∃ fs, Layout fs line ∧ Record language fs :=
      ⟨fun h => h.resolve_left hc, .inr⟩
    rw [e]
    cases line with
    | nil =>
      constructor
      · intro h; cases h
      · rintro ⟨fs, h, _⟩
        obtain ⟨_, c, l, e, _⟩ := (layout_iff _ _).1 h
        cases e
    | cons c l =>
      by_cases hs : space c = true
      · constructor
        · intro h
          exfalso
          rcases split_space (l := l) hs with h' | ⟨ws, h'⟩
          · rw [h'] at h; cases h
          · rw [h'] at h
            match ws, h with
            | [], h => cases h
            | [_], h => cases h
            | [_, _], h => cases h
            | [_, _, _], h => cases h
            | a :: b :: d :: t :: more, h =>
              dsimp only at h
              split at h
              · cases h
              · have := (check_fields language [] a b d t more (by omega)).1 h
                obtain ⟨_, _, _, _, _, _, e, _, h1, _⟩ := this
                simp only [List.cons.injEq] at e
                rw [← e.1] at h1
                exact h1.1 rfl
        · rintro ⟨fs, h, _⟩
          obtain ⟨_, c', l', e, h'⟩ := (layout_iff _ _).1 h
          cases e
          rw [hs] at h'
          cases h'
      · have hs' : space c = false := by simpa using hs
        have hlay : ∀ fs, Layout fs (c :: l) ↔ split (c :: l) = fs := by
          intro fs
          rw [layout_iff]
          exact ⟨fun h => h.1, fun h => ⟨h, c, l, rfl, hs'⟩⟩
        have hex : (∃ fs, Layout fs (c :: l) ∧ Record language fs) ↔ Record language (split (c :: l)) := by
          constructor
          · rintro ⟨fs, h1, h2⟩; rw [(hlay fs).1 h1]; exact h2
          · intro h; exact ⟨_, (hlay _).2 rfl, h⟩
        rw [hex]
        split
        · rename_i source channel beg dur token more e
          rw [e]
          split
          · rename_i hm
            constructor
            · intro h; cases h
            · rintro ⟨_, _, _, _, _, _, e', hm', _⟩
              simp only [List.cons.injEq] at e'
              rw [← e'.2.2.2.2.2] at hm'
              omega
          · rename_i hm
            exact check_fields language source channel beg dur token more (by omega)
        · rename_i hno
          constructor
          · intro h; cases h
          · rintro ⟨a, b, c', d, t, more, e', _⟩
            exact absurd e' (hno a b c' d t more)

theorem sum_zero (l : List Nat) : l.sum = 0 ↔ ∀ x ∈ l, x = 0 := by
  induction l with
  | nil => simp
  | cons a l ih =>
    rw [List.sum_cons]
    constructor
    · intro h x hx
      rcases List.mem_cons.1 hx with rfl | hx
      · omega
      · exact ih.1 (by omega) x hx
    · intro h
      have h1 := h a (by simp)
      have h2 := ih.2 (fun x hx => h x (by simp [hx]))
      omega

/-- A CTM file is validated exactly if every line is a comment or a record: five to eight fields, none after white space at the begin, each of the form
expected. -/
theorem ctm_validated (language : String) (lines : List (List Char)) :
    (ctmValid language lines).2 = true ↔ ∀ l ∈ lines, Comment l ∨ ∃ fs, Layout fs l ∧ Record language fs := by
  unfold ctmValid
  simp only [beq_iff_eq]
  rw [sum_zero]
  constructor
  · intro h l hl
    rw [← check_iff]
    have := h _ (List.mem_map.2 ⟨l, hl, rfl⟩)
    exact List.length_eq_zero_iff.1 this
  · intro h x hx
    obtain ⟨l, hl, rfl⟩ := List.mem_map.1 hx
    rw [(check_iff language l).2 (h l hl)]
    rfl

example : (ctmValid "english" (["f1 A 0.5 1 it's 0.9 lex spk", ";; x", "f1 1 * * <ALT_BEGIN>", "f1 1 3 0 a.$ "].map String.toList)) = (0, true) ∧
    (ctmValid "english" (["f1 C .5 1 it's", "", " f1 1 1 1 it's", "f1 1 1 1 <unk>"].map String.toList)) = (8, false) := by decide +kernel

/-! ## C291: the complaints about a CTM file -/

/-- A line is complained about for its number of fields; or, if that is right, for each field that is wrong and for no other, once. -/
theorem ctm_complaints (language : String) (line : List Char) (fs : List (List Char)) (hl : Layout fs line) (hc : ¬ Comment line) :
    (fs.length < 5 → check language line = [.few]) ∧ (8 < fs.length → check language line = [.many]) ∧
      ∀ source channel beg dur token more, fs = source :: channel :: beg :: dur :: token :: more → more.length ≤ 3 →
        (check language line).Nodup ∧
        (.source ∈ check language line ↔ ¬ Ident source) ∧
        (.channel ∈ check language line ↔ ¬ (Some Char.isDigit channel ∨ channel = ['A'] ∨ channel = ['B'])) ∧
        (.begin ∈ check language line ↔ ¬ ((AltTag token ∧ beg = ['*']) ∨ (¬ AltTag token ∧ Number beg))) ∧
        (.duration ∈ check language line ↔ ¬ ((AltTag token ∧ dur = ['*']) ∨ (¬ AltTag token ∧ Number dur))) ∧
        (.token ∈ check language line ↔ ¬ AltTag token ∧ language = "english" ∧ (∀ y ∈ more[1]?, y = "lex".toList) ∧ ¬ EnglishToken token) ∧
        (.conf ∈ check language line ↔ ∃ x, more[0]? = some x ∧ ¬ Number x) ∧
        (.type ∈ check language line ↔ ∃ y, more[1]? = some y ∧ ∀ t ∈ types, y ≠ t.toList) ∧
        (.speaker ∈ check language line ↔ ∃ z, more[2]? = some z ∧ ¬ Ident z) ∧
        .few ∉ check language line ∧ .many ∉ check language line := by
  have hs := ((layout_iff _ _).1 hl).1
  rw [check_not_comment hc, hs]
  refine ⟨fun h => ?_, fun h => ?_, ?_⟩
  · match fs, h with
    | [], _ => rfl
    | [_], _ => rfl
    | [_, _], _ => rfl
    | [_, _, _], _ => rfl
    | [_, _, _, _], _ => rfl
    | _ :: _ :: _ :: _ :: _ :: _, h => simp at h; omega
  · match fs, h with
    | a :: b :: c :: d :: e :: more, h =>
      simp only [List.length_cons] at h
      simp only [show more.length > 3 from by omega, if_true]
    | [], h => simp at h
    | [_], h => simp at h
    | [_, _], h => simp at h
    | [_, _, _], h => simp at h
    | [_, _, _, _], h => simp at h
  · rintro source channel beg dur token more rfl hm
    simp only [show ¬ more.length > 3 from by omega, if_false]
    have exD : ∀ {P : List Char → Prop} {o : Option (List Char)} {d : List Char}, P d → (¬ P (o.getD d) ↔ ∃ x, o = some x ∧ ¬ P x) := by
      intro P o d hd
      cases o with
      | none => simp [hd]
      | some x => simp
    have hconf := exD (P := Number) (o := more[0]?) number_zero
    have hspk := exD (P := Ident) (o := more[2]?) ident_spkr
    have htyp := exD (P := fun y => ∃ t ∈ types, y = t.toList) (o := more[1]?) (d := "lex".toList) ⟨"lex", by decide, rfl⟩
    have hlex := getD_all (P := fun y => y = "lex".toList) (o := more[1]?) rfl
    have htyp' : (∃ y, more[1]? = some y ∧ ∀ t ∈ types, y ≠ t.toList) ↔ ∃ y, more[1]? = some y ∧ ¬ ∃ t ∈ types, y = t.toList := by
      constructor
      · rintro ⟨y, h1, h2⟩; exact ⟨y, h1, fun ⟨t, ht, e⟩ => h2 t ht e⟩
      · rintro ⟨y, h1, h2⟩; exact ⟨y, h1, fun t ht e => h2 ⟨t, ht, e⟩⟩
    rw [htyp', ← hconf, ← hspk, ← htyp, ← types_any, ← hlex, ← run_ident, ← run_ident, ← run_number, ← run_number, ← run_number, ← run_channel,
      ← run_altTag, ← run_star, ← run_star, ← run_token]
    refine ⟨?_, ?_, ?_, ?_, ?_, ?_, ?_, ?_, ?_, ?_, ?_⟩
    · have hsub : (checkFields language source channel beg dur token more).Sublist
          ([.source] ++ [.channel] ++ [.begin, .duration, .token] ++ [.conf] ++ [.type] ++ [.speaker]) := by
        have hw : ∀ (b : Bool) (c : Complaint), (want b c).Sublist [c] := by
          intro b c
          cases b
          · exact List.Sublist.refl _
          · exact List.nil_sublist _
        unfold checkFields
        refine ((((((hw _ _).append (hw _ _)).append ?_).append (hw _ _)).append (hw _ _)).append (hw _ _))
        split
        · exact (List.Sublist.append (hw _ _) (hw _ _)).trans (show [Complaint.begin, .duration].Sublist [.begin, .duration, .token] from by decide)
        · refine (List.Sublist.append ((hw _ _).append (hw _ _)) (l₂ := [.begin] ++ [.duration]) (r₂ := [.token]) ?_)
          split
          · exact hw _ _
          · exact List.nil_sublist _
      exact hsub.nodup (by decide)
    all_goals
      unfold checkFields
      dsimp only
      by_cases ha : run altTag token = true <;> by_cases he : language = "english" ∧ more[1]?.getD "lex".toList = "lex".toList <;>
        simp [ha, he, mem_want, List.mem_append, and_assoc]

example : check "english" "f1 C .5 1 it's 2".toList = [.channel, .begin] := by decide +kernel

/-! ## C292: English tokens of CTM files -/

/-- Without points, `@` and `%`, an English token is accepted exactly if it has letters, hyphens and apostrophes only. -/
theorem ctm_token_partial (t : List Char) (h : '.' ∉ t ∧ '@' ∉ t ∧ '%' ∉ t) :
    run tokenRe t = true ↔ Some (fun c => c.isAlpha || c == '-' || c == '\'') t := by
  rw [run_token]
  constructor
  · rintro (h1 | ⟨c, s, rfl, _⟩ | h1 | h1 | h1 | h1)
    · exact h1
    · exact absurd (by simp) h.1
    · exact absurd h1 h.2.1
    all_goals
      obtain ⟨a, m, b, rfl, e⟩ := h1
      exfalso
      have hm : '%' ∈ m.map Char.toLower := by rw [e]; decide +kernel
      obtain ⟨d, hd, e1⟩ := List.mem_map.1 hm
      have := lower_eq (by decide) e1
      subst this
      exact h.2.2 (by simp [hd])
  · exact .inl

/-- Anything may follow a letter and a point, and anything may be around `@` or a hesitation. -/
theorem ctm_token_open (c : Char) (hc : c.isAlpha = true) (s t : List Char) :
    run tokenRe (c :: '.' :: s) = true ∧ run tokenRe (s ++ '@' :: t) = true ∧ run tokenRe (s ++ "%hesitation".toList ++ t) = true := by
  rw [run_token, run_token, run_token]
  exact ⟨.inr (.inl ⟨c, s, rfl, hc⟩), .inr (.inr (.inl (by simp))), .inr (.inr (.inr (.inr (.inr ⟨s, _, t, rfl, by decide +kernel⟩))))⟩

/-- Acronyms of several letters with one point are rejected, ones with rubbish after the point are not. -/
theorem ctm_token_counterexample : run tokenRe "NIST.".toList = false ∧ run tokenRe "N.<>7!".toList = true := by decide +kernel

example : run tokenRe "mother-in-law's".toList = true ∧ run tokenRe "o2".toList = false := by decide +kernel

/-! ## C293: English words of STM files -/

theorem english_iff (t : List Char) : english t = true ↔ ∃ r ∈ englishRules, Lang r t := by
  unfold english
  rw [List.any_eq_true]
  simp only [run_iff]

theorem lang_single {x : String} {d : Char} (hx : x.toList = [d]) (hd : d.isLower = false) (hdd : d.toLower = d) {s : List Char} :
    Lang (lit x) s ↔ s = [d] := by
  rw [lang_lit, hx]
  constructor
  · intro h
    match s, h with
    | [c], h =>
      simp at h
      rw [lower_eq hd h]
  · rintro rfl; simp [hdd]

/-- Letters and hyphens. -/
def Lh (c : Char) : Prop := c.isAlpha = true ∨ c = '-'

theorem hyphen_char {c : Char} (h : c.toLower = '-') : c = '-' := lower_eq (by decide) h

theorem over_hyphen {p : Char → Prop} (h : p '-') : Over p (lit "-") := by
  refine over_lit ?_
  intro y hy c hc
  have : y = '-' := by simpa using hy
  subst this
  rw [hyphen_char hc]
  exact h

theorem lang_hyphen {s : List Char} : Lang (lit "-") s ↔ s = ['-'] := lang_single rfl (by decide) (by decide)

theorem word_over {p : Char → Prop} (h1 : p '-') (h2 : ∀ c : Char, c.isAlpha = true → p c) : Over p word :=
  ⟨⟨h2, over_hyphen h1⟩, h2, h2⟩

theorem hyphens_end {u : List Char} : Lang (.star (.seq (.star letter) (lit "-"))) u → u = [] ∨ ∃ w, u = w ++ ['-'] := by
  generalize hr : Re.star (.seq (.star letter) (lit "-")) = r
  intro h
  induction h with
  | eps => cases hr
  | cls => cases hr
  | seq => cases hr
  | altL => cases hr
  | altR => cases hr
  | nil => exact .inl rfl
  | cons h1 _ _ ih =>
    cases hr
    obtain ⟨x, y, rfl, _, h4⟩ := lang_seq.1 h1
    rw [lang_hyphen.1 h4]
    rcases ih rfl with rfl | ⟨w, rfl⟩
    · exact .inr ⟨x, by simp⟩
    · exact .inr ⟨x ++ ['-'] ++ w, by simp⟩

theorem hyphens_split (t : List Char) (h : ∀ c ∈ t, Lh c) :
    ∃ u v, t = u ++ v ∧ Lang (.star (.seq (.star letter) (lit "-"))) u ∧ ∀ c ∈ v, c.isAlpha = true := by
  induction t with
  | nil => exact ⟨[], [], rfl, .nil, by simp⟩
  | cons c t ih =>
    obtain ⟨u, v, rfl, h1, h2⟩ := ih (fun x hx => h x (by simp [hx]))
    rcases h c (by simp) with hc | rfl
    · cases u with
      | nil => exact ⟨[], c :: v, rfl, .nil, fun x hx => by
          rcases List.mem_cons.1 hx with rfl | hx
          · exact hc
          · exact h2 x hx⟩
      | cons d u =>
        obtain ⟨u1, u2, rfl, h3, h4⟩ := star_cons h1
        obtain ⟨x, y, e, h5, h6⟩ := lang_seq.1 h3
        refine ⟨c :: d :: (u1 ++ u2), v, rfl, ?_, h2⟩
        have e' : c :: d :: (u1 ++ u2) = ((c :: x) ++ y) ++ u2 := by
          rw [List.cons_append, ← e]; rfl
        rw [e']
        refine .cons (lang_seq.2 ⟨c :: x, y, rfl, ?_, h6⟩) h4
        unfold letter at h5 ⊢
        rw [lang_star_cls] at h5 ⊢
        intro z hz
        rcases List.mem_cons.1 hz with rfl | hz
        · exact hc
        · exact h5 z hz
    · refine ⟨'-' :: u, v, rfl, ?_, h2⟩
      exact Lang.cons (s := ['-']) (lang_seq.2 ⟨[], ['-'], rfl, .nil, lang_hyphen.2 rfl⟩) h1

theorem lang_word (t : List Char) : Lang word t ↔ (∀ c ∈ t, Lh c) ∧ ∃ u c, t = u ++ [c] ∧ c.isAlpha = true := by
  constructor
  · intro h
    refine ⟨over_lang h (word_over (.inr rfl) (fun c hc => .inl hc)), ?_⟩
    obtain ⟨u, v, rfl, _, h2⟩ := lang_seq.1 h
    have h3 : Some Char.isAlpha v := lang_plus_cls.1 h2
    rcases List.eq_nil_or_concat v with rfl | ⟨v', c, rfl⟩
    · exact absurd rfl h3.1
    · exact ⟨u ++ v', c, by simp, h3.2 c (by simp)⟩
  · rintro ⟨h1, u, c, e, hc⟩
    obtain ⟨x, y, e', h2, h3⟩ := hyphens_split t h1
    rw [e']
    refine lang_seq.2 ⟨x, y, rfl, h2, lang_plus_cls.2 ⟨?_, h3⟩⟩
    rintro rfl
    rw [List.append_nil] at e'
    subst e'
    rcases hyphens_end h2 with rfl | ⟨w, rfl⟩
    · simp at e
    · have := List.append_inj' e rfl
      have hcc : '-' = c := by simpa using this.2
      subst hcc
      revert hc
      decide

theorem not_lh {d : Char} (hd : d.isLower = false) (hd' : d ≠ '-') (hne : d.isAlpha = false) {t : List Char} (h : ∀ c ∈ t, Lh c) {r : Re} (hr : Has d r) :
    ¬ Lang r t := by
  intro hl
  obtain ⟨c, hc, e⟩ := hr t hl
  have := lower_eq hd e
  subst this
  rcases h c hc with h' | h'
  · rw [hne] at h'; cases h'
  · exact hd' h'

theorem lang_fragment (t : List Char) : Lang fragment t ↔ ∃ u, t = u ++ ['-'] ∧ Some Char.isAlpha u := by
  unfold fragment
  rw [lang_seq]
  constructor
  · rintro ⟨u, v, rfl, h1, h2⟩
    exact ⟨u, by rw [lang_hyphen.1 h2], lang_plus_cls.1 h1⟩
  · rintro ⟨u, rfl, h⟩
    exact ⟨u, ['-'], rfl, lang_plus_cls.2 h, lang_hyphen.2 rfl⟩

theorem clitics_none {v : List Char} (h : ∀ c ∈ v, Lh c) (hv : Lang (.star clitic) v) : v = [] := by
  cases v with
  | nil => rfl
  | cons c v =>
    exfalso
    obtain ⟨u1, u2, rfl, h1, _⟩ := star_cons hv
    exact not_lh (d := '\'') (by decide) (by decide) (by decide) (fun x hx => h x (by
      rcases List.mem_cons.1 hx with rfl | hx
      · simp
      · simp [hx])) (has_left (has_lit (by decide))) h1

/-- A token of letters and hyphens is recognised as English exactly if it ends with a letter, or is letters and one hyphen. -/
theorem english_word (t : List Char) (h : ∀ c ∈ t, Lh c) :
    english t = true ↔ (∃ u c, t = u ++ [c] ∧ c.isAlpha = true) ∨ ∃ u, t = u ++ ['-'] ∧ Some Char.isAlpha u := by
  rw [english_iff]
  constructor
  · rintro ⟨r, hr, hl⟩
    have no : ∀ (d : Char), d.isLower = false → d ≠ '-' → d.isAlpha = false → ¬ Has d r := fun d h1 h2 h3 h4 => not_lh h1 h2 h3 h h4 hl
    have paren_no : ∀ x, r ≠ paren x := by
      rintro x rfl
      exact no '(' (by decide) (by decide) (by decide) (has_left (has_lit (by decide)))
    simp only [englishRules, List.mem_cons, List.not_mem_nil, or_false] at hr
    rcases hr with rfl | rfl | rfl | rfl | rfl | rfl | rfl | rfl | rfl | rfl | rfl | rfl | rfl
    · exact absurd (has_lit (by decide)) (no '_' (by decide) (by decide) (by decide))
    · exact .inl ((lang_word t).1 hl).2
    · exact absurd rfl (paren_no _)
    · exact absurd (has_right (has_left (has_lit (by decide)))) (no '.' (by decide) (by decide) (by decide))
    · exact absurd rfl (paren_no _)
    · exact .inr ((lang_fragment t).1 hl)
    · exact absurd rfl (paren_no _)
    · obtain ⟨u, v, rfl, h1, h2⟩ := lang_seq.1 hl
      have := clitics_none (fun c hc => h c (by simp [hc])) h2
      subst this
      rw [List.append_nil]
      exact .inl ((lang_word u).1 h1).2
    · exact absurd (has_left (has_lit (by decide))) (no '(' (by decide) (by decide) (by decide))
    · rcases lang_alt.1 hl with h1 | h1
      · exact absurd h1 (not_lh (d := '\'') (by decide) (by decide) (by decide) h (has_left (has_lit (by decide))))
      · exact absurd h1 (not_lh (d := '\'') (by decide) (by decide) (by decide) h (has_lit (by decide)))
    · exact absurd rfl (paren_no _)
    · exact absurd (has_left (has_lit (by decide))) (no '%' (by decide) (by decide) (by decide))
    · exfalso
      rcases lang_alt.1 hl with h1 | h1
      · exact not_lh (d := '{') (by decide) (by decide) (by decide) h (has_lit (by decide)) h1
      · rcases lang_alt.1 h1 with h1 | h1
        · exact not_lh (d := '}') (by decide) (by decide) (by decide) h (has_lit (by decide)) h1
        · rcases lang_alt.1 h1 with h1 | h1
          · exact not_lh (d := '/') (by decide) (by decide) (by decide) h (has_lit (by decide)) h1
          · exact not_lh (d := '@') (by decide) (by decide) (by decide) h (has_lit (by decide)) h1
  · rintro (⟨u, c, e, hc⟩ | ⟨u, e, hu⟩)
    · exact ⟨word, by simp [englishRules], (lang_word t).2 ⟨h, u, c, e, hc⟩⟩
    · exact ⟨fragment, by simp [englishRules], (lang_fragment t).2 ⟨u, e, hu⟩⟩

/-- A fragment of a word with a hyphen is not recognised. -/
theorem english_fragment_counterexample : english "self-empl-".toList = false ∧ english "self-employ".toList = true ∧ english "empl-".toList = true := by
  decide +kernel

example : english "--x".toList = true ∧ english "x--".toList = false ∧ english "-".toList = false := by decide +kernel

/-! ## C294: parentheses in English STM files -/

theorem case_rules : ∀ r ∈ englishRules, CaseFree r := by
  have hL : CaseFree letter := fun a b h => by rw [alpha_lower, alpha_lower, h]
  have hword : CaseFree word := ⟨⟨hL, lit_case _⟩, hL, hL⟩
  have hac : CaseFree acronym := ⟨⟨hL, hL⟩, lit_case _, lit_case _, lit_case _⟩
  have hfr : CaseFree fragment := ⟨⟨hL, hL⟩, lit_case _⟩
  have hcl : CaseFree clitic :=
    ⟨lit_case _, lit_case _, lit_case _, lit_case _, lit_case _, lit_case _, lit_case _, lit_case _, trivial⟩
  have hpa : CaseFree pause := ⟨lit_case _, lit_case _, lit_case _, lit_case _⟩
  have hpar : ∀ r, CaseFree r → CaseFree (paren r) := fun r h => ⟨lit_case _, h, lit_case _⟩
  have hsp : CaseFree (.cls (fun c => !space c)) := fun a b h => by
    dsimp only
    rw [← space_lower a, ← space_lower b, h]
  intro r hr
  simp only [englishRules, List.mem_cons, List.not_mem_nil, or_false] at hr
  rcases hr with rfl | rfl | rfl | rfl | rfl | rfl | rfl | rfl | rfl | rfl | rfl | rfl | rfl
  · exact lit_case _
  · exact hword
  · exact hpar _ hword
  · exact hac
  · exact hpar _ hac
  · exact hfr
  · exact hpar _ hfr
  · exact ⟨hword, hcl⟩
  · exact ⟨lit_case _, hword, hcl, lit_case _⟩
  · exact ⟨⟨lit_case _, hsp, hsp⟩, lit_case _⟩
  · exact hpar _ hpa
  · exact hpa
  · exact ⟨lit_case _, lit_case _, lit_case _, lit_case _⟩

theorem lang_open {s : List Char} : Lang (lit "(") s ↔ s = ['('] := lang_single rfl (by decide) (by decide)

theorem lang_close {s : List Char} : Lang (lit ")") s ↔ s = [')'] := lang_single rfl (by decide) (by decide)

theorem lang_paren {r : Re} {t : List Char} : Lang (paren r) t ↔ ∃ u, t = '(' :: u ++ [')'] ∧ Lang r u := by
  unfold paren
  rw [lang_seq]
  constructor
  · rintro ⟨a, b, rfl, h1, h2⟩
    obtain ⟨u, c, rfl, h3, h4⟩ := lang_seq.1 h2
    rw [lang_open.1 h1, lang_close.1 h4]
    exact ⟨u, by simp, h3⟩
  · rintro ⟨u, rfl, h⟩
    exact ⟨['('], u ++ [')'], by simp, lang_open.2 rfl, lang_seq.2 ⟨u, [')'], rfl, h, lang_close.2 rfl⟩⟩

/-- No parenthesis. -/
def Np (c : Char) : Prop := c ≠ '(' ∧ c ≠ ')'

theorem np_alpha (c : Char) (h : c.isAlpha = true) : Np c := by
  constructor <;> (rintro rfl; revert h; decide)

theorem np_lit {x : String} (h : '(' ∉ x.toList ∧ ')' ∉ x.toList) : Over Np (lit x) := by
  refine over_lit (fun y hy c hc => ?_)
  constructor
  · rintro rfl
    have e : Char.toLower '(' = '(' := by decide
    rw [e] at hc
    exact h.1 (hc ▸ hy)
  · rintro rfl
    have e : Char.toLower ')' = ')' := by decide
    rw [e] at hc
    exact h.2 (hc ▸ hy)

/-- A token without apostrophe that is recognised has no parenthesis, or one at the begin and one at the end around a token that is recognised by itself. -/
theorem english_parens_partial (t : List Char) (h : english t = true) (ha : '\'' ∉ t) :
    (∀ c ∈ t, Np c) ∨ ∃ u, t = '(' :: u ++ [')'] ∧ (∀ c ∈ u, Np c) ∧ english u = true := by
  rw [english_iff] at h
  obtain ⟨r, hr, hl⟩ := h
  have hword : Over Np word := word_over (by unfold Np; decide) np_alpha
  have hac : Over Np acronym := ⟨⟨np_alpha, np_alpha⟩, np_lit (by decide +kernel), np_lit (by decide +kernel), np_lit (by decide +kernel)⟩
  have hfr : Over Np fragment := ⟨⟨np_alpha, np_alpha⟩, np_lit (by decide +kernel)⟩
  have hcl : Over Np clitic :=
    ⟨np_lit (by decide +kernel), np_lit (by decide +kernel), np_lit (by decide +kernel), np_lit (by decide +kernel), np_lit (by decide +kernel), np_lit (by decide +kernel), np_lit (by decide +kernel),
      np_lit (by decide +kernel), trivial⟩
  have hpa : Over Np pause := ⟨np_lit (by decide +kernel), np_lit (by decide +kernel), np_lit (by decide +kernel), np_lit (by decide +kernel)⟩
  have par : ∀ x, x ∈ englishRules → Over Np x → Lang (paren x) t →
      (∀ c ∈ t, Np c) ∨ ∃ u, t = '(' :: u ++ [')'] ∧ (∀ c ∈ u, Np c) ∧ english u = true := by
    intro x hx ho hp
    obtain ⟨u, e, hu⟩ := lang_paren.1 hp
    exact .inr ⟨u, e, over_lang hu ho, (english_iff u).2 ⟨x, hx, hu⟩⟩
  have apo : ∀ x, Has '\'' x → ¬ Lang x t := by
    intro x hx hp
    obtain ⟨c, hc, e⟩ := hx t hp
    have := lower_eq (by decide) e
    subst this
    exact ha hc
  simp only [englishRules, List.mem_cons, List.not_mem_nil, or_false] at hr
  rcases hr with rfl | rfl | rfl | rfl | rfl | rfl | rfl | rfl | rfl | rfl | rfl | rfl | rfl
  · have ho : Over Np (lit "ignore_time_segment_in_scoring") := np_lit (x := "ignore_time_segment_in_scoring") (by decide +kernel)
    exact .inl (over_lang (p := Np) hl ho)
  · exact .inl (over_lang hl hword)
  · exact par word (by simp [englishRules]) hword hl
  · exact .inl (over_lang hl hac)
  · exact par acronym (by simp [englishRules]) hac hl
  · exact .inl (over_lang hl hfr)
  · exact par fragment (by simp [englishRules]) hfr hl
  · exact .inl (over_lang hl ⟨hword, hcl⟩)
  · exact absurd hl (apo _ (has_right (has_right (has_left (has_left (has_lit (by decide)))))))
  · rcases lang_alt.1 hl with h1 | h1
    · exact absurd h1 (apo _ (has_left (has_lit (by decide))))
    · exact absurd h1 (apo _ (has_lit (by decide)))
  · exact par pause (by simp [englishRules]) hpa hl
  · exact .inl (over_lang hl hpa)
  · exact .inl (over_lang hl (by exact ⟨np_lit (by decide +kernel), np_lit (by decide +kernel), np_lit (by decide +kernel), np_lit (by decide +kernel)⟩))

/-- What is recognised as a word, an acronym, a fragment or a hesitation is also recognised in parentheses: all tokens without apostrophe other than
the marker of segments that are not scored and those of alternatives. -/
theorem english_optional_partial (t : List Char) (h : english t = true) (ha : '\'' ∉ t) (hp : ∀ c ∈ t, Np c)
    (hi : t.map Char.toLower ≠ "ignore_time_segment_in_scoring".toList) (ht : t ≠ ['{'] ∧ t ≠ ['}'] ∧ t ≠ ['/'] ∧ t ≠ ['@']) :
    english ('(' :: t ++ [')']) = true := by
  rw [english_iff] at h ⊢
  obtain ⟨r, hr, hl⟩ := h
  have apo : ∀ x, Has '\'' x → ¬ Lang x t := by
    intro x hx hp
    obtain ⟨c, hc, e⟩ := hx t hp
    have := lower_eq (by decide) e
    subst this
    exact ha hc
  have nop : ∀ x, ¬ Lang (paren x) t := by
    intro x hx
    obtain ⟨u, rfl, _⟩ := lang_paren.1 hx
    exact (hp '(' (by simp)).1 rfl
  have one : ∀ (d : Char), d.isLower = false → ∀ s : List Char, s.map Char.toLower = [d] → s = [d] := by
    intro d hd s hs
    match s, hs with
    | [c], hs =>
      simp at hs
      rw [lower_eq hd hs]
  simp only [englishRules, List.mem_cons, List.not_mem_nil, or_false] at hr
  rcases hr with rfl | rfl | rfl | rfl | rfl | rfl | rfl | rfl | rfl | rfl | rfl | rfl | rfl
  · exact absurd (lang_lit.1 hl) hi
  · exact ⟨paren word, by simp [englishRules], lang_paren.2 ⟨t, rfl, hl⟩⟩
  · exact absurd hl (nop _)
  · exact ⟨paren acronym, by simp [englishRules], lang_paren.2 ⟨t, rfl, hl⟩⟩
  · exact absurd hl (nop _)
  · exact ⟨paren fragment, by simp [englishRules], lang_paren.2 ⟨t, rfl, hl⟩⟩
  · exact absurd hl (nop _)
  · obtain ⟨u, v, rfl, h1, h2⟩ := lang_seq.1 hl
    cases v with
    | nil =>
      rw [List.append_nil]
      exact ⟨paren word, by simp [englishRules], lang_paren.2 ⟨u, rfl, h1⟩⟩
    | cons c v =>
      exfalso
      obtain ⟨v1, v2, rfl, h3, _⟩ := star_cons h2
      have hc : Has '\'' clitic := has_left (has_lit (by decide))
      obtain ⟨d, hd, e⟩ := hc _ h3
      have := lower_eq (by decide) e
      subst this
      refine ha (List.mem_append.2 (.inr ?_))
      rcases List.mem_cons.1 hd with h' | h'
      · rw [h']; simp
      · simp [h']
  · exact absurd hl (apo _ (has_right (has_right (has_left (has_left (has_lit (by decide)))))))
  · rcases lang_alt.1 hl with h1 | h1
    · exact absurd h1 (apo _ (has_left (has_lit (by decide))))
    · exact absurd h1 (apo _ (has_lit (by decide)))
  · exact absurd hl (nop _)
  · exact ⟨paren pause, by simp [englishRules], lang_paren.2 ⟨t, rfl, hl⟩⟩
  · exfalso
    rcases lang_alt.1 hl with h1 | h1
    · exact ht.1 (one '{' (by decide) t (lang_lit.1 h1))
    · rcases lang_alt.1 h1 with h1 | h1
      · exact ht.2.1 (one '}' (by decide) t (lang_lit.1 h1))
      · rcases lang_alt.1 h1 with h1 | h1
        · exact ht.2.2.1 (one '/' (by decide) t (lang_lit.1 h1))
        · exact ht.2.2.2 (one '@' (by decide) t (lang_lit.1 h1))

/-- The star for contractions in parentheses is at the closing parenthesis: it may be missing or be there twice, a second clitic is rejected, and so are
contractions with o'. -/
theorem english_parens_counterexample :
    english "(don't".toList = true ∧ english "(don't))".toList = true ∧ english "don't)".toList = false ∧
      english "can't've".toList = true ∧ english "(can't've)".toList = false ∧ english "o'clock".toList = true ∧ english "(o'clock)".toList = false := by
  decide +kernel

/-- Case does not count. -/
theorem english_case (s t : List Char) (h : s.map Char.toLower = t.map Char.toLower) : english s = english t := by
  unfold english
  rw [Bool.eq_iff_iff, List.any_eq_true, List.any_eq_true]
  constructor
  · rintro ⟨r, hr, e⟩; exact ⟨r, hr, by rw [← run_case s t h r (case_rules r hr)]; exact e⟩
  · rintro ⟨r, hr, e⟩; exact ⟨r, hr, by rw [run_case s t h r (case_rules r hr)]; exact e⟩

example : english "(%HESITATION)".toList = true ∧ english "(U.s)".toList = true := by decide +kernel

/-! ## C295: other languages -/

/-- What else matches: the end of what was meant to be the list of punctuation. -/
def Odd (t : List Char) : Prop := ∃ a b k, t = a ++ "<,>".toList ++ b ++ "/-".toList ++ List.replicate (k + 1) ']' ∧ b.length ≤ 1

theorem lang_rest {t : List Char} : Lang (.seq any rest) t ↔ Odd t := by
  unfold rest Odd
  rw [lang_seq]
  constructor
  · rintro ⟨a, v, rfl, _, h⟩
    obtain ⟨x, v, rfl, h1, h⟩ := lang_seq.1 h
    obtain ⟨b, v, rfl, h2, h⟩ := lang_seq.1 h
    obtain ⟨y, z, rfl, h3, h4⟩ := lang_seq.1 h
    rw [lang_txt] at h1 h3
    have h5 : Some (fun c => c == ']') z := lang_plus_cls.1 h4
    have hz : z = List.replicate z.length ']' := List.eq_replicate_iff.2 ⟨rfl, fun c hc => eq_of_beq (h5.2 c hc)⟩
    have hp := List.length_pos_iff.2 h5.1
    refine ⟨a, b, z.length - 1, ?_, ?_⟩
    · rw [h1, h3, show z.length - 1 + 1 = z.length from by omega, ← hz]
      simp
    · rcases lang_opt.1 h2 with rfl | h2
      · simp
      · obtain ⟨c, rfl, _⟩ := lang_cls.1 h2
        simp
  · rintro ⟨a, b, k, rfl, hb⟩
    refine ⟨a, "<,>".toList ++ (b ++ ("/-".toList ++ List.replicate (k + 1) ']')), by simp, lang_any, lang_seq.2 ⟨_, _, rfl, lang_txt.2 rfl, ?_⟩⟩
    refine lang_seq.2 ⟨b, _, rfl, lang_opt.2 ?_, lang_seq.2 ⟨_, _, rfl, lang_txt.2 rfl, lang_plus_cls.2 ⟨by simp, ?_⟩⟩⟩
    · match b, hb with
      | [], _ => exact .inl rfl
      | [c], _ => exact .inr (.cls rfl)
    · intro c hc
      rw [(List.mem_replicate.1 hc).2]
      rfl

/-- A token of a text that is not English is recognised exactly if its first character, or the one after an opening parenthesis, is none of
`` !@#$^&*()`~_+={[} ``, whatever follows; or it is a marker of alternatives; or it ends in an odd way. -/
theorem other_accepts (t : List Char) :
    other t = true ↔ (∃ c s, t = c :: s ∧ punct c = false) ∨ (∃ c s, t = '(' :: c :: s ∧ punct c = false) ∨
      t = ['{'] ∨ t = ['}'] ∨ t = ['/'] ∨ t = ['@'] ∨ Odd t ∨ ∃ u, t = u ++ [')'] ∧ Odd u := by
  have e1 : Lang (.alt (.seq (.cls (fun c => !punct c)) any) (.seq any rest)) t ↔ (∃ c s, t = c :: s ∧ punct c = false) ∨ Odd t := by
    rw [lang_alt, lang_rest, lang_seq]
    refine or_congr ?_ Iff.rfl
    constructor
    · rintro ⟨u, v, rfl, h, _⟩
      obtain ⟨c, rfl, hc⟩ := lang_cls.1 h
      exact ⟨c, v, rfl, by simpa using hc⟩
    · rintro ⟨c, s, rfl, h⟩
      exact ⟨[c], s, rfl, .cls (by simp [h]), lang_any⟩
  have e2 : Lang (.alt (.seq (chr '(') (.seq (.cls (fun c => !punct c)) any)) (.seq any (.seq rest (chr ')')))) t ↔
      (∃ c s, t = '(' :: c :: s ∧ punct c = false) ∨ ∃ u, t = u ++ [')'] ∧ Odd u := by
    rw [lang_alt]
    refine or_congr ?_ ?_
    · rw [lang_seq]
      constructor
      · rintro ⟨u, v, rfl, h, h2⟩
        obtain ⟨x, y, rfl, h3, _⟩ := lang_seq.1 h2
        obtain ⟨c, rfl, hc⟩ := lang_cls.1 h3
        rw [lang_chr.1 h]
        exact ⟨c, y, rfl, by simpa using hc⟩
      · rintro ⟨c, s, rfl, h⟩
        exact ⟨['('], c :: s, rfl, lang_chr.2 rfl, lang_seq.2 ⟨[c], s, rfl, .cls (by simp [h]), lang_any⟩⟩
    · rw [lang_seq]
      constructor
      · rintro ⟨a, v, rfl, _, h⟩
        obtain ⟨x, y, rfl, h1, h2⟩ := lang_seq.1 h
        rw [lang_chr.1 h2]
        exact ⟨a ++ x, by simp, lang_rest.1 (lang_seq.2 ⟨a, x, rfl, lang_any, h1⟩)⟩
      · rintro ⟨u, rfl, h⟩
        obtain ⟨a, x, rfl, _, h1⟩ := lang_seq.1 (lang_rest.2 h)
        exact ⟨a, x ++ [')'], by simp, lang_any, lang_seq.2 ⟨x, [')'], rfl, h1, lang_chr.2 rfl⟩⟩
  have one : ∀ (x : String) (d : Char), x.toList = [d] → d.isLower = false → d.toLower = d → (Lang (lit x) t ↔ t = [d]) := by
    intro x d hx hd hdd
    rw [lang_lit, hx]
    constructor
    · intro h
      match t, h with
      | [c], h =>
        simp at h
        rw [lower_eq hd h]
    · rintro rfl; simp [hdd]
  have e3 : Lang tag t ↔ t = ['{'] ∨ t = ['}'] ∨ t = ['/'] ∨ t = ['@'] := by
    unfold tag
    rw [lang_alt, lang_alt, lang_alt, one "{" '{' rfl (by decide) (by decide), one "}" '}' rfl (by decide) (by decide),
      one "/" '/' rfl (by decide) (by decide), one "@" '@' rfl (by decide) (by decide)]
  have low : ∀ (c d : Char), d.isLower = true → c.toLower = d → punct c = false := by
    intro c d hd h
    have ha := lower_alpha hd h
    rw [Bool.eq_false_iff]
    intro hp
    unfold punct at hp
    have hm : c ∈ "!@#$^&*()`~_+={[}".toList := by simpa using hp
    have : ∀ x ∈ "!@#$^&*()`~_+={[}".toList, x.isAlpha = false := by decide
    rw [this c hm] at ha
    cases ha
  unfold other
  rw [List.any_eq_true]
  simp only [run_iff]
  constructor
  · rintro ⟨r, hr, hl⟩
    simp only [otherRules, List.mem_cons, List.not_mem_nil, or_false] at hr
    rcases hr with rfl | rfl | rfl | rfl | rfl
    · rw [lang_lit] at hl
      cases t with
      | nil => simp at hl
      | cons c t =>
        rw [List.map_cons] at hl
        injection hl with h1 _
        exact .inl ⟨c, t, rfl, low c 'i' (by decide) h1⟩
    · rcases e1.1 hl with h | h
      · exact .inl h
      · exact .inr (.inr (.inr (.inr (.inr (.inr (.inl h))))))
    · rcases e2.1 hl with h | h
      · exact .inr (.inl h)
      · exact .inr (.inr (.inr (.inr (.inr (.inr (.inr h))))))
    · obtain ⟨u, rfl, hu⟩ := lang_paren.1 hl
      rw [lang_lit] at hu
      cases u with
      | nil => simp at hu
      | cons c u =>
        rw [List.map_cons] at hu
        injection hu with h1 _
        have := lower_eq (by decide) h1
        subst this
        exact .inr (.inl ⟨'%', u ++ [')'], rfl, by decide⟩)
    · rcases e3.1 hl with h | h | h | h
      · exact .inr (.inr (.inl h))
      · exact .inr (.inr (.inr (.inl h)))
      · exact .inr (.inr (.inr (.inr (.inl h))))
      · exact .inr (.inr (.inr (.inr (.inr (.inl h)))))
  · have r1 := e1.2
    have r2 := e2.2
    have r3 := e3.2
    rintro (h | h | h | h | h | h | h | h)
    · exact ⟨_, by simp [otherRules], r1 (.inl h)⟩
    · exact ⟨_, by simp [otherRules], r2 (.inl h)⟩
    · exact ⟨tag, by simp [otherRules], r3 (.inl h)⟩
    · exact ⟨tag, by simp [otherRules], r3 (.inr (.inl h))⟩
    · exact ⟨tag, by simp [otherRules], r3 (.inr (.inr (.inl h)))⟩
    · exact ⟨tag, by simp [otherRules], r3 (.inr (.inr (.inr h)))⟩
    · exact ⟨_, by simp [otherRules], r1 (.inr h)⟩
    · exact ⟨_, by simp [otherRules], r2 (.inr h)⟩

/-- A token without any punctuation is recognised. -/
theorem other_partial (t : List Char) (hn : t ≠ []) (h : ∀ c ∈ t, c ∉ "!@#$^&*()`~_+={[}]|\\<,>.?/-".toList) : other t = true := by
  rw [other_accepts]
  cases t with
  | nil => exact absurd rfl hn
  | cons c s =>
    refine .inl ⟨c, s, rfl, ?_⟩
    rw [Bool.eq_false_iff]
    intro hp
    unfold punct at hp
    have hm : c ∈ "!@#$^&*()`~_+={[}".toList := by simpa using hp
    have : ∀ x ∈ "!@#$^&*()`~_+={[}".toList, x ∈ "!@#$^&*()`~_+={[}]|\\<,>.?/-".toList := by decide
    exact h c (by simp) (this c hm)

/-- Punctuation after the first character is not noticed, nor are unbalanced parentheses. -/
theorem other_counterexample (s : List Char) : other ('x' :: s) = true ∧ other ('(' :: 'x' :: s) = true := by
  rw [other_accepts, other_accepts]
  exact ⟨.inl ⟨'x', s, rfl, by decide⟩, .inr (.inl ⟨'x', s, rfl, by decide⟩)⟩

example : other "a$!(".toList = true ∧ other "$a".toList = false ∧ other "...".toList = true ∧ other "(%hesitation)".toList = true := by decide +kernel

/-! ## C296: what of an STM file is looked at -/

theorem validated_one (language : String) (line : List Char) :
    stmValid language [line] = match load line with
      | none => true
      | some text => (split text).all (if language = "english" then english else other) := by
  unfold stmValid
  cases h : load line with
  | none => simp [h]
  | some t => simp [h]

/-- An STM file is validated exactly if every token of the text of every record is recognised. -/
theorem stm_validated (language : String) (lines : List (List Char)) :
    stmValid language lines = true ↔
      ∀ l ∈ lines, ∀ text, load l = some text → ∀ t ∈ split text, (if language = "english" then english t else other t) = true := by
  unfold stmValid
  rw [List.all_eq_true]
  constructor
  · intro h l hl text ht t hm
    have := h text (List.mem_filterMap.2 ⟨l, hl, ht⟩)
    rw [List.all_eq_true] at this
    have := this t hm
    split at this <;> simp_all
  · intro h text ht
    obtain ⟨l, hl, e⟩ := List.mem_filterMap.1 ht
    rw [List.all_eq_true]
    intro t hm
    have := h l hl text e t hm
    split <;> simp_all

theorem header_semi (key : String) (line : List Char) (h : ';' ∉ line) : run (header key) line = false := by
  rw [Bool.eq_false_iff, Ne, run_iff]
  intro hl
  unfold header at hl
  obtain ⟨a, v, rfl, _, hl⟩ := lang_seq.1 hl
  obtain ⟨x, v, rfl, h1, _⟩ := lang_seq.1 hl
  rw [lang_txt] at h1
  exact h (by rw [h1]; simp)

theorem header_quote (key : String) (line : List Char) (h : '"' ∉ line) : run (header key) line = false := by
  rw [Bool.eq_false_iff, Ne, run_iff]
  intro hl
  unfold header at hl
  obtain ⟨_, v1, rfl, _, hl⟩ := lang_seq.1 hl
  obtain ⟨_, v2, rfl, _, hl⟩ := lang_seq.1 hl
  obtain ⟨_, v3, rfl, _, hl⟩ := lang_seq.1 hl
  obtain ⟨_, v4, rfl, _, hl⟩ := lang_seq.1 hl
  obtain ⟨_, v5, rfl, _, hl⟩ := lang_seq.1 hl
  obtain ⟨x, v6, rfl, hq, _⟩ := lang_seq.1 hl
  obtain ⟨q, v7, rfl, hq, _⟩ := lang_seq.1 hq
  rw [lang_chr] at hq
  exact h (by rw [hq]; simp)

theorem cut_none (line : List Char) (h : ';' ∉ line) : cut line = line := by
  fun_induction cut line with
  | case1 => rfl
  | case2 c => rfl
  | case3 c d s hc => simp at hc; simp [hc.1] at h
  | case4 c d s hc ih => rw [ih (by simp at h ⊢; exact ⟨h.2.1, h.2.2⟩)]

theorem cut_semi (a b : List Char) (h : ';' ∉ a) : cut (a ++ ';' :: ';' :: b) = a := by
  induction a with
  | nil => rfl
  | cons c a ih =>
    have hc : c ≠ ';' := fun e => h (by simp [e])
    have ih := ih (fun e => h (by simp [e]))
    cases a with
    | nil => simp [cut, hc]
    | cons d a =>
      rw [List.cons_append, List.cons_append, cut]
      rw [List.cons_append] at ih
      simp [hc, ih]

theorem load_plain (line : List Char) (h : ';' ∉ line) :
    load line = match line.dropWhile space with
      | [] => none
      | c :: s => some (textOf (splitN 6 (c :: s))) := by
  unfold load
  rw [header_semi _ _ h, header_semi _ _ h, cut_none line h]
  rfl

/-- Fields with one space after each. -/
def spaced (fs : List (List Char)) : List Char := fs.flatMap (fun w => w ++ [' '])

theorem takeWhile_word (w s : List Char) (hw : ∀ c ∈ w, (!space c) = true) :
    (w ++ ' ' :: s).takeWhile (fun c => !space c) = w ∧ (w ++ ' ' :: s).dropWhile (fun c => !space c) = ' ' :: s := by
  induction w with
  | nil => exact ⟨by simp [show space ' ' = true from by decide], by simp [show space ' ' = true from by decide]⟩
  | cons c w ih =>
    have hc : space c = false := by simpa using hw c (by simp)
    have ih := ih (fun x hx => hw x (by simp [hx]))
    simp only [List.cons_append, List.takeWhile_cons, List.dropWhile_cons, hc, Bool.not_false, if_true, ih, and_self]

theorem splitN_spaced (fs : List (List Char)) (n : Nat) (rest : List Char) (hf : ∀ w ∈ fs, Some (fun c => !space c) w) (hne : fs ≠ []) :
    splitN (fs.length + n) (spaced fs ++ rest) = fs ++ splitN n (rest.dropWhile space) := by
  induction fs with
  | nil => exact absurd rfl hne
  | cons w fs ih =>
    have hw := hf w (by simp)
    have e : spaced (w :: fs) ++ rest = w ++ ' ' :: (spaced fs ++ rest) := by simp [spaced]
    have ht := takeWhile_word w (spaced fs ++ rest) hw.2
    have hany : (w ++ ' ' :: (spaced fs ++ rest)).any space = true := by
      rw [List.any_eq_true]; exact ⟨' ', by simp, by decide⟩
    rw [e, List.length_cons, show fs.length + 1 + n = (fs.length + n) + 1 from by omega, splitN, if_pos hany, ht.1, ht.2]
    have hsp : (' ' :: (spaced fs ++ rest)).dropWhile space = (spaced fs ++ rest).dropWhile space := by
      rw [List.dropWhile_cons, show space ' ' = true from by decide, if_pos rfl]
    rw [hsp]
    cases fs with
    | nil => simp [spaced]
    | cons x fs =>
      have hx := hf x (by simp)
      have hd : (spaced (x :: fs) ++ rest).dropWhile space = spaced (x :: fs) ++ rest := by
        cases x with
        | nil => exact absurd rfl hx.1
        | cons c x =>
          have hc : space c = false := by simpa using hx.2 c (by simp)
          simp [spaced, hc]
      rw [hd, ih (fun y hy => hf y (by simp [hy])) (by simp)]
      rfl

theorem load_spaced (fs : List (List Char)) (rest : List Char) (hf : ∀ w ∈ fs, Some (fun c => !space c) w) (hne : fs ≠ []) (hl : fs.length ≤ 6)
    (hs : ∀ w ∈ fs, ';' ∉ w) (hr : ';' ∉ rest) :
    load (spaced fs ++ rest) = some (textOf (fs ++ splitN (6 - fs.length) (rest.dropWhile space))) := by
  have hsemi : ';' ∉ spaced fs ++ rest := by
    intro h
    rcases List.mem_append.1 h with h | h
    · unfold spaced at h
      obtain ⟨w, hw, h⟩ := List.mem_flatMap.1 h
      rcases List.mem_append.1 h with h | h
      · exact hs w hw h
      · simp at h
    · exact hr h
  rw [load_plain _ hsemi]
  have hd : (spaced fs ++ rest).dropWhile space = spaced fs ++ rest := by
    match fs, hne, hf with
    | [] :: _, _, hf => exact absurd rfl (hf [] (by simp)).1
    | (c :: w) :: fs, _, hf =>
      have hc : space c = false := by simpa using (hf (c :: w) (by simp)).2 c (by simp)
      simp [spaced, hc]
  rw [hd]
  have := splitN_spaced fs (6 - fs.length) rest hf hne
  rw [show fs.length + (6 - fs.length) = 6 from by omega] at this
  rw [← this]
  match h : spaced fs ++ rest with
  | [] =>
    exfalso
    match fs, hne, hf with
    | w :: fs, _, _ => simp [spaced] at h
  | c :: s => rfl

theorem run_label (w : List Char) : run (.seq (txt "<") (.seq any (txt ">"))) w = true ↔ Label w := by
  rw [run_iff, lang_seq]
  constructor
  · rintro ⟨a, v, rfl, h1, h⟩
    obtain ⟨m, b, rfl, _, h2⟩ := lang_seq.1 h
    rw [lang_txt.1 h1, lang_txt.1 h2]
    exact ⟨m, by simp⟩
  · rintro ⟨m, rfl⟩
    exact ⟨['<'], m ++ ['>'], by simp, lang_txt.2 rfl, lang_seq.2 ⟨m, ['>'], rfl, lang_any, lang_txt.2 rfl⟩⟩

theorem splitN_one {ts : List (List Char)} {text : List Char} (h : Layout ts text) :
    ∃ w ws, ts = w :: ws ∧ Some (fun c => !white c) w ∧ ((ws = [] ∧ splitN 1 text = [w]) ∨ ∃ l, splitN 1 text = [w, l] ∧ split l = ws ∧ split (w ++ ' ' :: l) = ts) := by
  have hwhite : Some space [' '] := ⟨by simp, by decide⟩
  have hdrop : ∀ (w s : List Char), (∀ c ∈ w, (!space c) = true) → ∀ c, space c = true →
      (w ++ c :: s).takeWhile (fun c => !space c) = w ∧ (w ++ c :: s).dropWhile (fun c => !space c) = c :: s := by
    intro w s hw c hc
    induction w with
    | nil => exact ⟨by simp [hc], by simp [hc]⟩
    | cons d w ih =>
      have hd : space d = false := by simpa using hw d (by simp)
      have ih := ih (fun x hx => hw x (by simp [hx]))
      simp only [List.cons_append, List.takeWhile_cons, List.dropWhile_cons, hd, Bool.not_false, if_true, ih, and_self]
  have hspaces : ∀ (g l : List Char), (∀ c ∈ g, space c = true) → (g ++ l).dropWhile space = l.dropWhile space := by
    intro g l hg
    induction g with
    | nil => rfl
    | cons c g ih =>
      rw [List.cons_append, List.dropWhile_cons, hg c (by simp), if_pos rfl]
      exact ih (fun x hx => hg x (by simp [hx]))
  cases h with
  | last _ t hw ht =>
    rename_i w
    rw [white_eq] at hw ht
    refine ⟨w, [], rfl, white_eq ▸ hw, ?_⟩
    cases t with
    | nil =>
      left
      refine ⟨rfl, ?_⟩
      have : (w ++ []).any space = false := by
        rw [List.append_nil, Bool.eq_false_iff, Ne, List.any_eq_true]
        rintro ⟨c, hc, h⟩
        have := hw.2 c hc
        dsimp only at this
        rw [h] at this
        cases this
      rw [splitN, this]
      simp
    | cons c t =>
      right
      have hc := ht c (by simp)
      have hany : (w ++ c :: t).any space = true := by rw [List.any_eq_true]; exact ⟨c, by simp, hc⟩
      refine ⟨[], ?_, rfl, ?_⟩
      · rw [splitN, if_pos hany, (hdrop w t hw.2 c hc).1, (hdrop w t hw.2 c hc).2, splitN]
        have := hspaces (c :: t) [] ht
        rw [List.append_nil] at this
        rw [this]
        rfl
      · exact ((layout_iff _ _).1 (Layout.last w [' '] (white_eq ▸ hw) (white_eq ▸ hwhite.2))).1
  | cons w g fs l hw hg hl =>
    rw [white_eq] at hw hg
    refine ⟨w, fs, rfl, white_eq ▸ hw, .inr ⟨l, ?_, ((layout_iff _ _).1 hl).1, ?_⟩⟩
    · obtain ⟨hg1, hg2⟩ := hg
      cases g with
      | nil => exact absurd rfl hg1
      | cons c g =>
        have hc := hg2 c (by simp)
        have e : w ++ c :: g ++ l = w ++ c :: (g ++ l) := by simp
        have hany : (w ++ c :: (g ++ l)).any space = true := by rw [List.any_eq_true]; exact ⟨c, by simp, hc⟩
        rw [e, splitN, if_pos hany, (hdrop w (g ++ l) hw.2 c hc).1, (hdrop w (g ++ l) hw.2 c hc).2, splitN]
        have := hspaces (c :: g) l hg2
        rw [List.cons_append] at this
        rw [this]
        obtain ⟨_, d, l', rfl, hd⟩ := (layout_iff _ _).1 hl
        rw [List.dropWhile_cons, hd]
        rfl
    · have e : w ++ ' ' :: l = w ++ [' '] ++ l := by simp
      rw [e]
      exact ((layout_iff _ _).1 (Layout.cons w [' '] fs l (white_eq ▸ hw) (white_eq ▸ hwhite) hl)).1

/-- A record of five fields and a text is validated exactly if every word of the text is recognised, apart from the first if that is a label. -/
theorem stm_record (language : String) (fs : List (List Char)) (hf : ∀ w ∈ fs, Some (fun c => !white c) w ∧ ';' ∉ w) (hfl : fs.length = 5)
    (ts : List (List Char)) (text : List Char) (hl : Layout ts text) (hs : ';' ∉ text) :
    stmValid language [spaced fs ++ text] = true ↔
      ∀ (t : List Char), t ∈ ts → (∀ w ws, ts = w :: ws → Label w → t ∈ ws) → (if language = "english" then english t else other t) = true := by
  rw [white_eq] at hf
  rw [validated_one, load_spaced fs text (fun w hw => (hf w hw).1) (by rintro rfl; cases hfl) (by omega) (fun w hw => (hf w hw).2) hs, hfl]
  obtain ⟨_, d, l', rfl, hd⟩ := (layout_iff _ _).1 hl
  have hdw : (d :: l').dropWhile space = d :: l' := by rw [List.dropWhile_cons, hd]; rfl
  rw [hdw]
  obtain ⟨w, ws, rfl, hw, hcase⟩ := splitN_one hl
  have hall : ∀ l : List (List Char), l.all (if language = "english" then english else other) = true ↔
      ∀ t ∈ l, (if language = "english" then english t else other t) = true := by
    intro l
    rw [List.all_eq_true]
    split <;> rfl
  have hsplitw : split w = [w] := by
    have := ((layout_iff _ _).1 (Layout.last w [] hw (by simp))).1
    rwa [List.append_nil] at this
  dsimp only
  rw [hall]
  have key : (Label w → split (textOf (fs ++ splitN 1 (d :: l'))) = ws) ∧ (¬ Label w → split (textOf (fs ++ splitN 1 (d :: l'))) = w :: ws) := by
    unfold textOf
    rw [List.getElem?_append_right (by omega), List.getElem?_append_right (by omega), hfl]
    rcases hcase with ⟨rfl, e⟩ | ⟨l, e, e1, e2⟩
    · rw [e]
      simp only [Nat.sub_self, List.getElem?_cons_zero]
      refine ⟨fun hL => ?_, fun hL => ?_⟩
      · rw [if_pos ((run_label w).2 hL)]; rfl
      · rw [if_neg (fun h => hL ((run_label w).1 h))]; exact hsplitw
    · rw [e]
      simp only [Nat.sub_self, List.getElem?_cons_zero, show 6 - 5 = 1 from rfl, List.getElem?_cons_succ]
      refine ⟨fun hL => ?_, fun hL => ?_⟩
      · rw [if_pos ((run_label w).2 hL)]; exact e1
      · rw [if_neg (fun h => hL ((run_label w).1 h))]; exact e2
  by_cases hL : Label w
  · have key' : split (textOf (fs ++ splitN (6 - 5) (d :: l'))) = ws := key.1 hL
    rw [key']
    constructor
    · intro h t _ ht; exact h t (ht w ws rfl hL)
    · intro h t ht
      refine h t (by simp [ht]) ?_
      intro w' ws' e _
      simp only [List.cons.injEq] at e
      rw [← e.2]; exact ht
  · have key' : split (textOf (fs ++ splitN (6 - 5) (d :: l'))) = w :: ws := key.2 hL
    rw [key']
    constructor
    · intro h t ht _; exact h t ht
    · intro h t ht
      refine h t ht ?_
      intro w' ws' e hL'
      simp only [List.cons.injEq] at e
      exact absurd (e.1 ▸ hL') hL

/-- The first five fields are never looked at: whatever is in place of the times, channel or speaker, the verdict is the same. -/
theorem stm_fields_ignored (language : String) (fs gs : List (List Char)) (rest : List Char) (hf : ∀ w ∈ fs, Some (fun c => !space c) w ∧ ';' ∉ w)
    (hg : ∀ w ∈ gs, Some (fun c => !space c) w ∧ ';' ∉ w) (hfl : fs.length = 5) (hgl : gs.length = 5) (hr : ';' ∉ rest) :
    stmValid language [spaced fs ++ rest] = stmValid language [spaced gs ++ rest] := by
  rw [validated_one, validated_one, load_spaced fs rest (fun w hw => (hf w hw).1) (by rintro rfl; cases hfl) (by omega) (fun w hw => (hf w hw).2) hr,
    load_spaced gs rest (fun w hw => (hg w hw).1) (by rintro rfl; cases hgl) (by omega) (fun w hw => (hg w hw).2) hr, hfl, hgl]
  have : ∀ (l : List (List Char)), textOf (fs ++ l) = textOf (gs ++ l) := by
    intro l
    unfold textOf
    rw [List.getElem?_append_right (by omega), List.getElem?_append_right (by omega), List.getElem?_append_right (by omega),
      List.getElem?_append_right (by omega), hfl, hgl]
  rw [this]

/-- A record with less than five fields is validated. -/
theorem stm_short_counterexample (language : String) (fs : List (List Char)) (hf : ∀ w ∈ fs, Some (fun c => !space c) w ∧ ';' ∉ w) (hne : fs ≠ [])
    (hl : fs.length < 5) : stmValid language [spaced fs] = true := by
  have := load_spaced fs [] (fun w hw => (hf w hw).1) hne (by omega) (fun w hw => (hf w hw).2) (by simp)
  rw [List.append_nil] at this
  rw [validated_one, this]
  have hs : ∀ n, splitN n [] = [[]] := by intro n; cases n <;> rfl
  have ht : textOf (fs ++ splitN (6 - fs.length) ([].dropWhile space)) = [] := by
    rw [List.dropWhile_nil, hs]
    unfold textOf
    rw [List.getElem?_eq_none (by simp; omega)]
  rw [ht]
  rfl

/-- What stands after two semicolons anywhere in a record is not looked at. -/
theorem stm_comment_ignored (language : String) (a b : List Char) (ha : ';' ∉ a) (hq : '"' ∉ a ++ b) :
    stmValid language [a ++ ';' :: ';' :: b] = stmValid language [a] := by
  have h1 : '"' ∉ a ++ ';' :: ';' :: b := by
    intro h
    apply hq
    simp at h ⊢
    exact h
  rw [validated_one, validated_one, load_plain a ha]
  unfold load
  rw [header_quote _ _ h1, header_quote _ _ h1, cut_semi a b ha]
  rfl

/-- A record with text for times is validated, and one with a rejected word after semicolons. -/
theorem stm_counterexample :
    stmValid "english" ["f 1 spk late soon <o> yes".toList, "f".toList, "f 1 spk 0 1 <o> yes ;; 100%".toList] = true ∧
      stmValid "english" ["f 1 spk 0 1 <o> yes 100%".toList] = false := by decide +kernel

example : stmValid "english" ["f 1 spk 0 1 <o> it's (%hesitation) { a / b }".toList, ";; x".toList, ";; LABEL \"a\" \"b\" \"c\"".toList] = true := by decide +kernel

end Verif.TextVal
