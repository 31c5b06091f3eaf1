import Verif.StmIn.Spec
import Verif.CtmIn.Run
import Verif.Rfilter.File
/-!
# Finding the parts of a line
-/
set_option autoImplicit false
namespace Verif.StmIn
open Verif.Lines (cstr isSpace cstr_eq)
open Verif.CtmIn (Blank Fields scan Out isSpace_iff wordsFrom wordsFrom_fields)
open Verif.Rfilter (strstr strstr_first)

theorem at_drop {p : Nat} {w l : List Nat} : At p w l ↔ At 0 w (l.drop p) := by simp [At]

theorem at_le {p : Nat} {w l : List Nat} (h : At p w l) (hw : w ≠ []) : p + w.length ≤ l.length := by
  obtain ⟨y, hy⟩ := h
  have := congrArg List.length hy
  rw [List.length_drop, List.length_append] at this
  have : 0 < w.length := List.length_pos_iff.2 hw
  omega

theorem has_iff_at {w l : List Nat} : Has w l ↔ ∃ p, At p w l := by
  constructor
  · rintro ⟨x, y, rfl⟩
    exact ⟨x.length, y, by simp⟩
  · rintro ⟨p, y, hy⟩
    exact ⟨l.take p, y, by rw [← hy, List.take_append_drop]⟩

/-- `find` gives the first place. -/
theorem strstr_iff {w l : List Nat} (hw : w ≠ []) (p : Nat) : strstr w l = some p ↔ At p w l ∧ ∀ q, q < p → ¬ At q w l := by
  induction l generalizing p with
  | nil =>
    rw [strstr, if_neg hw]
    constructor
    · intro h; cases h
    · rintro ⟨h, _⟩
      have := at_le h hw
      have h2 : 0 < w.length := List.length_pos_iff.2 hw
      rw [List.length_nil] at this
      omega
  | cons a l ih =>
    rw [strstr]
    by_cases hp : w.isPrefixOf (a :: l) = true
    · rw [if_pos hp]
      obtain ⟨y, hy⟩ := List.isPrefixOf_iff_prefix.1 hp
      have h0 : At 0 w (a :: l) := ⟨y, hy.symm⟩
      constructor
      · intro h
        cases h
        exact ⟨h0, fun q hq => absurd hq (Nat.not_lt_zero q)⟩
      · rintro ⟨_, h⟩
        cases p with
        | zero => rfl
        | succ p => exact absurd h0 (h 0 (by omega))
    · rw [if_neg hp]
      have h0 : ¬ At 0 w (a :: l) := by
        rintro ⟨y, hy⟩
        exact hp (List.isPrefixOf_iff_prefix.2 ⟨y, hy.symm⟩)
      cases p with
      | zero =>
        constructor
        · intro h
          cases hs : strstr w l with
          | none => rw [hs] at h; cases h
          | some j => rw [hs] at h; simp at h
        · rintro ⟨h, _⟩
          exact absurd h h0
      | succ p =>
        have : Option.map (· + 1) (strstr w l) = some (p + 1) ↔ strstr w l = some p := by
          cases strstr w l <;> simp
        rw [this, ih]
        constructor
        · rintro ⟨h1, h2⟩
          refine ⟨h1, fun q hq => ?_⟩
          cases q with
          | zero => exact h0
          | succ q => exact h2 q (by omega)
        · rintro ⟨h1, h2⟩
          exact ⟨h1, fun q hq => h2 (q + 1) (by omega)⟩

theorem strstr_none_iff {w l : List Nat} (hw : w ≠ []) : strstr w l = none ↔ ¬ Has w l := by
  constructor
  · intro h hh
    have := Verif.Rfilter.strstr_some (pat := w) (l := l) hh
    rw [h] at this
    cases this
  · intro h
    exact Verif.Rfilter.strstr_none hw h

/-- A word that begins before a blank ends before it. -/
theorem at_before_blank {p : Nat} {w x y : List Nat} {b : Nat} (hw : ∀ c ∈ w, ¬ Blank c) (hb : Blank b) (h : At p w (x ++ b :: y))
    (hp : p ≤ x.length) : At p w x := by
  obtain ⟨z, hz⟩ := h
  rw [List.drop_append_of_le_length hp] at hz
  rcases List.append_eq_append_iff.1 hz with ⟨a, h1, h2⟩ | ⟨a, h1, h2⟩
  · cases a with
    | nil => exact ⟨[], by simpa using h1.symm⟩
    | cons c a =>
      simp only [List.cons_append, List.cons.injEq] at h2
      obtain ⟨rfl, _⟩ := h2
      exact absurd hb (hw b (by rw [h1]; simp))
  · exact ⟨a, h1⟩

/-- A word in a list of fields is in one of the fields. -/
theorem lead_at {fs : List (List Nat)} {line rest : List Nat} (h : Lead fs line rest) {w : List Nat} (hw : ∀ c ∈ w, ¬ Blank c) (hne : w ≠ [])
    {p : Nat} (ha : At p w line) (hp : p < line.length - rest.length) : ∃ f ∈ fs, Has w f := by
  induction h generalizing p with
  | nil l => omega
  | cons s f r fs rest hs hf hn hb hl ih =>
    by_cases h1 : p < s.length
    · -- a blank
      exfalso
      obtain ⟨y, hy⟩ := ha
      rw [List.drop_append_of_le_length (by omega)] at hy
      obtain ⟨c, cs, hc⟩ := List.exists_cons_of_ne_nil hne
      have hd : s.drop p = s[p] :: s.drop (p + 1) := by rw [List.drop_eq_getElem_cons h1]
      rw [hd, hc] at hy
      simp only [List.cons_append, List.cons.injEq] at hy
      have := hs s[p] (List.getElem_mem h1)
      rw [hy.1] at this
      exact hw c (by rw [hc]; simp) this
    · by_cases h2 : p ≤ s.length + f.length
      · -- in this field
        have hin : At p w (s ++ f) := by
          cases r with
          | nil => simpa using ha
          | cons b r =>
            refine at_before_blank (y := r) hw (hb b rfl) ?_ (by rw [List.length_append]; exact h2)
            rw [List.append_assoc]; exact ha
        refine ⟨f, by simp, has_iff_at.2 ⟨p - s.length, ?_⟩⟩
        obtain ⟨y, hy⟩ := hin
        refine ⟨y, ?_⟩
        rw [← hy, List.drop_append, List.drop_eq_nil_of_le (i := p) (as := s) (by omega), List.nil_append]
      · obtain ⟨y, hy⟩ := ha
        rw [List.drop_append, List.drop_eq_nil_of_le (i := p) (as := s) (by omega), List.nil_append, List.drop_append,
          List.drop_eq_nil_of_le (as := f) (by omega), List.nil_append] at hy
        obtain ⟨f', hf', hh⟩ := ih (p := p - s.length - f.length) ⟨y, hy⟩ (by
          rw [List.length_append, List.length_append] at hp
          omega)
        exact ⟨f', by simp [hf'], hh⟩

theorem lead_fields {fs : List (List Nat)} {line rest : List Nat} (h : Lead fs line rest) {ws : List (List Nat)} (hr : Fields rest ws) :
    Fields line (fs ++ ws) := by
  induction h with
  | nil l => exact hr
  | cons s f r fs rest hs hf hn hb hl ih => exact .cons s f r (fs ++ ws) hs hf hn hb (ih hr)

theorem lead_suffix {fs : List (List Nat)} {line rest : List Nat} (h : Lead fs line rest) :
    ∃ x, line = x ++ rest ∧ ∀ c ∈ x, Blank c ∨ ∃ f ∈ fs, c ∈ f := by
  induction h with
  | nil l => exact ⟨[], rfl, by simp⟩
  | cons s f r fs rest hs hf hn hb hl ih =>
    obtain ⟨x, hx, hc⟩ := ih
    refine ⟨s ++ (f ++ x), by rw [hx]; simp, fun c hm => ?_⟩
    rcases List.mem_append.1 hm with h | h
    · exact .inl (hs c h)
    · rcases List.mem_append.1 h with h | h
      · exact .inr ⟨f, by simp, h⟩
      · rcases hc c h with h | ⟨g, hg, h⟩
        · exact .inl h
        · exact .inr ⟨g, by simp [hg], h⟩

/-- The first of several fields, and the others. -/
theorem lead_head {f : List Nat} {fs : List (List Nat)} {line rest : List Nat} (h : Lead (f :: fs) line rest) :
    ∃ s r, line = s ++ (f ++ r) ∧ f ≠ [] ∧ (∀ b ∈ f, ¬ Blank b) ∧ (∀ b ∈ s, Blank b) ∧ (∀ b, r.head? = some b → Blank b) ∧
      Lead fs r rest := by
  cases h with
  | cons s f r fs rest hs hf hn hb hl => exact ⟨s, r, rfl, hf, hn, hs, hb, hl⟩

/-- A word does not begin with a blank. -/
theorem at_blanks {p : Nat} {w x s y : List Nat} (hne : w ≠ []) (hw : ∀ c ∈ w, ¬ Blank c) (hs : ∀ b ∈ s, Blank b)
    (h : At p w (x ++ (s ++ y))) (h1 : x.length ≤ p) (h2 : p < x.length + s.length) : False := by
  obtain ⟨z, hz⟩ := h
  rw [List.drop_append, List.drop_eq_nil_of_le (as := x) h1, List.nil_append, List.drop_append_of_le_length (by omega),
    List.drop_eq_getElem_cons (l := s) (by omega)] at hz
  obtain ⟨c, cs, hc⟩ := List.exists_cons_of_ne_nil hne
  rw [hc] at hz
  simp only [List.cons_append, List.cons.injEq] at hz
  exact hw c (by rw [hc]; simp) (hz.1 ▸ hs _ (List.getElem_mem _))

theorem lead_append {fs gs : List (List Nat)} {line rest : List Nat} (h : Lead (fs ++ gs) line rest) :
    ∃ mid, Lead fs line mid ∧ Lead gs mid rest := by
  induction fs generalizing line with
  | nil => exact ⟨line, .nil line, h⟩
  | cons f fs ih =>
    cases h with
    | cons s f r fs rest hs hf hn hb hl =>
      obtain ⟨mid, h1, h2⟩ := ih hl
      exact ⟨mid, .cons s f r _ mid hs hf hn hb h1, h2⟩

theorem lead_join {fs gs : List (List Nat)} {line mid rest : List Nat} (h1 : Lead fs line mid) (h2 : Lead gs mid rest) :
    Lead (fs ++ gs) line rest := by
  induction h1 with
  | nil l => exact h2
  | cons s f r fs mid hs hf hn hb hl ih => exact .cons s f r _ rest hs hf hn hb (ih h2)

theorem strstr_char {c : Nat} {x y : List Nat} (h : c ∉ x) : strstr [c] (x ++ (c :: y)) = some x.length := by
  refine (strstr_iff (by simp) _).2 ⟨⟨y, by simp⟩, fun q hq ⟨z, hz⟩ => h ?_⟩
  rw [List.drop_append_of_le_length (by omega), List.drop_eq_getElem_cons hq] at hz
  simp only [List.cons_append, List.nil_append, List.cons.injEq] at hz
  rw [← hz.1]
  exact List.getElem_mem hq

theorem strstr_nochar {c : Nat} {x : List Nat} (h : c ∉ x) : strstr [c] x = none := by
  refine (strstr_none_iff (by simp)).2 ?_
  rintro ⟨a, b, rfl⟩
  exact h (by simp)

/-- The place where the transcript begins, when the times can be found. -/
theorem begin_apart {f c k s e line rest : List Nat} (h : Lead [f, c, k, s, e] line rest) (ha : Apart f c k s e) :
    line.drop ((strstr s line).getD 0 + 1 + (strstr e (line.drop ((strstr s line).getD 0 + 1))).getD 0 + e.length) = rest := by
  obtain ⟨m3, h3, h2⟩ := lead_append (fs := [f, c, k]) (gs := [s, e]) h
  obtain ⟨x3, e3, c3⟩ := lead_suffix h3
  obtain ⟨s4, r4, e4, hsne, hsnb, hs4, hb4, hl4⟩ := lead_head h2
  obtain ⟨s5, r5, e5, hene, henb, hs5, hb5, hl5⟩ := lead_head hl4
  have hr5 : r5 = rest := by cases hl5; rfl
  subst hr5
  -- where the times are
  have hS : line = (x3 ++ s4) ++ (s ++ (s5 ++ (e ++ r5))) := by rw [e3, e4, e5]; simp
  have hE : line = (x3 ++ s4 ++ s) ++ (s5 ++ (e ++ r5)) := by rw [hS]; simp
  have hE' : line = (x3 ++ s4 ++ s ++ s5) ++ (e ++ r5) := by rw [hS]; simp
  have atS : At (x3 ++ s4).length s line := ⟨s5 ++ (e ++ r5), by conv => lhs; rw [hS, List.drop_left]⟩
  have atE : At (x3 ++ s4 ++ s ++ s5).length e line := ⟨r5, by conv => lhs; rw [hE', List.drop_left]⟩
  have hspos : 0 < s.length := List.length_pos_iff.2 hsne
  have len1 : (x3 ++ s4 ++ s).length = (x3 ++ s4).length + s.length := List.length_append
  have len2 : (x3 ++ s4 ++ s ++ s5).length = (x3 ++ s4 ++ s).length + s5.length := List.length_append
  obtain ⟨ps, hps⟩ : ∃ ps, strstr s line = some ps := by
    cases hq : strstr s line with
    | none => exact absurd (has_iff_at.2 ⟨_, atS⟩) ((strstr_none_iff hsne).1 hq)
    | some ps => exact ⟨ps, rfl⟩
  rw [hps]
  show line.drop (ps + 1 + (strstr e (line.drop (ps + 1))).getD 0 + e.length) = r5
  have hps' := (strstr_iff hsne ps).1 hps
  have hle : ps ≤ (x3 ++ s4).length := Nat.le_of_not_lt (fun hlt => hps'.2 _ hlt atS)
  have atE2 : At ((x3 ++ s4 ++ s ++ s5).length - (ps + 1)) e (line.drop (ps + 1)) := by
    obtain ⟨y, hy⟩ := atE
    refine ⟨y, ?_⟩
    rw [List.drop_drop, ← hy]
    congr 1
    omega
  obtain ⟨d, hd⟩ : ∃ d, strstr e (line.drop (ps + 1)) = some d := by
    cases hq : strstr e (line.drop (ps + 1)) with
    | none => exact absurd (has_iff_at.2 ⟨_, atE2⟩) ((strstr_none_iff hene).1 hq)
    | some d => exact ⟨d, rfl⟩
  rw [hd]
  have hd' := (strstr_iff hene d).1 hd
  have hdle : d ≤ (x3 ++ s4 ++ s ++ s5).length - (ps + 1) := Nat.le_of_not_lt (fun hlt => hd'.2 _ hlt atE2)
  have hdone : d = (x3 ++ s4 ++ s ++ s5).length - (ps + 1) → line.drop (ps + 1 + d + e.length) = r5 := by
    intro hdd
    have : ps + 1 + d + e.length = (x3 ++ s4 ++ s ++ s5 ++ e).length := by rw [List.length_append]; omega
    rw [this]
    have : line = (x3 ++ s4 ++ s ++ s5 ++ e) ++ r5 := by rw [hE']; simp
    rw [this, List.drop_left]
  apply hdone
  refine Classical.byContradiction (fun hnd => ?_)
  have hat : At (ps + 1 + d) e line := by
    obtain ⟨y, hy⟩ := hd'.1
    exact ⟨y, by rw [← hy, List.drop_drop]⟩
  -- it begins in front of the blanks before the end time
  have hlt : ps + 1 + d < (x3 ++ s4 ++ s).length := by
    refine Classical.byContradiction (fun hge => ?_)
    rw [hE] at hat
    exact at_blanks hene henb hs5 hat (by omega) (by omega)
  have hlen : line.length = (x3 ++ s4).length + s.length + r4.length := by rw [e3, e4]; simp only [List.length_append]; omega
  rcases ha with ⟨n1, n2, n3, n4⟩ | ⟨n1, n2, n3, n4⟩
  · have h4 : Lead [f, c, k, s] line r4 := by
      refine lead_join h3 (gs := [s]) ?_
      rw [e4]
      exact .cons s4 s r4 [] r4 hs4 hsne hsnb hb4 (.nil r4)
    obtain ⟨g, hg, hh⟩ := lead_at h4 henb hene hat (by omega)
    simp only [List.mem_cons, List.not_mem_nil, or_false] at hg
    rcases hg with rfl | rfl | rfl | rfl
    exact n1 hh; exact n2 hh; exact n3 hh; exact n4 hh
  · have hpsS : ps = (x3 ++ s4).length := by
      refine Classical.byContradiction (fun hne' => ?_)
      have hlt' : ps < x3.length := by
        refine Classical.byContradiction (fun hge => ?_)
        have := hps'.1
        rw [e3, e4] at this
        rw [List.length_append] at hle hne'
        exact at_blanks hsne hsnb hs4 this (by omega) (by omega)
      obtain ⟨g, hg, hh⟩ := lead_at h3 hsnb hsne hps'.1 (by rw [e3, List.length_append]; omega)
      simp only [List.mem_cons, List.not_mem_nil, or_false] at hg
      rcases hg with rfl | rfl | rfl
      exact n1 hh; exact n2 hh; exact n3 hh
    have hin : At (ps + 1 + d) e (x3 ++ s4 ++ s) := by
      cases s5 with
      | nil =>
        exfalso
        obtain ⟨b, bs, hbs⟩ := List.exists_cons_of_ne_nil hene
        exact henb b (by rw [hbs]; simp) (hb4 b (by rw [e5, hbs]; rfl))
      | cons b s5 => exact at_before_blank (y := s5 ++ (e ++ r5)) henb (hs5 b (by simp)) (by rw [hE] at hat; simpa using hat) (by omega)
    apply n4
    refine has_iff_at.2 ⟨d, ?_⟩
    obtain ⟨y, hy⟩ := hin
    refine ⟨y, ?_⟩
    rw [← hy, List.drop_append, List.drop_eq_nil_of_le (as := x3 ++ s4) (by omega), List.nil_append, ← List.drop_one, List.drop_drop]
    congr 1
    omega

theorem lowerByte_eq {b g : Nat} (hg : ¬ (65 ≤ g ∧ g ≤ 90)) : lowerByte b = g ↔ b = g ∨ (97 ≤ g ∧ g ≤ 122 ∧ b = g - 32) := by
  unfold lowerByte
  split <;> omega

theorem inCase_iff {m g : List Nat} (hg : ∀ b ∈ g, ¬ (65 ≤ b ∧ b ≤ 90)) : InCase m g ↔ lower m = g := by
  constructor
  · intro h
    induction h with
    | nil => rfl
    | same b m g _ ih =>
      show lowerByte b :: lower m = _
      rw [ih (fun c hc => hg c (by simp [hc])), (lowerByte_eq (hg b (by simp))).2 (.inl rfl)]
    | capital b m g h1 h2 _ ih =>
      show lowerByte (b - 32) :: lower m = _
      rw [ih (fun c hc => hg c (by simp [hc])), (lowerByte_eq (hg b (by simp))).2 (.inr ⟨h1, h2, rfl⟩)]
  · induction m generalizing g with
    | nil =>
      intro h
      cases h
      exact .nil
    | cons a m ih =>
      intro h
      cases h
      have ih' := ih (g := lower m) (fun c hc => hg c (by show c ∈ lowerByte a :: lower m; simp [hc])) rfl
      show InCase (a :: m) (lowerByte a :: lower m)
      rcases (lowerByte_eq (b := a) (hg (lowerByte a) (by show lowerByte a ∈ lowerByte a :: lower m; simp))).1 rfl with h | ⟨h1, h2, h3⟩
      · rw [← h]
        exact .same _ _ _ ih'
      · rw [h3]
        have := InCase.capital _ _ _ h1 h2 ih'
        rw [← h3] at this ⊢
        exact this

theorem marked_iff (t : List Nat) : (strstr ignoreMark (lower t)).isSome = true ↔ Marked t := by
  have hlow : ∀ b ∈ ignoreMark, ¬ (65 ≤ b ∧ b ≤ 90) := by decide
  have hhas : Has ignoreMark (lower t) ↔ Marked t := by
    constructor
    · rintro ⟨x, y, h⟩
      obtain ⟨t1, t2, ht, h1, h2⟩ := List.map_eq_append_iff.1 h
      obtain ⟨t3, t4, ht', h3, h4⟩ := List.map_eq_append_iff.1 h2
      exact ⟨t3, (inCase_iff hlow).2 h3, t1, t4, by rw [ht, ht']⟩
    · rintro ⟨m, hm, x, y, rfl⟩
      exact ⟨lower x, lower y, by rw [← (inCase_iff hlow).1 hm]; simp [lower]⟩
  rw [← hhas]
  constructor
  · intro h
    refine Classical.byContradiction (fun hn => ?_)
    rw [(strstr_none_iff (by decide)).2 hn] at h
    cases h
  · intro h
    exact Verif.Rfilter.strstr_some h

theorem textOf_eq {t : List Nat} {x : Option (List Nat)} (h : TextOf t x) : (if (strstr ignoreMark (lower t)).isSome then none else some t) = x := by
  rcases h with ⟨h, rfl⟩ | ⟨h, rfl⟩
  · rw [if_pos ((marked_iff t).2 h)]
  · rw [if_neg (fun hs => h ((marked_iff t).1 hs))]

theorem lower_zero {k : List Nat} (h : 0 ∉ k) : 0 ∉ lower k := by
  intro hm
  obtain ⟨b, hb, he⟩ := List.mem_map.1 hm
  unfold lowerByte at he
  split at he
  · omega
  · exact h (he ▸ hb)

/-- The name of the speaker under which a segment is filed. -/
theorem named_eq {junk k : List Nat} (h : junk.head? = some 0 ∨ ¬ lower k <+: gapName) (h0 : 0 ∉ k) :
    (if isGap junk k then lower k else k) = if lower k = gapName then gapName else k := by
  have h0' := lower_zero h0
  by_cases hg : lower k = gapName
  · have : isGap junk k = true := by
      rcases h with h | h
      · cases junk with
        | nil => cases h
        | cons b junk =>
          have : b = 0 := by simpa using h
          subst this
          refine decide_eq_true ?_
          rw [hg]
          rfl
      · exact absurd ⟨[], by rw [List.append_nil]; exact hg⟩ h
    rw [if_pos this, if_pos hg, hg]
  · have : ¬ isGap junk k = true := by
      intro ht
      have ht := of_decide_eq_true ht
      rcases h with h | h
      · cases junk with
        | nil => cases h
        | cons b junk =>
          have : b = 0 := by simpa using h
          subst this
          apply hg
          rw [← ht, cstr, List.takeWhile_append_of_pos]
          · simp
          · intro c hc
            exact decide_eq_true (fun e : c = 0 => h0' (e ▸ hc))
      · apply h
        rw [← ht, cstr, List.takeWhile_append_of_pos]
        · exact ⟨_, rfl⟩
        · intro c hc
          exact decide_eq_true (fun e : c = 0 => h0' (e ▸ hc))
    rw [if_neg this, if_neg hg]

theorem gapName_low : ∀ b ∈ gapName, ¬ (65 ≤ b ∧ b ≤ 90) := by decide

theorem settled_iff {junk k : List Nat} : Settled junk k ↔ (junk.head? = some 0 ∨ ¬ lower k <+: gapName) := by
  have hl : ∀ g, g <+: gapName → ∀ b ∈ g, ¬ (65 ≤ b ∧ b ≤ 90) := fun g hg b hb => gapName_low b (hg.subset hb)
  constructor
  · rintro (h | h)
    · exact .inl h
    · exact .inr (fun hp => h _ hp ((inCase_iff (hl _ hp)).2 rfl))
  · rintro (h | h)
    · exact .inl h
    · exact .inr (fun g hg hc => h (by rw [(inCase_iff (hl g hg)).1 hc]; exact hg))

/-- A segment as it is filed. -/
theorem named_raw {junk : List Nat} {r r' : Raw} (h : Named r r') (hj : Settled junk r.spkr) (h0 : 0 ∉ r.spkr) :
    ({ r with spkr := if isGap junk r.spkr then lower r.spkr else r.spkr } : Raw) = r' := by
  rw [named_eq (settled_iff.1 hj) h0]
  rcases h with ⟨h, rfl⟩ | ⟨h, rfl⟩
  · rw [if_pos ((inCase_iff gapName_low).1 h)]
  · rw [if_neg (fun e => h ((inCase_iff gapName_low).2 e))]

theorem fields_head {b : Nat} {l : List Nat} {ws : List (List Nat)} (hb : ¬ Blank b) (h : Fields (b :: l) ws) :
    ∃ w, ws.head? = some w ∧ w.head? = some b := by
  generalize hx : b :: l = x at h
  cases h with
  | nil s hs => exact absurd (hs b (by rw [← hx]; simp)) hb
  | cons s f r fs hs hf hn hbb hl =>
    cases s with
    | cons c s =>
      simp only [List.cons_append, List.cons.injEq] at hx
      exact absurd (hs c (by simp)) (hx.1 ▸ hb)
    | nil =>
      obtain ⟨c, cs, hc⟩ := List.exists_cons_of_ne_nil hf
      rw [hc] at hx
      simp only [List.nil_append, List.cons_append, List.cons.injEq] at hx
      exact ⟨f, rfl, by rw [hc, hx.1]; rfl⟩

theorem fields_blanks {g l : List Nat} {ws : List (List Nat)} (hg : ∀ b ∈ g, Blank b) (h : Fields l ws) : Fields (g ++ l) ws := by
  cases h with
  | nil s hs => exact .nil _ (fun b hb => (List.mem_append.1 hb).elim (hg b) (hs b))
  | cons s f r fs hs hf hn hbb hl =>
    rw [← List.append_assoc]
    exact .cons _ f r fs (fun b hb => (List.mem_append.1 hb).elim (hg b) (hs b)) hf hn hbb hl

theorem fields_mem {l : List Nat} {ws : List (List Nat)} (h : Fields l ws) {w : List Nat} (hw : w ∈ ws) : ∀ c ∈ w, c ∈ l := by
  induction h with
  | nil s hs => cases hw
  | cons s f r fs hs hf hn hbb hl ih =>
    intro c hc
    rcases List.mem_cons.1 hw with rfl | hw
    · simp [hc]
    · simp [ih hw c hc]

/-- A line as it is read. -/
theorem raw_says {ms : List Nat → Int} {junk line : List Nat} {r r' : Raw} (h : Says ms line r) (hj : Settled junk r.spkr)
    (hn : Named r r') : raw ms junk line = .ok r' := by
  cases h with
  | plain f c k s e rest ws x hl hw hfit h0 h60 h59 ha ht =>
    have hf := lead_fields hl hw
    have hscan : scan line = f :: c :: k :: s :: e :: ws.take 1 := by
      rw [scan, cstr_eq (fun c hc e => h0 (e ▸ hc)), wordsFrom_fields hf]; rfl
    have hk0 : 0 ∉ k := fun h => h0 (fields_mem hf (w := k) (by simp) 0 h)
    have hsix : ¬ ((ws.take 1).head?.bind (·.head?) = some 60) := by
      cases ws with
      | nil => simp
      | cons w ws =>
        intro h
        have h : w.head? = some 60 := by simpa using h
        exact h60 (fields_mem hf (w := w) (by simp) 60 (List.mem_of_head? h))
    rw [raw, if_neg (by
      rw [hscan, List.any_eq_true]
      rintro ⟨t, ht, hlen⟩
      have := hfit t ht
      simp only [decide_eq_true_eq] at hlen
      omega), hscan]
    show Out.ok _ = _
    rw [textBegin, if_neg hsix]
    show Out.ok (Raw.mk f c (if isGap junk k then lower k else k) (ms s) (ms e) (labelOf line) (if (strstr ignoreMark (lower (line.drop _))).isSome then none else some (line.drop _))) = _
    rw [begin_apart hl ha, textOf_eq ht, labelOf, strstr_nochar h60]
    exact congrArg Out.ok (named_raw hn hj hk0)
  | labelled f c k s e gap lab text ws x hl hg hlab htag hw hfit h0 h59 ht =>
    have hf := lead_fields hl (fields_blanks hg hw)
    have hscan : scan line = f :: c :: k :: s :: e :: ws.take 1 := by
      rw [scan, cstr_eq (fun c hc e => h0 (e ▸ hc)), wordsFrom_fields hf]; rfl
    have hk0 : 0 ∉ k := fun h => h0 (fields_mem hf (w := k) (by simp) 0 h)
    obtain ⟨w, hw1, hw2⟩ := fields_head (by unfold Blank; omega) hw
    have hsix : (ws.take 1).head?.bind (·.head?) = some 60 := by
      cases ws with
      | nil => cases hw1
      | cons w' ws =>
        cases hw1
        simpa using hw2
    rw [raw, if_neg (by
      rw [hscan, List.any_eq_true]
      rintro ⟨t, ht, hlen⟩
      have := hfit t ht
      simp only [decide_eq_true_eq] at hlen
      omega), hscan]
    obtain ⟨x0, hx0, hc0⟩ := lead_suffix hl
    have hno : ∀ b, (b = 60 ∨ b = 62) → b ∉ x0 ++ gap := by
      intro b hb hm
      have hnb : ¬ Blank b := by unfold Blank; omega
      rcases List.mem_append.1 hm with hm | hm
      · rcases hc0 b hm with h | ⟨t, ht, h⟩
        · exact hnb h
        · have := htag t ht
          rcases hb with rfl | rfl
          · exact this.1 h
          · exact this.2 h
      · exact hnb (hg b hm)
    have h60 : strstr [60] line = some (x0 ++ gap).length := by
      have : line = (x0 ++ gap) ++ (60 :: (lab ++ (62 :: text))) := by rw [hx0]; simp
      rw [this]
      exact strstr_char (hno 60 (.inl rfl))
    have hline : line = (x0 ++ gap ++ (60 :: lab)) ++ (62 :: text) := by rw [hx0]; simp
    have h62 : strstr [62] line = some (x0 ++ gap ++ (60 :: lab)).length := by
      rw [hline]
      refine strstr_char (fun hm => ?_)
      rcases List.mem_append.1 hm with hm | hm
      · exact hno 62 (.inr rfl) hm
      · rcases List.mem_cons.1 hm with hm | hm
        · omega
        · exact hlab hm
    show Out.ok _ = _
    rw [textBegin, if_pos hsix, h62]
    show Out.ok (Raw.mk f c (if isGap junk k then lower k else k) (ms s) (ms e) (labelOf line) (if (strstr ignoreMark (lower (line.drop _))).isSome then none else some (line.drop _))) = _
    have hdrop : line.drop ((x0 ++ gap ++ (60 :: lab)).length + 1) = text := by
      have h1 : line = (x0 ++ gap ++ (60 :: lab) ++ [62]) ++ text := by rw [hline]; simp
      have h2 : (x0 ++ gap ++ (60 :: lab)).length + 1 = (x0 ++ gap ++ (60 :: lab) ++ [62]).length := by rw [List.length_append (bs := [62])]; rfl
      rw [h2, h1, List.drop_left]
    have hlbl : labelOf line = 60 :: (lab ++ [62]) := by
      rw [labelOf, h60, h62]
      show (if (x0 ++ gap).length ≤ (x0 ++ gap ++ (60 :: lab)).length + 1 then _ else _) = _
      rw [if_pos (by simp only [List.length_append]; omega)]
      have h1 : line = (x0 ++ gap) ++ ((60 :: (lab ++ [62])) ++ text) := by rw [hline]; simp
      have h2 : (x0 ++ gap ++ (60 :: lab)).length + 1 - (x0 ++ gap).length = (60 :: (lab ++ [62])).length := by
        simp only [List.length_append, List.length_cons, List.length_nil]; omega
      rw [h2]
      conv => lhs; rw [h1, List.drop_left]
      rw [List.take_left]
    rw [hdrop, textOf_eq ht, hlbl]
    exact congrArg Out.ok (named_raw hn hj hk0)

end Verif.StmIn
