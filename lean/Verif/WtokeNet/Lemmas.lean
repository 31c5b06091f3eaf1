import Verif.WtokeNet.Nets
/-!
# Reading the lines
-/
set_option autoImplicit false
namespace Verif.WtokeNet
open Verif.Net Verif.Split Verif.Text
open Verif.Chop (Out)
open Verif.NetBuild (merge)

/-- The order of the words in the network. -/
def dir {A : Type} (ltr : Bool) (l : List A) : List A := if ltr then l else l.reverse

theorem dir_dir {A : Type} (ltr : Bool) (l : List A) : dir ltr (dir ltr l) = l := by
  cases ltr <;> simp [dir]

theorem dir_length {A : Type} (ltr : Bool) (l : List A) : (dir ltr l).length = l.length := by
  cases ltr <;> simp [dir]

/-! ### Words -/

theorem word_iff (enc : Enc) (hc : Bool) (t : Tok) (w : Wd) : wordOf enc hc t = some w ↔ IsWord enc hc t w := by
  unfold wordOf IsWord
  rw [Option.map_eq_some_iff]
  constructor
  · rintro ⟨p, h, e⟩
    subst e
    exact ⟨h, rfl, rfl, rfl⟩
  · rintro ⟨h, e1, e2, e3⟩
    refine ⟨w.parts, h, ?_⟩
    cases w
    simp only at e1 e2 e3
    subst e1 e2 e3
    rfl

theorem words_iff (enc : Enc) (hc : Bool) (ts : List Tok) (ws : List Wd) : ts.mapM (wordOf enc hc) = some ws ↔ AreWords enc hc ts ws := by
  induction ts generalizing ws with
  | nil =>
    constructor
    · intro h
      have : ws = [] := by simpa using h.symm
      subst this
      exact .nil
    · intro h; cases h; rfl
  | cons t ts ih =>
    rw [List.mapM_cons]
    constructor
    · intro h
      cases hw : wordOf enc hc t with
      | none => rw [hw] at h; simp at h
      | some w =>
        cases hs : ts.mapM (wordOf enc hc) with
        | none => rw [hw, hs] at h; simp at h
        | some l =>
          rw [hw, hs] at h
          have : ws = w :: l := by simpa using h.symm
          subst this
          exact .cons _ _ _ _ ((word_iff enc hc t w).1 hw) ((ih l).1 hs)
    · intro h
      cases h with
      | cons _ w _ l h1 h2 =>
        rw [(word_iff enc hc t w).2 h1, (ih l).2 h2]
        rfl

theorem word_exists {enc : Enc} (hc : Bool) {t : Tok} (h : HasWord enc t) : ∃ w, wordOf enc hc t = some w := by
  obtain ⟨p, hp⟩ := h
  exact ⟨_, by unfold wordOf; rw [hp]; rfl⟩

theorem words_exist {enc : Enc} (hc : Bool) : ∀ (ts : List Tok), (∀ t ∈ ts, HasWord enc t) →
    ∃ ws, ts.mapM (wordOf enc hc) = some ws ∧ ws.length = ts.length := by
  intro ts
  induction ts with
  | nil => intro _; exact ⟨[], rfl, rfl⟩
  | cons t ts ih =>
    intro h
    obtain ⟨w, hw⟩ := word_exists hc (h t (by simp))
    obtain ⟨ws, hws, hl⟩ := ih (fun u hu => h u (by simp [hu]))
    refine ⟨w :: ws, ?_, by simp [hl]⟩
    rw [List.mapM_cons, hw, hws]
    rfl

theorem areWords_unique {enc : Enc} {hc : Bool} {ts : List Tok} {l ws : List Wd} (h : ts.mapM (wordOf enc hc) = some l) :
    AreWords enc hc ts ws ↔ ws = l := by
  rw [← words_iff, h]
  constructor
  · intro e; cases e; rfl
  · intro e; rw [e]

theorem foldl_made (ltr : Bool) : ∀ (l : List Wd) (n : Net Wd) (k : Nat) (R : List Wd → Prop), Made n k (fun ws => R (dir ltr ws)) →
    Made (l.foldl (addWord ltr) n) (k + l.length) (fun ws => ∃ vs, R vs ∧ dir ltr ws = vs ++ l) ∧
      (l ≠ [] → (l.foldl (addWord ltr) n).stop ≠ none) := by
  intro l
  induction l with
  | nil =>
    intro n k R h
    refine ⟨h.congr fun ws => ?_, fun h => absurd rfl h⟩
    constructor
    · intro hr; exact ⟨_, hr, by simp⟩
    · rintro ⟨vs, hr, e⟩; rw [List.append_nil] at e; show R (dir ltr ws); rw [e]; exact hr
  | cons w l ih =>
    intro n k R h
    have step : (addWord ltr n w).stop ≠ none ∧ Made (addWord ltr n w) (k + 1) (fun ws => (fun us => ∃ vs, R vs ∧ us = vs ++ [w]) (dir ltr ws)) := by
      unfold addWord
      cases ltr with
      | true =>
        obtain ⟨h1, h2⟩ := addTail_made w h
        refine ⟨h1, h2.congr fun ws => ?_⟩
        exact Iff.rfl
      | false =>
        obtain ⟨h1, h2⟩ := addHead_made w h
        refine ⟨h1, h2.congr fun ws => ?_⟩
        constructor
        · rintro ⟨vs, hr, e⟩
          exact ⟨dir false vs, hr, by rw [e]; simp [dir]⟩
        · rintro ⟨vs, hr, e⟩
          refine ⟨vs.reverse, by simpa [dir] using hr, ?_⟩
          have : ws.reverse = vs ++ [w] := e
          rw [← List.reverse_reverse ws, this]
          simp
    obtain ⟨h3, h4⟩ := ih _ _ (fun us => ∃ vs, R vs ∧ us = vs ++ [w]) step.2
    refine ⟨?_, ?_⟩
    · have : k + (w :: l).length = k + 1 + l.length := by simp; omega
      rw [this]
      refine h3.congr fun ws => ?_
      constructor
      · rintro ⟨vs, ⟨us, hr, e⟩, e2⟩
        exact ⟨us, hr, by rw [e2, e]; simp⟩
      · rintro ⟨us, hr, e⟩
        exact ⟨us ++ [w], ⟨us, hr, rfl⟩, by rw [e]; simp⟩
    · intro _
      cases l with
      | nil => exact step.1
      | cons x l => exact h4 (by simp)

/-- A network of a few words. -/
theorem alt_made (ltr : Bool) (l : List Wd) (hl : l ≠ []) :
    Made (l.foldl (addWord ltr) (Net.init Wd)) l.length (fun ws => dir ltr ws = l) ∧ (l.foldl (addWord ltr) (Net.init Wd)).stop ≠ none := by
  have h0 : Made (Net.init Wd) 0 (fun ws => (fun us => us = []) (dir ltr ws)) :=
    made_init.congr fun ws => by cases ltr <;> simp [dir]
  obtain ⟨h1, h2⟩ := foldl_made ltr l _ _ (fun us => us = []) h0
  rw [Nat.zero_add] at h1
  exact ⟨h1.congr fun ws => ⟨fun ⟨vs, e, h⟩ => by subst e; exact h, fun h => ⟨[], rfl, h⟩⟩, h2 hl⟩

/-! ### Marks -/

theorem is_iff (m : List Nat) (t : Tok) : is m t = true ↔ Is m t.sp := by unfold is Is; exact decide_eq_true_iff
theorem isAlt_false {t : Tok} (h : Plain t) : isAlt t = false := by unfold isAlt; exact decide_eq_false h
theorem isAlt_of {m : List Nat} (hm : m.take 4 = stem) {t : Tok} (h : Is m t.sp) : isAlt t = true := by
  unfold isAlt; exact decide_eq_true (by rw [h]; exact hm)
theorem is_ne {m m' : List Nat} (hne : m ≠ m') {t : Tok} (h : Is m t.sp) : is m' t = false := by
  unfold is
  apply decide_eq_false
  intro e
  exact hne (h.symm.trans e)
theorem plain_not {m : List Nat} (hm : m.take 4 = stem) {t : Tok} (h : Plain t) : is m t = false := by
  unfold is
  apply decide_eq_false
  intro e
  exact h (by rw [e]; exact hm)

/-- The words of an alternative end at the next mark. -/
theorem takeAlt_words : ∀ (ws : List Tok) (x : Tok) (rest : List Tok) (k : Nat), (∀ t ∈ ws, Plain t) → isAlt x = true →
    takeAlt (ws ++ x :: rest) (ws.length + (k + 1)) = (ws, x :: rest, k + 1) := by
  intro ws
  induction ws with
  | nil =>
    intro x rest k _ hx
    rw [List.nil_append, List.length_nil, Nat.zero_add]
    unfold takeAlt
    rw [if_pos hx]
  | cons t ws ih =>
    intro x rest k h hx
    have e : (t :: ws).length + (k + 1) = (ws.length + (k + 1)) + 1 := by rw [List.length_cons]; omega
    rw [e, List.cons_append]
    unfold takeAlt
    rw [if_neg (by rw [isAlt_false (h t (by simp))]; simp), ih x rest k (fun u hu => h u (by simp [hu])) hx]

/-- The lines of the further alternatives. -/
def tailLines (more : List (Tok × List Tok)) : List Tok := more.flatMap (fun x => x.1 :: x.2)

/-- What the further alternatives can be read as. -/
def TailReads (enc : Enc) (hc : Bool) (more : List (Tok × List Tok)) (ws : List Wd) : Prop :=
  ∃ x ∈ more, (x.2 ≠ [] ∧ AreWords enc hc x.2 ws) ∨ (x.2 = [] ∧ ws = [nullWord hc x.1])

/-- The alternatives so far. -/
def SoFar (ltr : Bool) (acc : Option (Net Wd)) (k : Nat) (R : List Wd → Prop) : Prop :=
  match acc with
  | none => ∀ ws, ¬ R ws
  | some f => f.stop ≠ none ∧ Made f k (fun ws => R (dir ltr ws))

/-- One more alternative. -/
theorem join_made (ltr : Bool) {acc : Option (Net Wd)} {k j : Nat} {R Q : List Wd → Prop} {g : Net Wd} (h : SoFar ltr acc k R)
    (hs : g.stop ≠ none) (hg : Made g j (fun ws => Q (dir ltr ws))) :
    ∃ n, joinAlt acc g = .ok n ∧ SoFar ltr (some n) (k + j) (fun ws => R ws ∨ Q ws) := by
  cases acc with
  | none =>
    refine ⟨g, rfl, hs, ⟨hg.wf, hg.words, by have := hg.arcs; omega, fun ws => ?_⟩⟩
    rw [hg.lang ws]
    exact ⟨Or.inr, fun e => e.resolve_left (h _)⟩
  | some f =>
    obtain ⟨h1, h2⟩ := h
    obtain ⟨s, es⟩ := Option.ne_none_iff_exists'.1 h1
    obtain ⟨t, et⟩ := Option.ne_none_iff_exists'.1 hs
    obtain ⟨n, e1, e2, e3⟩ := parallel_made h2 hg es et
    refine ⟨n, ?_, by rw [e2]; simp, e3⟩
    unfold joinAlt
    simp only [es, e1]

/-- A round with a non-empty alternative. -/
theorem oneAlt_words (enc : Enc) (hc ltr : Bool) (ws : List Tok) (x : Tok) (rest : List Tok) (k : Nat) (hne : ws ≠ [])
    (hp : ∀ t ∈ ws, Plain t ∧ HasWord enc t) (hx : isAlt x = true) :
    ∃ g l, oneAlt enc hc ltr (ws ++ x :: rest) (ws.length + (k + 1)) = .ok (g, x :: rest, k + 1) ∧ g.stop ≠ none ∧
      ws.mapM (wordOf enc hc) = some l ∧ Made g ws.length (fun us => dir ltr us = l) := by
  obtain ⟨l, hl, hlen⟩ := words_exist hc ws (fun t ht => (hp t ht).2)
  have hln : l ≠ [] := by
    intro e; rw [e] at hlen
    exact hne (List.length_eq_zero_iff.1 hlen.symm)
  obtain ⟨h1, h2⟩ := alt_made ltr l hln
  refine ⟨_, l, ?_, h2, hl, hlen ▸ h1⟩
  unfold oneAlt
  rw [takeAlt_words ws x rest k (fun t ht => (hp t ht).1) hx]
  simp only [if_neg hne]
  unfold altWords
  rw [hl]
  rfl

/-- A round with an empty alternative. -/
theorem oneAlt_null (enc : Enc) (hc ltr : Bool) (x : Tok) (rest : List Tok) (k : Nat) (hx : isAlt x = true) :
    ∃ g, oneAlt enc hc ltr (x :: rest) (k + 1) = .ok (g, rest, k) ∧ g.stop ≠ none ∧
      Made g 1 (fun us => dir ltr us = [nullWord hc x]) := by
  obtain ⟨h1, h2⟩ := addTail_made (nullWord hc x) (made_init (W := Wd))
  refine ⟨_, ?_, h1, h2.congr fun ws => ?_⟩
  · unfold oneAlt
    have := takeAlt_words [] x rest k (by intro t h; cases h) hx
    rw [List.nil_append, List.length_nil, Nat.zero_add] at this
    rw [this]
    rfl
  · constructor
    · rintro ⟨vs, e, e2⟩; rw [e2, e]; cases ltr <;> simp [dir]
    · intro e
      refine ⟨[], rfl, ?_⟩
      rw [← dir_dir ltr ws, e]
      cases ltr <;> simp [dir]

theorem made_areWords {enc : Enc} {hc ltr : Bool} {ws : List Tok} {l : List Wd} {g : Net Wd} {k : Nat} (hl : ws.mapM (wordOf enc hc) = some l)
    (h : Made g k (fun us => dir ltr us = l)) : Made g k (fun us => AreWords enc hc ws (dir ltr us)) :=
  h.congr fun _ => (areWords_unique hl).symm

theorem isAlt_end {e : Tok} (h : Is endMark e.sp) : isAlt e = true := isAlt_of (by decide) h
theorem isAlt_or {e : Tok} (h : Is orMark e.sp) : isAlt e = true := isAlt_of (by decide) h

/-- The loop over the alternatives. -/
theorem altLoop_made (enc : Enc) (hc ltr : Bool) (e : Tok) (he : Is endMark e.sp) (after : List Tok) (k' : Nat) :
    ∀ (more : List (Tok × List Tok)) (f : Nat) (acc : Option (Net Wd)) (first : List Tok) (k : Nat) (R : List Wd → Prop),
      more.length < f → SoFar ltr acc k R → first ≠ [] → (∀ t ∈ first, Plain t ∧ HasWord enc t) →
      (∀ x ∈ more, Is orMark x.1.sp ∧ ∀ t ∈ x.2, Plain t ∧ HasWord enc t) → (∀ x ∈ more.dropLast, x.2 ≠ []) →
      ∃ n, altLoop enc hc ltr f acc (first ++ (tailLines more ++ e :: after)) (first.length + ((tailLines more).length + (k' + 1))) =
          .ok (n, e :: after, k' + 1) ∧
        SoFar ltr (some n) (k + (first.length + (tailLines more).length)) (fun ws => R ws ∨ AreWords enc hc first ws ∨ TailReads enc hc more ws) := by
  have hend : is endMark e = true := (is_iff _ _).2 he
  have hor : is orMark e = false := is_ne (by decide) he
  have stay : nextAlt (e :: after) (k' + 1) = .ok (e :: after, k' + 1) := by
    unfold nextAlt
    dsimp only
    rw [if_neg (by rw [hor]; simp), if_pos hend]
  have halt : more (e :: after) (k' + 1) = false := by
    show (!is endMark e) = false
    rw [hend]; rfl
  intro mr
  induction mr with
  | nil =>
    intro f acc first k R hf hacc hne hp _ _
    obtain ⟨f, rfl⟩ : ∃ g, f = g + 1 := ⟨f - 1, by omega⟩
    obtain ⟨g, l, h1, h2, h3, h4⟩ := oneAlt_words enc hc ltr first e after k' hne hp (isAlt_end he)
    obtain ⟨n, h5, h6⟩ := join_made ltr hacc h2 (made_areWords h3 h4)
    refine ⟨n, ?_, ?_⟩
    · have e1 : tailLines [] ++ e :: after = e :: after := rfl
      have e2 : (tailLines []).length + (k' + 1) = k' + 1 := by show 0 + _ = _; omega
      rw [e1, e2, altLoop, h1]
      simp only [Out.bind, h5, stay, halt]
      rfl
    · obtain ⟨h7, h8⟩ := h6
      refine ⟨h7, h8.congr fun ws => ?_⟩
      constructor
      · rintro (h | h)
        · exact Or.inl h
        · exact Or.inr (Or.inl h)
      · rintro (h | h | ⟨x, hx, _⟩)
        · exact Or.inl h
        · exact Or.inr h
        · cases hx
  | cons x mr ih =>
    intro f acc first k R hf hacc hne hp hmore hdl
    obtain ⟨f, rfl⟩ : ∃ g, f = g + 1 := ⟨f - 1, by omega⟩
    obtain ⟨s, alt⟩ := x
    obtain ⟨hs, halt2⟩ := hmore (s, alt) (by simp)
    have hsalt := isAlt_or hs
    have hsor : is orMark s = true := (is_iff _ _).2 hs
    have hsend : is endMark s = false := is_ne (by decide) hs
    have etl : tailLines ((s, alt) :: mr) = s :: (alt ++ tailLines mr) := by simp [tailLines]
    rw [List.length_cons] at hf
    have ek : first.length + ((tailLines ((s, alt) :: mr)).length + (k' + 1)) =
        first.length + ((alt.length + ((tailLines mr).length + (k' + 1))) + 1) := by rw [etl]; simp; omega
    obtain ⟨g, l, h1, h2, h3, h4⟩ := oneAlt_words enc hc ltr first s (alt ++ (tailLines mr ++ e :: after))
      (alt.length + ((tailLines mr).length + (k' + 1))) hne hp hsalt
    obtain ⟨n, h5, h6⟩ := join_made ltr hacc h2 (made_areWords h3 h4)
    have el : first ++ (tailLines ((s, alt) :: mr) ++ e :: after) = first ++ s :: (alt ++ (tailLines mr ++ e :: after)) := by
      rw [etl]; simp
    rw [el, ek, altLoop, h1]
    simp only [Out.bind, h5]
    cases alt with
    | nil =>
      -- only the last alternative can be empty
      have hmr : mr = [] := by
        cases mr with
        | nil => rfl
        | cons y mr => exact absurd rfl (hdl (s, []) (by simp))
      subst hmr
      have e0 : [] ++ (tailLines [] ++ e :: after) = e :: after := rfl
      have e1 : ([] : List Tok).length + ((tailLines []).length + (k' + 1)) = k' + 1 := by show 0 + (0 + _) = _; omega
      rw [e0, e1]
      have hnx : nextAlt (s :: e :: after) (k' + 1 + 1) = .ok (s :: e :: after, k' + 1 + 1) := by
        unfold nextAlt
        dsimp only
        rw [if_pos hsor]
        rw [if_pos hend]
      have hmo : more (s :: e :: after) (k' + 1 + 1) = true := by
        show (!is endMark s) = true
        rw [hsend]; rfl
      rw [hnx]
      simp only [hmo, if_true]
      obtain ⟨f, rfl⟩ : ∃ g, f = g + 1 := ⟨f - 1, by simp at hf; omega⟩
      obtain ⟨g2, q1, q2, q3⟩ := oneAlt_null enc hc ltr s (e :: after) (k' + 1) hsalt
      obtain ⟨n2, q5, q6⟩ := join_made ltr (Q := fun ws => ws = [nullWord hc s]) h6 q2 q3
      refine ⟨n2, ?_, ?_⟩
      · rw [altLoop, q1]
        simp only [Out.bind, q5, stay, halt]
        rfl
      · obtain ⟨q7, q8⟩ := q6
        refine ⟨q7, ⟨q8.wf, q8.words, ?_, fun ws => (q8.lang ws).trans ?_⟩⟩
        · have := q8.arcs
          rw [etl]; simp; omega
        · constructor
          · rintro ((h | h) | h)
            · exact Or.inl h
            · exact Or.inr (Or.inl h)
            · exact Or.inr (Or.inr ⟨(s, []), by simp, Or.inr ⟨rfl, h⟩⟩)
          · rintro (h | h | ⟨x, hx, h⟩)
            · exact Or.inl (Or.inl h)
            · exact Or.inl (Or.inr h)
            · have := List.mem_singleton.1 hx
              subst this
              rcases h with ⟨h, _⟩ | ⟨_, h⟩
              · exact absurd rfl h
              · exact Or.inr h
    | cons u us =>
      have hu := (halt2 u (by simp)).1
      have hnx : nextAlt (s :: ((u :: us) ++ (tailLines mr ++ e :: after))) ((u :: us).length + ((tailLines mr).length + (k' + 1)) + 1) =
          .ok ((u :: us) ++ (tailLines mr ++ e :: after), (u :: us).length + ((tailLines mr).length + (k' + 1))) := by
        unfold nextAlt
        dsimp only
        rw [if_pos hsor]
        simp only [List.cons_append]
        rw [if_neg (by rw [plain_not (by decide) hu]; simp)]
        rfl
      have hmo : more ((u :: us) ++ (tailLines mr ++ e :: after)) ((u :: us).length + ((tailLines mr).length + (k' + 1))) = true := by
        have : (u :: us).length + ((tailLines mr).length + (k' + 1)) = (us.length + ((tailLines mr).length + (k' + 1))) + 1 := by
          rw [List.length_cons]; omega
        rw [this]
        show (!is endMark u) = true
        rw [plain_not (by decide) hu]; rfl
      rw [hnx]
      simp only [hmo, if_true]
      have hdl2 : ∀ x ∈ mr.dropLast, x.2 ≠ [] := by
        intro x hx
        cases mr with
        | nil => cases hx
        | cons y mr => exact hdl x (by rw [List.dropLast_cons_of_ne_nil (by simp)]; exact List.mem_cons_of_mem _ hx)
      obtain ⟨n2, q1, q2⟩ := ih f (some n) (u :: us) _ _ (by omega) h6 (by simp) halt2 (fun x hx => hmore x (by simp [hx])) hdl2
      refine ⟨n2, q1, ?_⟩
      obtain ⟨q7, q8⟩ := q2
      refine ⟨q7, ⟨q8.wf, q8.words, ?_, fun ws => (q8.lang ws).trans ?_⟩⟩
      · have := q8.arcs
        rw [etl]
        simp only [List.length_cons, List.length_append] at this ⊢
        omega
      · constructor
        · rintro ((h | h) | h | ⟨x, hx, h⟩)
          · exact Or.inl h
          · exact Or.inr (Or.inl h)
          · exact Or.inr (Or.inr ⟨(s, u :: us), by simp, Or.inl ⟨by simp, h⟩⟩)
          · exact Or.inr (Or.inr ⟨x, by simp [hx], h⟩)
        · rintro (h | h | ⟨x, hx, h⟩)
          · exact Or.inl (Or.inl h)
          · exact Or.inl (Or.inr h)
          · rcases List.mem_cons.1 hx with e3 | e3
            · subst e3
              rcases h with ⟨_, h⟩ | ⟨h, _⟩
              · exact Or.inr (Or.inl h)
              · cases h
            · exact Or.inr (Or.inr ⟨x, e3, h⟩)

end Verif.WtokeNet
