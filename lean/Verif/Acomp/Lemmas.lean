import Verif.Acomp.Spec
/-!
# Lemmas on the search for the constituents of a compound
-/
set_option autoImplicit false
namespace Verif.Acomp

theorem up_caps (s : Text) : Caps (s.map up) := by
  intro c hc
  obtain ⟨a, _, rfl⟩ := List.mem_map.1 hc
  unfold up
  split
  · omega
  · split <;> omega

theorem caps_of_subset {v w : Text} (h : Caps w) (hs : ∀ c ∈ v, c ∈ w) : Caps v := fun c hc => h c (hs c hc)

theorem caps_drop {w : Text} (h : Caps w) (n : Nat) : Caps (w.drop n) := caps_of_subset h fun _ hc => List.mem_of_mem_drop hc
theorem caps_take {w : Text} (h : Caps w) (n : Nat) : Caps (w.take n) := caps_of_subset h fun _ hc => List.mem_of_mem_take hc

theorem consonants_low {c : Nat} (h : c ∈ consonants) : 97 ≤ c ∧ c ≤ 122 := by
  simp only [consonants, List.mem_cons, List.not_mem_nil, or_false] at h
  omega

theorem geminate_caps {w : Text} (h : Caps w) : geminate w = false := by
  unfold geminate
  split
  · rename_i c d l e
    have hc : c ∈ w := by rw [← List.mem_reverse, e]; simp
    cases hb : consonants.contains c
    · simp
    · exact absurd (consonants_low (List.contains_iff_mem.1 hb)) (h c hc).1
  · rfl

/-- The rest of the word after the element skipped. -/
def skip (R : Text) : Option Text :=
  if startsS R || startsEN R then
    let r1 := if startsS R then R.drop 1 else R
    some (if startsEN r1 then R.drop 2 else r1)
  else none

theorem startsS_iff {R : Text} (h : Caps R) : startsS R = true ↔ ∃ t, R = 83 :: t := by
  cases R with
  | nil => simp [startsS]
  | cons c t =>
    have := (h c (by simp)).1
    simp only [startsS, Bool.or_eq_true, beq_iff_eq, List.cons.injEq]
    constructor
    · rintro (e | e)
      · omega
      · exact ⟨t, e, rfl⟩
    · rintro ⟨_, e, _⟩
      exact .inr e

theorem startsEN_iff {R : Text} (h : Caps R) : startsEN R = true ↔ ∃ t, R = 69 :: 78 :: t := by
  match R, h with
  | [], _ => simp [startsEN]
  | [c], _ => simp [startsEN]
  | c :: d :: t, h =>
    have h1 := (h c (by simp)).1
    have h2 := (h d (by simp)).1
    simp only [startsEN, Bool.and_eq_true, Bool.or_eq_true, beq_iff_eq, List.cons.injEq]
    constructor
    · rintro ⟨e | e, g | g⟩ <;> first | omega | exact ⟨t, e, g, rfl⟩
    · rintro ⟨_, e, g, _⟩
      exact ⟨.inr e, .inr g⟩

theorem skip_iff {R : Text} (h : Caps R) (r : Text) : skip R = some r ↔ ∃ l, l ≠ [] ∧ CodeLink l r ∧ R = l ++ r := by
  unfold skip
  by_cases hs : startsS R = true
  · obtain ⟨t, rfl⟩ := (startsS_iff h).1 hs
    have ht : Caps t := caps_of_subset h (by simp +contextual)
    simp only [hs, Bool.true_or, if_true, List.drop_succ_cons, List.drop_zero]
    by_cases he : startsEN t = true
    · obtain ⟨u, rfl⟩ := (startsEN_iff ht).1 he
      simp only [he, if_true, List.drop_succ_cons, List.drop_zero, Option.some.injEq]
      constructor
      · rintro rfl
        exact ⟨[83, 69], by simp, .inr (.inr (.inr ⟨rfl, by simp⟩)), rfl⟩
      · rintro ⟨l, hn, rfl | ⟨rfl, hp⟩ | rfl | ⟨rfl, hp⟩, e⟩
        · exact absurd rfl hn
        · simp only [List.cons_append, List.nil_append, List.cons.injEq, true_and] at e
          exact absurd (e ▸ ⟨u, rfl⟩) hp
        · simp at e
        · simpa using e
    · have he' : startsEN t = false := by simpa using he
      simp only [he', Bool.false_eq_true, if_false, Option.some.injEq]
      constructor
      · rintro rfl
        refine ⟨[83], by simp, .inr (.inl ⟨rfl, ?_⟩), rfl⟩
        rintro ⟨u, hu⟩
        exact he ((startsEN_iff ht).2 ⟨u, by simpa using hu.symm⟩)
      · rintro ⟨l, hn, rfl | ⟨rfl, hp⟩ | rfl | ⟨rfl, hp⟩, e⟩
        · exact absurd rfl hn
        · simpa using e
        · simp at e
        · obtain ⟨u, rfl⟩ := hp
          exact absurd ((startsEN_iff ht).2 ⟨u, by simpa using e⟩) he
  · have hs' : startsS R = false := by simpa using hs
    have hns : ∀ t, R ≠ 83 :: t := fun t e => hs ((startsS_iff h).2 ⟨t, e⟩)
    by_cases he : startsEN R = true
    · obtain ⟨u, rfl⟩ := (startsEN_iff h).1 he
      simp only [hs', he, Bool.false_or, if_true, Bool.false_eq_true, if_false, List.drop_succ_cons, List.drop_zero, Option.some.injEq]
      constructor
      · rintro rfl
        exact ⟨[69, 78], by simp, .inr (.inr (.inl rfl)), rfl⟩
      · rintro ⟨l, hn, rfl | ⟨rfl, hp⟩ | rfl | ⟨rfl, hp⟩, e⟩
        · exact absurd rfl hn
        · simp at e
        · simpa using e
        · simp at e
    · have he' : startsEN R = false := by simpa using he
      simp only [hs', he', Bool.or_self, Bool.false_eq_true, if_false]
      constructor
      · intro e; cases e
      · rintro ⟨l, hn, rfl | ⟨rfl, hp⟩ | rfl | ⟨rfl, hp⟩, e⟩
        · exact absurd rfl hn
        · exact absurd e (hns _)
        · exact absurd ((startsEN_iff h).2 ⟨r, e⟩) he
        · exact absurd e (hns _)

/-- The chains the program finds. -/
abbrev Ch (o : Opts) (d : Dict) : Text → List Text → Prop :=
  Chain (· ∈ d.lex) (if o.inserts then CodeLink else NoLink) o.min d.maxLen

/-- What is assumed of the recursive calls. -/
def RecSpec (o : Opts) (d : Dict) (n : Nat) (r : List Text → Text → List (List Text) → Found) : Prop :=
  ∀ h v c, v.length < n → Caps v →
    (∃ ps, Ch o d v ps ∧ r h v c = some (c ++ [h ++ ps], true)) ∨ ((∀ ps, ¬ Ch o d v ps) ∧ r h v c = some (c, false))

theorem chain_inv {o : Opts} {d : Dict} {w q : Text} {qs : List Text} (h : Ch o d w (q :: qs)) (hq : qs ≠ []) :
    ∃ l r, (if o.inserts then CodeLink else NoLink) l r ∧ w = q ++ (l ++ r) ∧ q ∈ d.lex ∧ o.min ≤ q.length ∧ q.length ≤ d.maxLen ∧
      o.min ≤ r.length ∧ Ch o d r qs := by
  cases h with
  | one _ => exact absurd rfl hq
  | cons _ l r _ h1 h2 h3 h4 h5 h6 => exact ⟨l, r, h2, rfl, h1, h3, h4, h5, h6⟩

theorem tryAt_eq (r : List Text → Text → List (List Text) → Found) (o : Opts) (d : Dict) (hist : List Text) (val : Text) (i : Nat)
    (comps : List (List Text)) (hc : Caps val) :
    tryAt r o d hist val i comps =
      if val.take i ∈ d.lex then
        match (if o.min ≤ (val.drop i).length then r (hist ++ [val.take i]) (val.drop i) comps else some (comps, false)) with
        | none => none
        | some (c1, true) => some (c1, true)
        | some (c1, false) =>
          match (if o.inserts then skip (val.drop i) else none) with
          | none => some (c1, false)
          | some v => if o.min ≤ v.length then r (hist ++ [val.take i]) v c1 else some (c1, false)
      else some (comps, false) := by
  unfold tryAt
  by_cases hl : val.take i ∈ d.lex
  · have : d.lex.contains (val.take i) = true := List.contains_iff_mem.2 hl
    simp only [this, if_true, hl, geminate_caps (caps_take hc i), Bool.and_false, Bool.false_and, Bool.false_eq_true, if_false]
    generalize (if o.min ≤ (val.drop i).length then r (hist ++ [val.take i]) (val.drop i) comps else some (comps, false)) = x
    match x with
    | none => rfl
    | some (c1, true) => rfl
    | some (c1, false) =>
      dsimp only
      cases o.inserts
      · simp
      · simp only [Bool.true_and, if_true, skip, List.drop_drop]
        split <;> rfl
  · have : d.lex.contains (val.take i) = false := by
      cases h : d.lex.contains (val.take i)
      · rfl
      · exact absurd (List.contains_iff_mem.1 h) hl
    simp [this, hl]

theorem skip_shorter {R r : Text} (h : Caps R) (e : skip R = some r) : r.length < R.length := by
  obtain ⟨l, hn, _, rfl⟩ := (skip_iff h r).1 e
  have := List.length_pos_iff.2 hn
  simp only [List.length_append]
  omega

theorem tryAt_spec {o : Opts} {d : Dict} {rc : List Text → Text → List (List Text) → Found} {val : Text} (hm : 1 ≤ o.min)
    (hr : RecSpec o d val.length rc) (hc : Caps val) (hist : List Text) (comps : List (List Text)) (i : Nat) (hi : o.min ≤ i)
    (hv : i ≤ val.length) (hk : i ≤ d.maxLen) :
    (∃ ps, ps ≠ [] ∧ Ch o d val (val.take i :: ps) ∧ tryAt rc o d hist val i comps = some (comps ++ [hist ++ val.take i :: ps], true)) ∨
      ((∀ q qs, q.length = i → qs ≠ [] → ¬ Ch o d val (q :: qs)) ∧ tryAt rc o d hist val i comps = some (comps, false)) := by
  have hlen : (val.take i).length = i := by simp; omega
  have hdl : (val.drop i).length < val.length := by simp; omega
  have hcd := caps_drop hc i
  have ne : ∀ {v : Text} {ps : List Text}, Ch o d v ps → ps ≠ [] := by intro v ps h; cases h <;> simp
  have key : ∀ q qs, q.length = i → qs ≠ [] → Ch o d val (q :: qs) →
      val.take i ∈ d.lex ∧ ∃ l r, (if o.inserts then CodeLink else NoLink) l r ∧ val.drop i = l ++ r ∧ o.min ≤ r.length ∧ Ch o d r qs := by
    intro q qs e hq h
    obtain ⟨l, r, h1, h2, h3, _, _, h6, h7⟩ := chain_inv h hq
    subst e
    refine ⟨?_, l, r, h1, ?_, h6, h7⟩
    · rw [h2, List.take_left]; exact h3
    · rw [h2, List.drop_left]
  rw [tryAt_eq _ _ _ _ _ _ _ hc]
  by_cases hl : ¬ (val.take i ∈ d.lex)
  · exact .inr ⟨fun q qs e hq h => hl (key q qs e hq h).1, by simp [hl]⟩
  replace hl := Classical.not_not.1 hl
  simp only [hl, if_true]
  have link0 : (if o.inserts then CodeLink else NoLink) [] (val.drop i) := by
    split
    · exact .inl rfl
    · rfl
  -- the first attempt
  have first : (∃ ps, ps ≠ [] ∧ Ch o d val (val.take i :: ps) ∧
      (if o.min ≤ (val.drop i).length then rc (hist ++ [val.take i]) (val.drop i) comps else some (comps, false)) =
        some (comps ++ [hist ++ val.take i :: ps], true)) ∨
      ((∀ ps, o.min ≤ (val.drop i).length → ¬ Ch o d (val.drop i) ps) ∧
      (if o.min ≤ (val.drop i).length then rc (hist ++ [val.take i]) (val.drop i) comps else some (comps, false)) = some (comps, false)) := by
    by_cases h1 : o.min ≤ (val.drop i).length
    · simp only [h1, if_true]
      rcases hr (hist ++ [val.take i]) (val.drop i) comps hdl hcd with ⟨ps, h2, h3⟩ | ⟨h2, h3⟩
      · refine .inl ⟨ps, ne h2, ?_, by simpa using h3⟩
        have := Chain.cons (m := o.min) (k := d.maxLen) (val.take i) [] (val.drop i) ps hl link0 (by omega) (by omega) h1 h2
        simpa using this
      · exact .inr ⟨fun ps _ => h2 ps, h3⟩
    · exact .inr ⟨fun _ h => absurd h h1, if_neg h1⟩
  rcases first with ⟨ps, h1, h2, h3⟩ | ⟨h1, h3⟩
  · exact .inl ⟨ps, h1, h2, by rw [h3]⟩
  rw [h3]
  dsimp only
  cases hins : o.inserts
  · refine .inr ⟨fun q qs e hq h => ?_, by simp⟩
    obtain ⟨_, l, r, g1, g2, g3, g4⟩ := key q qs e hq h
    rw [hins] at g1
    cases (show l = [] from g1)
    rw [List.nil_append] at g2
    exact h1 qs (g2 ▸ g3) (g2 ▸ g4)
  · simp only [if_true]
    have neg : ∀ (hno : ∀ v, skip (val.drop i) = some v → o.min ≤ v.length → ∀ ps, ¬ Ch o d v ps),
        ∀ q qs, q.length = i → qs ≠ [] → ¬ Ch o d val (q :: qs) := by
      intro hno q qs e hq h
      obtain ⟨_, l, r, g1, g2, g3, g4⟩ := key q qs e hq h
      rw [hins] at g1
      by_cases hl0 : l = []
      · subst hl0
        rw [List.nil_append] at g2
        exact h1 qs (g2 ▸ g3) (g2 ▸ g4)
      · exact hno r ((skip_iff hcd r).2 ⟨l, hl0, g1, g2⟩) g3 qs g4
    cases hsk : skip (val.drop i) with
    | none => exact .inr ⟨neg (fun v e => by rw [hsk] at e; cases e), rfl⟩
    | some v =>
      dsimp only
      by_cases hv2 : o.min ≤ v.length
      · simp only [hv2, if_true]
        have hsv := skip_shorter hcd hsk
        obtain ⟨l, _, g1, g2⟩ := (skip_iff hcd v).1 hsk
        have hcv : Caps v := caps_of_subset hcd (fun c hc => by rw [g2]; exact List.mem_append_right _ hc)
        rcases hr (hist ++ [val.take i]) v comps (by omega) hcv with ⟨ps, h4, h5⟩ | ⟨h4, h5⟩
        · refine .inl ⟨ps, ne h4, ?_, by simpa using h5⟩
          have := Chain.cons (m := o.min) (k := d.maxLen) (link := if o.inserts then CodeLink else NoLink) (val.take i) l v ps hl (by rw [hins]; exact g1) (by omega) (by omega) hv2 h4
          rwa [← g2, List.take_append_drop] at this
        · refine .inr ⟨neg (fun u e _ => ?_), h5⟩
          rw [hsk] at e
          cases e
          exact h4
      · refine .inr ⟨neg (fun u e hu => ?_), by simp [hv2]⟩
        rw [hsk] at e
        cases e
        exact absurd hu hv2

theorem loop_spec {o : Opts} {d : Dict} {rc : List Text → Text → List (List Text) → Found} {val : Text} (hm : 1 ≤ o.min)
    (hr : RecSpec o d val.length rc) (hc : Caps val) (hist : List Text) (comps : List (List Text)) (i : Nat) (hv : i ≤ val.length)
    (hk : i ≤ d.maxLen) :
    (∃ p ps, Ch o d val (p :: ps) ∧ loop rc o d hist val i comps = some (comps ++ [hist ++ p :: ps], true) ∧
        ∀ q qs, q.length ≤ i → qs ≠ [] → Ch o d val (q :: qs) → q.length ≤ p.length) ∨
      ((∀ q qs, q.length ≤ i → qs ≠ [] → ¬ Ch o d val (q :: qs)) ∧ loop rc o d hist val i comps = some (comps, false)) := by
  induction i with
  | zero =>
    refine .inr ⟨fun q qs e hq h => ?_, by simp [loop]; omega⟩
    obtain ⟨_, _, _, _, _, h4, _⟩ := chain_inv h hq
    omega
  | succ i ih =>
    rw [loop]
    by_cases h1 : i + 1 < o.min
    · refine .inr ⟨fun q qs e hq h => ?_, by simp [h1]⟩
      obtain ⟨_, _, _, _, _, h4, _⟩ := chain_inv h hq
      omega
    · simp only [h1, if_false]
      rcases tryAt_spec hm hr hc hist comps (i + 1) (by omega) hv hk with ⟨ps, _, h3, h4⟩ | ⟨h3, h4⟩
      · refine .inl ⟨_, ps, h3, by rw [h4], fun q qs e _ _ => ?_⟩
        rw [List.length_take]
        omega
      · rw [h4]
        dsimp only
        rcases ih (by omega) (by omega) with ⟨p, ps, h5, h6, h7⟩ | ⟨h5, h6⟩
        · refine .inl ⟨p, ps, h5, h6, fun q qs e hq h => ?_⟩
          by_cases g : q.length = i + 1
          · exact absurd h (h3 q qs g hq)
          · exact h7 q qs (by omega) hq h
        · refine .inr ⟨fun q qs e hq h => ?_, h6⟩
          by_cases g : q.length = i + 1
          · exact absurd h (h3 q qs g hq)
          · exact h5 q qs (by omega) hq h

theorem isCompound_spec {o : Opts} {d : Dict} (hm : 1 ≤ o.min) (f : Nat) (hist : List Text) (val : Text) (comps : List (List Text))
    (hf : val.length < f) (hc : Caps val) :
    (∃ p ps, Ch o d val (p :: ps) ∧ isCompound o d f hist val comps = some (comps ++ [hist ++ p :: ps], true) ∧
        ∀ q qs, Ch o d val (q :: qs) → q.length ≤ p.length) ∨
      ((∀ ps, ¬ Ch o d val ps) ∧ isCompound o d f hist val comps = some (comps, false)) := by
  induction f generalizing hist val comps with
  | zero => omega
  | succ f ih =>
    have le : ∀ q qs, Ch o d val (q :: qs) → q.length ≤ val.length := by
      intro q qs h
      cases h with
      | one _ => exact Nat.le_refl _
      | cons => simp
    rw [isCompound]
    by_cases hl : val ∈ d.lex
    · refine .inl ⟨val, [], .one _ hl, ?_, le⟩
      simp [hl]
    · have hb : ¬ d.lex.contains val = true := fun h => hl (List.contains_iff_mem.1 h)
      simp only [hb]
      have hr : RecSpec o d val.length (isCompound o d f) := by
        intro h v c h1 h2
        rcases ih h v c (by omega) h2 with ⟨p, ps, g1, g2, _⟩ | g
        · exact .inl ⟨p :: ps, g1, g2⟩
        · exact .inr g
      have bound : ∀ q qs, Ch o d val (q :: qs) → qs ≠ [] ∧ q.length ≤ (if val.length < d.maxLen then val.length else d.maxLen) := by
        intro q qs h
        have hq : qs ≠ [] := by
          rintro rfl
          generalize hps : [q] = ps at h
          cases h with
          | one w g => exact hl g
          | cons _ _ _ _ _ _ _ _ _ g =>
            cases hps
            cases g
        obtain ⟨_, _, _, _, _, _, h5, _⟩ := chain_inv h hq
        have := le q qs h
        exact ⟨hq, by split <;> omega⟩
      rcases loop_spec hm hr hc hist comps (if val.length < d.maxLen then val.length else d.maxLen) (by split <;> omega) (by split <;> omega)
        with ⟨p, ps, g1, g2, g3⟩ | ⟨g1, g2⟩
      · exact .inl ⟨p, ps, g1, g2, fun q qs h => g3 q qs (bound q qs h).2 (bound q qs h).1 h⟩
      · refine .inr ⟨fun ps h => ?_, g2⟩
        match ps, h with
        | q :: qs, h => exact g1 q qs (bound q qs h).2 (bound q qs h).1 h

end Verif.Acomp
