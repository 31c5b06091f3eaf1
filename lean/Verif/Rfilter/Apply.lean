import Verif.Rfilter.Index
/-!
# Applying rules with the index is rewriting by the first rule that applies
-/
set_option autoImplicit false
namespace Verif.Rfilter

/-- A rule set as `get_rules2` leaves it. -/
structure RuleSet.Built (rs : RuleSet) : Prop where
  order : rs.order = (buildIndex rs.caseSensitive rs.rules).order
  first : rs.first = (buildIndex rs.caseSensitive rs.rules).first
  last : rs.last = (buildIndex rs.caseSensitive rs.rules).last
  sound : ∀ r ∈ rs.rules, r.Sound

/-- The rules as the specification knows them. -/
def RuleSet.spec (rs : RuleSet) : List SRule := rs.rules.map Rule.spec

/-- The loop over a list of rule numbers. -/
def tryList (rs : RuleSet) (pa : List Nat) (pos : Nat) : List Nat → Out (Option (Nat × Rule))
  | [] => .ok none
  | i :: rest =>
    match rs.rules[i - 1]? with
    | none => .oob
    | some r =>
      match ruleFires rs.caseSensitive pa pos r with
      | .ok true => .ok (some (i, r))
      | .ok false => tryList rs pa pos rest
      | .err e => .err e
      | .oob => .oob
      | .hang => .hang

theorem tryRules_block (rs : RuleSet) (pa : List Nat) (pos : Nat) (pre blk post : List Nat) (h : rs.order = pre ++ (blk ++ post)) :
    tryRules rs pa pos blk.length (pre.length + 1) = tryList rs pa pos blk := by
  induction blk generalizing pre with
  | nil => rfl
  | cons i blk ih =>
    have hj : rs.order[pre.length + 1 - 1]? = some i := by
      rw [h, Nat.add_sub_cancel, List.getElem?_append_right (Nat.le_refl _)]
      simp
    have hih := ih (pre ++ [i]) (by rw [h]; simp)
    rw [List.length_append, List.length_singleton] at hih
    rw [List.length_cons, tryRules, hj]
    simp only
    rw [hih, tryList]
    cases rs.rules[i - 1]? with
    | none => rfl
    | some r =>
      simp only
      cases ruleFires rs.caseSensitive pa pos r with
      | ok v => cases v <;> rfl
      | err e => rfl
      | oob => rfl
      | hang => rfl

/-- What trying a list of rules comes to. -/
theorem tryList_spec (rs : RuleSet) (pa : List Nat) (pos : Nat) (blk : List Nat) (hp : pos ≤ pa.length)
    (hb : ∀ i ∈ blk, ∃ r, rs.rules[i - 1]? = some r ∧ r.Sound ∧ r.sin ≠ []) :
    (tryList rs pa pos blk = .ok none ∧ ∀ i ∈ blk, ∀ r, rs.rules[i - 1]? = some r →
      ¬ Applies rs.caseSensitive r.spec (pa.take pos) (pa.drop pos) ∧
      (SourceAt rs.caseSensitive r.spec (pa.drop pos) → r.lctx.length ≤ pos)) ∨
    (∃ pre i r post, blk = pre ++ i :: post ∧ rs.rules[i - 1]? = some r ∧
      (∀ j ∈ pre, ∀ r', rs.rules[j - 1]? = some r' → ¬ Applies rs.caseSensitive r'.spec (pa.take pos) (pa.drop pos) ∧
        (SourceAt rs.caseSensitive r'.spec (pa.drop pos) → r'.lctx.length ≤ pos)) ∧
      ((tryList rs pa pos blk = .ok (some (i, r)) ∧ Applies rs.caseSensitive r.spec (pa.take pos) (pa.drop pos)) ∨
       (tryList rs pa pos blk = .oob ∧ SourceAt rs.caseSensitive r.spec (pa.drop pos) ∧ pos < r.lctx.length))) := by
  induction blk with
  | nil => exact .inl ⟨rfl, by simp⟩
  | cons i blk ih =>
    obtain ⟨r, hr, hs, hn⟩ := hb i (List.mem_cons_self ..)
    rw [tryList, hr]
    simp only
    rcases ruleFires_spec rs.caseSensitive pa pos r hp hs hn with ⟨e, ha⟩ | ⟨e, ha, hb'⟩ | ⟨e, ha, hb'⟩
    · rw [e]
      exact .inr ⟨[], i, r, blk, rfl, hr, by simp, .inl ⟨rfl, ha⟩⟩
    · rw [e]
      simp only
      have hhead : ∀ r', rs.rules[i - 1]? = some r' → ¬ Applies rs.caseSensitive r'.spec (pa.take pos) (pa.drop pos) ∧
          (SourceAt rs.caseSensitive r'.spec (pa.drop pos) → r'.lctx.length ≤ pos) := by
        intro r' hr'
        rw [hr] at hr'
        cases hr'
        exact ⟨ha, hb'⟩
      rcases ih (fun j hj => hb j (List.mem_cons_of_mem _ hj)) with ⟨g1, g2⟩ | ⟨pre, i', r', post, g1, g2, g3, g4⟩
      · refine .inl ⟨g1, ?_⟩
        intro j hj
        rcases List.mem_cons.1 hj with rfl | hj
        · exact hhead
        · exact g2 j hj
      · refine .inr ⟨i :: pre, i', r', post, by rw [g1]; rfl, g2, ?_, g4⟩
        intro j hj
        rcases List.mem_cons.1 hj with rfl | hj
        · exact hhead
        · exact g3 j hj
    · rw [e]
      exact .inr ⟨[], i, r, blk, rfl, hr, by simp, .inr ⟨rfl, ha, hb'⟩⟩

theorem source_key {cs : Bool} {r : Rule} {c : Nat} {rest : List Nat} (hn : r.sin ≠ []) (h : SourceAt cs r.spec (c :: rest)) :
    ruleKey cs r = keyOf cs c := by
  obtain ⟨s, rest', e, a⟩ := h
  cases hsin : r.sin with
  | nil => exact absurd hsin hn
  | cons b t =>
    have hsrc : r.spec.source = b :: t := hsin
    rw [hsrc] at a
    cases a with
    | cons x y s' t' hxy _ =>
      simp only [List.cons_append, List.cons.injEq] at e
      rw [ruleKey, hsin]
      simp only [List.headD_cons]
      rw [e.1]
      exact (fold_key ((fold_iff cs _ _).1 hxy)).symm

theorem rules_split (rs : RuleSet) (i : Nat) (r : SRule) :
    rs.spec[i]? = some r ↔ ∃ r0, rs.rules[i]? = some r0 ∧ r0.spec = r := by
  rw [RuleSet.spec, List.getElem?_map]
  cases rs.rules[i]? <;> simp

/-- What looking for a rule at a place of the text comes to. -/
theorem lookup_spec (rs : RuleSet) (hb : rs.Built) (pa : List Nat) (pos c : Nat) (h0 : ∀ b ∈ pa, b ≠ 0) (hc : pa[pos]? = some c) :
    (tryRules rs pa pos (rs.last (keyOf rs.caseSensitive c) + 1 - rs.first (keyOf rs.caseSensitive c)).toNat
        (rs.first (keyOf rs.caseSensitive c)).toNat = .ok none ∧
      (∀ r ∈ rs.spec, ¬ Applies rs.caseSensitive r (pa.take pos) (pa.drop pos)) ∧
      ∀ r ∈ rs.spec, r.source ≠ [] → SourceAt rs.caseSensitive r (pa.drop pos) → r.left.length ≤ pos) ∨
    (∃ i r, rs.rules[i]? = some r ∧ r.sin ≠ [] ∧
      (∀ j r', j < i → rs.spec[j]? = some r' → ¬ Applies rs.caseSensitive r' (pa.take pos) (pa.drop pos)) ∧
      (∀ j r', j < i → rs.spec[j]? = some r' → r'.source ≠ [] → SourceAt rs.caseSensitive r' (pa.drop pos) →
        r'.left.length ≤ pos) ∧
      ((tryRules rs pa pos (rs.last (keyOf rs.caseSensitive c) + 1 - rs.first (keyOf rs.caseSensitive c)).toNat
          (rs.first (keyOf rs.caseSensitive c)).toNat = .ok (some (i + 1, r)) ∧
        Applies rs.caseSensitive r.spec (pa.take pos) (pa.drop pos)) ∨
       (tryRules rs pa pos (rs.last (keyOf rs.caseSensitive c) + 1 - rs.first (keyOf rs.caseSensitive c)).toNat
          (rs.first (keyOf rs.caseSensitive c)).toNat = .oob ∧
        SourceAt rs.caseSensitive r.spec (pa.drop pos) ∧ pos < r.lctx.length))) := by
  have hlt : pos < pa.length := (List.getElem?_eq_some_iff.1 hc).1
  have hdrop : pa.drop pos = c :: pa.drop (pos + 1) := by
    rw [List.drop_eq_getElem_cons hlt]
    congr 1
    exact (List.getElem?_eq_some_iff.1 hc).2
  have hc0 : keyOf rs.caseSensitive c ≠ 0 := fun h => h0 c (List.mem_of_getElem? hc) (key_zero h)
  obtain ⟨pre, post, b1, b2, b3⟩ := buildIndex_spec rs.caseSensitive rs.rules (keyOf rs.caseSensitive c)
  rw [← hb.order] at b1
  rw [← hb.first, ← hb.last] at b2
  rw [← hb.first] at b3
  have hsorted := block_sorted rs.caseSensitive (keyOf rs.caseSensitive c) rs.rules
  have hmem : ∀ i, i ∈ block (keyOf rs.caseSensitive c) (numbered rs.caseSensitive 1 rs.rules) ↔
      ∃ r, 1 ≤ i ∧ rs.rules[i - 1]? = some r ∧ ruleKey rs.caseSensitive r = keyOf rs.caseSensitive c :=
    fun i => mem_block.trans mem_numbered
  generalize block (keyOf rs.caseSensitive c) (numbered rs.caseSensitive 1 rs.rules) = blk at b1 b2 b3 hsorted hmem
  have htry : tryRules rs pa pos (rs.last (keyOf rs.caseSensitive c) + 1 - rs.first (keyOf rs.caseSensitive c)).toNat
        (rs.first (keyOf rs.caseSensitive c)).toNat = tryList rs pa pos blk := by
    rw [b2]
    cases hbl : blk with
    | nil => rfl
    | cons i t =>
      rw [b3 (by rw [hbl]; simp), ← hbl]
      exact tryRules_block rs pa pos pre blk post b1
  rw [htry]
  have hblk : ∀ i ∈ blk, ∃ r, rs.rules[i - 1]? = some r ∧ r.Sound ∧ r.sin ≠ [] := by
    intro i hi
    obtain ⟨r, _, h2, h3⟩ := (hmem i).1 hi
    refine ⟨r, h2, hb.sound r (List.mem_of_getElem? h2), ?_⟩
    intro hs
    rw [ruleKey, hs] at h3
    apply hc0
    rw [← h3]
    cases rs.caseSensitive <;> rfl
  -- rules that are not in the block have their source elsewhere
  have hout : ∀ j r', rs.spec[j]? = some r' → r'.source ≠ [] → SourceAt rs.caseSensitive r' (pa.drop pos) → j + 1 ∈ blk := by
    intro j r' h1 h2 h3
    obtain ⟨r0, g1, g2⟩ := (rules_split rs j r').1 h1
    subst g2
    apply (hmem (j + 1)).2
    refine ⟨r0, by omega, by simpa using g1, ?_⟩
    rw [hdrop] at h3
    exact source_key h2 h3
  rcases tryList_spec rs pa pos blk (Nat.le_of_lt hlt) hblk with ⟨g1, g2⟩ | ⟨pre', i, r, post', g1, g2, g3, g4⟩
  · refine .inl ⟨g1, ?_, ?_⟩
    · intro r hr ha
      obtain ⟨j, hj⟩ := List.mem_iff_getElem?.1 hr
      have hm := hout j r hj ha.1 ha.source
      obtain ⟨r0, k1, k2⟩ := (rules_split rs j r).1 hj
      subst k2
      exact (g2 (j + 1) hm r0 (by simpa using k1)).1 ha
    · intro r hr hn ha
      obtain ⟨j, hj⟩ := List.mem_iff_getElem?.1 hr
      have hm := hout j r hj hn ha
      obtain ⟨r0, k1, k2⟩ := (rules_split rs j r).1 hj
      subst k2
      exact (g2 (j + 1) hm r0 (by simpa using k1)).2 ha
  · have hi : i ∈ blk := by rw [g1]; simp
    obtain ⟨_, hi1, hi2, _⟩ := (hmem i).1 hi
    have hpre : ∀ j, j < i - 1 → j + 1 ∈ blk → j + 1 ∈ pre' := by
      intro j hj hm
      rw [g1] at hm hsorted
      rcases List.mem_append.1 hm with h | h
      · exact h
      · exfalso
        have hs2 := (List.pairwise_append.1 hsorted).2.1
        rcases List.mem_cons.1 h with h | h
        · omega
        · have := (List.pairwise_cons.1 hs2).1 _ h
          omega
    obtain ⟨r0, k1, _, k3⟩ := hblk i hi
    rw [g2] at k1
    cases k1
    refine .inr ⟨i - 1, r, g2, k3, ?_, ?_, ?_⟩
    · intro j r' hj hj' ha
      have hm := hpre j hj (hout j r' hj' ha.1 ha.source)
      obtain ⟨r0, l1, l2⟩ := (rules_split rs j r').1 hj'
      subst l2
      exact (g3 (j + 1) hm r0 (by simpa using l1)).1 ha
    · intro j r' hj hj' hn ha
      have hm := hpre j hj (hout j r' hj' hn ha)
      obtain ⟨r0, l1, l2⟩ := (rules_split rs j r').1 hj'
      subst l2
      exact (g3 (j + 1) hm r0 (by simpa using l1)).2 ha
    · rw [Nat.sub_add_cancel hi1]
      exact g4

/-! ## The specification is deterministic -/

theorem FirstApplies.unique {cs : Bool} {rules : List SRule} {b a : List Nat} {i j : Nat} {r r' : SRule}
    (h1 : FirstApplies cs rules b a i r) (h2 : FirstApplies cs rules b a j r') : i = j ∧ r = r' := by
  have hij : i = j := by
    rcases Nat.lt_trichotomy i j with h | h | h
    · exact absurd h1.2.1 (h2.2.2 i r h h1.1)
    · exact h
    · exact absurd h2.2.1 (h1.2.2 j r' h h2.1)
  subst hij
  have := h1.1.symm.trans h2.1
  cases this
  exact ⟨rfl, rfl⟩

theorem FirstApplies.mem {cs : Bool} {rules : List SRule} {b a : List Nat} {i : Nat} {r : SRule}
    (h1 : FirstApplies cs rules b a i r) : r ∈ rules := List.mem_of_getElem? h1.1

theorem append_len {s t rest rest' : List Nat} (h : s ++ rest = t ++ rest') (hl : s.length = t.length) : s = t ∧ rest = rest' :=
  List.append_inj h hl

/-- Inversion at a place that is not the end. -/
theorem rewrites_inv {cs keep : Bool} {rules : List SRule} {b a out used : List Nat} (h : Rewrites cs keep rules b a out used) :
    (a = [] ∧ out = [] ∧ used = []) ∨
    (∃ s rest out' used' i r, a = s ++ rest ∧ out = r.target ++ out' ∧ used = (i + 1) :: used' ∧ FirstApplies cs rules b a i r ∧
      s.length = r.source.length ∧ Rewrites cs keep rules (b ++ s) rest out' used') ∨
    (∃ c rest out', a = c :: rest ∧ out = (if keep = true then [c] else []) ++ out' ∧ (∀ r ∈ rules, ¬ Applies cs r b a) ∧
      Rewrites cs keep rules (b ++ [c]) rest out' used) := by
  cases h with
  | done => exact .inl ⟨rfl, rfl, rfl⟩
  | replace _ s rest out used i r h1 h2 h3 => exact .inr (.inl ⟨s, rest, out, used, i, r, rfl, rfl, rfl, h1, h2, h3⟩)
  | pass _ c rest out used h1 h2 => exact .inr (.inr ⟨c, rest, out, rfl, rfl, h1, h2⟩)

theorem rewrites_unique {cs keep : Bool} {rules : List SRule} {b a o1 u1 o2 u2 : List Nat}
    (h1 : Rewrites cs keep rules b a o1 u1) (h2 : Rewrites cs keep rules b a o2 u2) : o1 = o2 ∧ u1 = u2 := by
  induction h1 generalizing o2 u2 with
  | done b =>
    rcases rewrites_inv h2 with ⟨_, h, h'⟩ | ⟨s, rest, _, _, i, r, e, _, _, h, hl, _⟩ | ⟨c, rest, _, e, _⟩
    · exact ⟨h.symm, h'.symm⟩
    · exfalso
      have : s = [] := (List.append_eq_nil_iff.1 e.symm).1
      rw [this] at hl
      exact h.2.1.1 (List.length_eq_zero_iff.1 hl.symm)
    · cases e
  | replace b s rest out used i r hf hl _ ih =>
    rcases rewrites_inv h2 with ⟨e, _, _⟩ | ⟨s', rest', out', used', i', r', e, e1, e2, h, hl', h3⟩ | ⟨c, rest', _, e, _, hn, _⟩
    · exfalso
      have : s = [] := (List.append_eq_nil_iff.1 e).1
      rw [this] at hl
      exact hf.2.1.1 (List.length_eq_zero_iff.1 hl.symm)
    · obtain ⟨q1, q2⟩ := hf.unique h
      subst q1 q2
      obtain ⟨q3, q4⟩ := append_len e (hl.trans hl'.symm)
      subst q3 q4
      obtain ⟨q5, q6⟩ := ih h3
      rw [e1, e2, q5, q6]
      exact ⟨rfl, rfl⟩
    · exact absurd hf.2.1 (hn r hf.mem)
  | pass b c rest out used hn _ ih =>
    rcases rewrites_inv h2 with ⟨e, _, _⟩ | ⟨s', rest', out', used', i', r', e, e1, e2, h, hl', h3⟩ | ⟨c', rest', out', e, e1, _, h3⟩
    · cases e
    · exact absurd h.2.1 (hn r' h.mem)
    · cases e
      obtain ⟨q1, q2⟩ := ih h3
      rw [e1, q1, q2]
      exact ⟨rfl, rfl⟩

open Classical in
theorem first_or_none (cs : Bool) (rules : List SRule) (b a : List Nat) :
    (∃ i r, FirstApplies cs rules b a i r) ∨ ∀ r ∈ rules, ¬ Applies cs r b a := by
  induction rules with
  | nil => exact .inr (by simp)
  | cons r rules ih =>
    by_cases h : Applies cs r b a
    · exact .inl ⟨0, r, rfl, h, by omega⟩
    · rcases ih with ⟨i, r', h1, h2, h3⟩ | hn
      · refine .inl ⟨i + 1, r', by simpa using h1, h2, ?_⟩
        intro j r'' hj hj'
        cases j with
        | zero =>
          simp only [List.getElem?_cons_zero, Option.some.injEq] at hj'
          rw [← hj']
          exact h
        | succ j => exact h3 j r'' (by omega) (by simpa using hj')
      · refine .inr ?_
        intro r' hr'
        rcases List.mem_cons.1 hr' with rfl | hr'
        · exact h
        · exact hn r' hr'

/-- Every text has a result. -/
theorem rewrites_exists (cs keep : Bool) (rules : List SRule) (n : Nat) (b a : List Nat) (hn : a.length ≤ n) :
    ∃ out used, Rewrites cs keep rules b a out used := by
  induction n generalizing b a with
  | zero =>
    have : a = [] := List.length_eq_zero_iff.1 (by omega)
    subst this
    exact ⟨[], [], .done b⟩
  | succ n ih =>
    cases ha : a with
    | nil => exact ⟨[], [], .done b⟩
    | cons c rest =>
      rw [← ha]
      rcases first_or_none cs rules b a with ⟨i, r, h⟩ | hno
      · obtain ⟨hne, _, _, s, rt, rest', _, e, _, al, _⟩ := h.2.1
        have hsl : s.length = r.source.length := al.length
        have hpos : 0 < r.source.length := List.length_pos_iff.2 hne
        obtain ⟨out, used, h'⟩ := ih (b ++ s) (rt ++ rest') (by
          have := congrArg List.length e
          simp only [List.length_append] at this ⊢
          omega)
        rw [e] at h ⊢
        exact ⟨_, _, .replace b s (rt ++ rest') out used i r h hsl h'⟩
      · obtain ⟨out, used, h'⟩ := ih (b ++ [c]) rest (by
          have := congrArg List.length ha
          simp only [List.length_cons] at this
          omega)
        rw [ha] at hno ⊢
        exact ⟨_, _, .pass b c rest out used hno h'⟩

/-! ## Hazards along the way -/

/-- A hazard at or after a place. -/
inductive HazFrom (cs : Bool) (rules : List SRule) : List Nat → List Nat → Prop
  | here (b a : List Nat) (i : Nat) (r : SRule) : a ≠ [] → rules[i]? = some r → r.source ≠ [] → SourceAt cs r a →
      b.length < r.left.length → (∀ j r', j < i → rules[j]? = some r' → ¬ Applies cs r' b a) → HazFrom cs rules b a
  | replace (b s rest : List Nat) (i : Nat) (r : SRule) : FirstApplies cs rules b (s ++ rest) i r → s.length = r.source.length →
      HazFrom cs rules (b ++ s) rest → HazFrom cs rules b (s ++ rest)
  | pass (b : List Nat) (c : Nat) (rest : List Nat) : (∀ r ∈ rules, ¬ Applies cs r b (c :: rest)) →
      HazFrom cs rules (b ++ [c]) rest → HazFrom cs rules b (c :: rest)

theorem hazFrom_inv {cs : Bool} {rules : List SRule} {b a : List Nat} (h : HazFrom cs rules b a) :
    a ≠ [] ∧
    ((∃ (i : Nat) (r : SRule), rules[i]? = some r ∧ r.source ≠ [] ∧ SourceAt cs r a ∧ b.length < r.left.length ∧
      ∀ j r', j < i → rules[j]? = some r' → ¬ Applies cs r' b a) ∨
    (∃ s rest i r, a = s ++ rest ∧ FirstApplies cs rules b a i r ∧ s.length = r.source.length ∧ HazFrom cs rules (b ++ s) rest) ∨
    (∃ c rest, a = c :: rest ∧ (∀ r ∈ rules, ¬ Applies cs r b a) ∧ HazFrom cs rules (b ++ [c]) rest)) := by
  cases h with
  | here _ _ i r h1 h2 h3 h4 h5 h6 => exact ⟨h1, .inl ⟨i, r, h2, h3, h4, h5, h6⟩⟩
  | replace _ s rest i r h1 h2 h3 =>
    refine ⟨?_, .inr (.inl ⟨s, rest, i, r, rfl, h1, h2, h3⟩)⟩
    intro e
    rw [(List.append_eq_nil_iff.1 e).1] at h2
    exact h1.2.1.1 (List.length_eq_zero_iff.1 h2.symm)
  | pass _ c rest h1 h2 => exact ⟨by simp, .inr (.inr ⟨c, rest, rfl, h1, h2⟩)⟩

theorem hazFrom_hazard {cs : Bool} {rules : List SRule} {text b a : List Nat} (h : HazFrom cs rules b a)
    (hv : Visits cs rules text b a) : Hazard cs rules text := by
  induction h with
  | here b a i r h1 h2 h3 h4 h5 h6 => exact ⟨b, a, i, r, hv, h1, h2, h3, h4, h5, h6⟩
  | replace b s rest i r h1 h2 _ ih => exact ih (.replace b s rest i r hv h1 h2)
  | pass b c rest h1 _ ih => exact ih (.pass b c rest hv h1)

theorem visits_hazFrom {cs : Bool} {rules : List SRule} {text b a : List Nat} (hv : Visits cs rules text b a)
    (h : HazFrom cs rules b a) : HazFrom cs rules [] text := by
  induction hv with
  | start => exact h
  | replace b s rest i r _ h1 h2 ih => exact ih (.replace b s rest i r h1 h2 h)
  | pass b c rest _ h1 ih => exact ih (.pass b c rest h1 h)

theorem hazard_iff (cs : Bool) (rules : List SRule) (text : List Nat) : Hazard cs rules text ↔ HazFrom cs rules [] text := by
  constructor
  · rintro ⟨b, a, i, r, hv, h1, h2, h3, h4, h5, h6⟩
    exact visits_hazFrom hv (.here b a i r h1 h2 h3 h4 h5 h6)
  · intro h
    exact hazFrom_hazard h .start

/-! ## The main loop -/

theorem applyLoop_spec (cap : Nat) (rs : RuleSet) (hb : rs.Built) (pa : List Nat) (h0 : ∀ b ∈ pa, b ≠ 0) (fuel pos : Nat)
    (pb fired : List Nat) (hp : pos ≤ pa.length) (hf : pa.length - pos < fuel) (hcap : pb.length < cap) :
    (∃ out used, applyLoop cap rs pa fuel pos pb fired = .ok (pb ++ out, fired ++ used) ∧
      Rewrites rs.caseSensitive rs.copyNoHit rs.spec (pa.take pos) (pa.drop pos) out used ∧ (pb ++ out).length < cap ∧
      ¬ HazFrom rs.caseSensitive rs.spec (pa.take pos) (pa.drop pos)) ∨
    (applyLoop cap rs pa fuel pos pb fired = .oob ∧ (HazFrom rs.caseSensitive rs.spec (pa.take pos) (pa.drop pos) ∨
      ∃ out used, Rewrites rs.caseSensitive rs.copyNoHit rs.spec (pa.take pos) (pa.drop pos) out used ∧
        cap ≤ (pb ++ out).length)) := by
  induction fuel generalizing pos pb fired with
  | zero => omega
  | succ fuel ih =>
    rw [applyLoop]
    cases hc : pa[pos]? with
    | none =>
      have hge : pa.length ≤ pos := List.getElem?_eq_none_iff.1 hc
      have hd : pa.drop pos = [] := List.drop_eq_nil_of_le hge
      rw [hd]
      refine .inl ⟨[], [], by simp, .done _, by simpa using hcap, ?_⟩
      intro h
      exact (hazFrom_inv h).1 rfl
    | some c =>
      have hlt : pos < pa.length := (List.getElem?_eq_some_iff.1 hc).1
      have hcv : pa[pos] = c := (List.getElem?_eq_some_iff.1 hc).2
      have hdrop : pa.drop pos = c :: pa.drop (pos + 1) := by
        rw [List.drop_eq_getElem_cons hlt, hcv]
      simp only
      have htl : (pa.take pos).length = pos := by simp; omega
      rcases lookup_spec rs hb pa pos c h0 hc with ⟨g1, g2, g3⟩ | ⟨i, r, g1, g2, g3, g4, g5⟩
      · rw [g1]
        simp only
        have htake : pa.take pos ++ [c] = pa.take (pos + 1) := by
          rw [List.take_add_one, hc]
          rfl
        have hnohere : HazFrom rs.caseSensitive rs.spec (pa.take pos) (pa.drop pos) →
            HazFrom rs.caseSensitive rs.spec (pa.take (pos + 1)) (pa.drop (pos + 1)) := by
          intro h
          rcases (hazFrom_inv h).2 with ⟨i, r, k1, k2, k3, k4, k5⟩ | ⟨s, rest, i, r, k1, k2, k3, k4⟩ | ⟨c', rest, k1, k2, k3⟩
          · have := g3 r (List.mem_of_getElem? k1) k2 k3
            omega
          · exact absurd k2.2.1 (g2 r k2.mem)
          · rw [hdrop] at k1
            cases k1
            rw [htake] at k3
            exact k3
        have key : ∀ pb' : List Nat, pb' = pb ++ (if rs.copyNoHit = true then [c] else []) → pb'.length < cap →
            (∃ out used, applyLoop cap rs pa fuel (pos + 1) pb' fired = .ok (pb ++ out, fired ++ used) ∧
              Rewrites rs.caseSensitive rs.copyNoHit rs.spec (pa.take pos) (pa.drop pos) out used ∧ (pb ++ out).length < cap ∧
              ¬ HazFrom rs.caseSensitive rs.spec (pa.take pos) (pa.drop pos)) ∨
            (applyLoop cap rs pa fuel (pos + 1) pb' fired = .oob ∧ (HazFrom rs.caseSensitive rs.spec (pa.take pos) (pa.drop pos) ∨
              ∃ out used, Rewrites rs.caseSensitive rs.copyNoHit rs.spec (pa.take pos) (pa.drop pos) out used ∧
                cap ≤ (pb ++ out).length)) := by
          intro pb' e hpb'
          rcases ih (pos + 1) pb' fired (by omega) (by omega) hpb' with ⟨out, used, k1, k2, k3, k4⟩ | ⟨k1, k2⟩
          · refine .inl ⟨(if rs.copyNoHit = true then [c] else []) ++ out, used, ?_, ?_, ?_, fun h => k4 (hnohere h)⟩
            · rw [k1, e]
              simp
            · rw [hdrop] at g2 ⊢
              exact .pass _ c _ out used g2 (by rw [htake]; exact k2)
            · rw [e, List.append_assoc] at k3
              exact k3
          · refine .inr ⟨k1, ?_⟩
            rcases k2 with k2 | ⟨out, used, k2, k3⟩
            · left
              rw [hdrop] at g2 ⊢
              exact .pass _ c _ g2 (by rw [htake]; exact k2)
            · right
              refine ⟨(if rs.copyNoHit = true then [c] else []) ++ out, used, ?_, ?_⟩
              · rw [hdrop] at g2 ⊢
                exact .pass _ c _ out used g2 (by rw [htake]; exact k2)
              · rw [e, List.append_assoc] at k3
                exact k3
        by_cases hk : rs.copyNoHit = true
        · rw [if_pos hk]
          by_cases hl : (pb ++ [c]).length < cap
          · rw [if_pos hl]
            exact key _ (by rw [if_pos hk]) hl
          · rw [if_neg hl]
            refine .inr ⟨rfl, .inr ?_⟩
            obtain ⟨out, used, h⟩ := rewrites_exists rs.caseSensitive rs.copyNoHit rs.spec _ (pa.take (pos + 1)) (pa.drop (pos + 1))
              (Nat.le_refl _)
            refine ⟨[c] ++ out, used, ?_, ?_⟩
            · have h2 := Rewrites.pass (cs := rs.caseSensitive) (keep := rs.copyNoHit) (rules := rs.spec) (pa.take pos) c
                (pa.drop (pos + 1)) out used (by rw [← hdrop]; exact g2) (by rw [htake]; exact h)
              rw [if_pos hk, ← hdrop] at h2
              exact h2
            · rw [← List.append_assoc, List.length_append]
              omega
        · rw [if_neg hk]
          exact key pb (by rw [if_neg hk]; simp) hcap
      · have hsound := hb.sound r (List.mem_of_getElem? g1) g2
        have hspec : rs.spec[i]? = some r.spec := (rules_split rs i r.spec).2 ⟨r, g1, rfl⟩
        rcases g5 with ⟨g5, ga⟩ | ⟨g5, gs, gl⟩
        · rw [g5]
          simp only
          have hfirst : FirstApplies rs.caseSensitive rs.spec (pa.take pos) (pa.drop pos) i r.spec := ⟨hspec, ga, g3⟩
          obtain ⟨_, _, _, s, rt, rest', _, e, _, al, _⟩ := ga
          have hsl : s.length = r.sin.length := al.length
          have hpos' : (↑pos + r.sinl).toNat = pos + s.length := by rw [hsound, hsl]; omega
          have hspos : 0 < r.sin.length := List.length_pos_iff.2 g2
          have hlen : pos + s.length ≤ pa.length := by
            have := congrArg List.length e
            simp only [List.length_drop, List.length_append] at this
            omega
          have hd2 : pa.drop (pos + s.length) = rt ++ rest' := by
            rw [← List.drop_drop, e]
            simp
          have htk : pa.take (pos + s.length) = pa.take pos ++ s := by
            rw [List.take_add, e]
            simp
          have hdr : pa.drop pos = s ++ pa.drop (pos + s.length) := by rw [hd2, e]
          rw [hpos']
          by_cases hl : (pb ++ r.sout).length < cap
          · rw [if_pos hl]
            rcases ih (pos + s.length) (pb ++ r.sout) (fired ++ [i + 1]) hlen (by omega) hl with ⟨out, used, k1, k2, k3, k4⟩ | ⟨k1, k2⟩
            · rw [htk] at k2 k4
              refine .inl ⟨r.sout ++ out, (i + 1) :: used, ?_, ?_, ?_, ?_⟩
              · rw [k1]
                simp
              · rw [hdr] at hfirst ⊢
                exact .replace _ s _ out used i r.spec hfirst hsl k2
              · rw [List.append_assoc] at k3
                exact k3
              · intro h
                rcases (hazFrom_inv h).2 with ⟨i', r', q1, q2, q3, q4, q5⟩ | ⟨s', rest, i', r', q1, q2, q3, q4⟩ | ⟨c', rest, q1, q2, q3⟩
                · rcases Nat.lt_trichotomy i' i with hh | hh | hh
                  · have := g4 i' r' hh q1 q2 q3
                    omega
                  · subst hh
                    rw [hspec] at q1
                    cases q1
                    have := hfirst.2.1.left
                    omega
                  · exact q5 i r.spec hh hspec hfirst.2.1
                · obtain ⟨w1, w2⟩ := hfirst.unique q2
                  subst w1 w2
                  rw [hdr] at q1
                  obtain ⟨w3, w4⟩ := append_len q1 (hsl.trans q3.symm)
                  subst w3
                  rw [← w4] at q4
                  exact k4 q4
                · exact q2 r.spec hfirst.mem hfirst.2.1
            · rw [htk] at k2
              refine .inr ⟨k1, ?_⟩
              rcases k2 with k2 | ⟨out, used, k2, k3⟩
              · left
                rw [hdr] at hfirst ⊢
                exact .replace _ s _ i r.spec hfirst hsl k2
              · right
                refine ⟨r.sout ++ out, (i + 1) :: used, ?_, ?_⟩
                · rw [hdr] at hfirst ⊢
                  exact .replace _ s _ out used i r.spec hfirst hsl k2
                · rw [List.append_assoc] at k3
                  exact k3
          · rw [if_neg hl]
            refine .inr ⟨rfl, .inr ?_⟩
            obtain ⟨out, used, h⟩ := rewrites_exists rs.caseSensitive rs.copyNoHit rs.spec _ (pa.take pos ++ s)
              (pa.drop (pos + s.length)) (Nat.le_refl _)
            refine ⟨r.sout ++ out, (i + 1) :: used, ?_, ?_⟩
            · rw [hdr] at hfirst ⊢
              exact .replace _ s _ out used i r.spec hfirst hsl h
            · rw [← List.append_assoc, List.length_append]
              omega
        · rw [g5]
          refine .inr ⟨rfl, .inl ?_⟩
          exact .here _ _ i r.spec (by rw [hdrop]; simp) hspec g2 gs (by rw [htl]; exact gl) g3

end Verif.Rfilter
