import Verif.Store.Unique
/-!
# Stored alignments: theorems C132 to C137
-/
set_option autoImplicit false
namespace Verif.Store
open Verif.Scorer

/-! ### A running example: two reference segments, a system with a superfluous word -/

def segA : Seg := ⟨1, 10, ['f'], ['1'], ['p'], 0, 2000⟩
def segB : Seg := ⟨2, 10, ['f'], ['1'], ['p'], 2000, 5000⟩
def r1 : Token := ⟨1, 0, 500, ['a'], false, segA⟩
def r2 : Token := ⟨2, 3000, 3500, ['b'], false, segB⟩
def hypSeg : Seg := ⟨9, 90, ['f'], ['1'], ['q'], 0, 5000⟩
def h1 : Token := ⟨11, 0, 500, ['a'], false, hypSeg⟩
def h2 : Token := ⟨12, 2500, 2600, ['x'], false, hypSeg⟩
def h3 : Token := ⟨13, 3000, 3500, ['b'], false, hypSeg⟩
/-- Columns `a a`, `- x`, `b b`; hypothesis first. -/
def demoGroup : Group := ⟨1, [[some h1, some r1], [some h2, none], [some h3, some r2]], [[segA, segB]]⟩
def demoPairs : List Pair := [(some r1, some h1), (none, some h2), (some r2, some h3)]
def demoSystem : System := ⟨['s'], [demoGroup], [demoPairs]⟩
/-- A second system that has the reference words only. -/
def demoGroup' : Group := ⟨1, [[some h1, some r1], [some h3, some r2]], [[segA, segB]]⟩
def demoSystem' : System := ⟨['t'], [demoGroup'], [[(some r1, some h1), (some r2, some h3)]]⟩
def plainSetting : Setting := ⟨fun a b => decide (a = b), "none".toList, false, []⟩

theorem demo_proper : Proper [demoSystem, demoSystem'] := by
  refine ⟨?_, by decide⟩
  intro s hs
  simp only [List.mem_cons, List.not_mem_nil, or_false] at hs
  rcases hs with e | e <;> subst e
  · refine ⟨⟨.cons _ _ _ _ ?_ ?_ ?_ .nil, by decide⟩, by decide⟩
    · exact .cons _ _ _ _ _ rfl rfl (.cons _ _ _ _ _ rfl rfl (.cons _ _ _ _ _ rfl rfl .nil))
    · unfold Filled; decide
    · refine ⟨?_, ?_, by decide⟩
      · intro h hh
        simp only [demoPairs, List.mem_cons, Prod.mk.injEq, reduceCtorEq, false_and, true_and, false_or, Option.some.injEq,
          or_false, List.not_mem_nil] at hh
        subst hh; decide
      · intro r h hh
        simp only [demoPairs, List.mem_cons, Prod.mk.injEq, reduceCtorEq, false_and, false_or, Option.some.injEq,
          or_false, List.not_mem_nil] at hh
        rcases hh with ⟨e, _⟩ | ⟨e, _⟩ <;> subst e <;> decide
  · refine ⟨⟨.cons _ _ _ _ ?_ ?_ ?_ .nil, by decide⟩, by decide⟩
    · exact .cons _ _ _ _ _ rfl rfl (.cons _ _ _ _ _ rfl rfl .nil)
    · unfold Filled; decide
    · refine ⟨?_, ?_, by decide⟩
      · intro h hh
        simp at hh
      · intro r h hh
        simp only [List.mem_cons, Prod.mk.injEq, Option.some.injEq,
          or_false, List.not_mem_nil] at hh
        rcases hh with ⟨e, _⟩ | ⟨e, _⟩ <;> subst e <;> decide

/-! ### C132 -/

/-- C132, for systems with different titles none of which is `REFERENCE`: after all systems have been stored, each
system has exactly the pairs of its own alignments, each once, every reference word under its own segment and every
superfluous word at its home, whatever the other systems are.  The program stops instead exactly when a superfluous word of
some system has no home. -/
theorem pairs_stored_partial (ss : List System) (hp : Proper ss) :
    (∃ A, addSystems [] (given ss) = .stored A ∧
      ∀ s ∈ ss, ∃ rows segs, AllPlaced s.groups s.pairs rows segs ∧ rows.map Prod.snd = s.pairs.flatten ∧
        (rowsOf s.title A).Perm rows) ∨
    (addSystems [] (given ss) = .exit ∧ ∃ s ∈ ss, ∀ rows segs, ¬ AllPlaced s.groups s.pairs rows segs) := by
  rcases addSystems_spec ss [] hp (fun _ _ => rfl) with ⟨A, e1, e2, _⟩ | h
  · left
    refine ⟨A, e1, ?_⟩
    intro s hs
    obtain ⟨rows, segs, f1, f2, _⟩ := e2 s hs
    exact ⟨rows, segs, f1, allPlaced_pairs f1, f2⟩
  · exact Or.inr h

/-- In the example the superfluous word `x` goes to the second segment: it does not overlap the first. -/
example : ∃ A, addSystems [] (given [demoSystem, demoSystem']) = .stored A ∧
    rowsOf ['s'] A = [(segA, some r1, some h1), (segB, none, some h2), (segB, some r2, some h3)] ∧
    rowsOf ['t'] A = [(segA, some r1, some h1), (segB, some r2, some h3)] := ⟨_, rfl, by decide, by decide⟩

/-- A title `REFERENCE`: what the system says is not stored; the reference is taken for its output. -/
theorem title_reference_loses (t : TA) (h : Option Token) :
    t.add "REFERENCE".toList h = t ∧ t.get "REFERENCE".toList = some t.ref := ⟨rfl, rfl⟩

/-- C132 fails for the title `REFERENCE`: a system that says nothing but wrong words is found to be perfect. -/
theorem title_reference_wrong : ∃ (g : Group) (A : Alignment),
    Shows g.split g.cols [(some r1, some h2), (some r2, some h1)] ∧
    addSystems [] [("REFERENCE".toList, [g])] = .stored A ∧ scores plainSetting ["REFERENCE".toList] A = true ∧
    verdictOf plainSetting (some r1, some h2) = some .substitution ∧
    verdictOf plainSetting (some r2, some h1) = some .substitution ∧
    ∀ s ∈ scored plainSetting "REFERENCE".toList A, ∀ v ∈ s.results, v = some .correct :=
  ⟨⟨1, [[some h2, some r1], [some h1, some r2]], [[segA, segB]]⟩, _,
    .cons _ _ _ _ _ rfl rfl (.cons _ _ _ _ _ rfl rfl .nil), rfl, by decide, by decide, by decide, by decide⟩

/-- The same for every input: with this title, words the comparison finds equal to themselves and no speaker
optimisation, every stored reference word is correct. -/
theorem title_reference_perfect (S : Setting) (heq : ∀ w, S.eqv w w = true) (hs : S.spkOpt = false) (A : Alignment)
    (hr : ∀ a ∈ segsOf A, ∀ t ∈ a.toks, t.ref ≠ none) :
    ∀ s ∈ scored S "REFERENCE".toList A, ∀ v ∈ s.results, v = some .correct := by
  intro s h v hv
  obtain ⟨a, ha, e⟩ := List.mem_map.1 h
  subst e
  obtain ⟨t, ht, e⟩ := List.mem_map.1 hv
  subst e
  have hg : t.get "REFERENCE".toList = some t.ref := rfl
  unfold judge
  rw [hg]
  dsimp only
  cases hx : t.ref with
  | none => exact absurd hx (hr a ha t ht)
  | some r => simp [verdict, heq, hs]

/-! ### C133 -/

/-- C133, for times in order: the search for the segment of a superfluous word ends within three turns, with its home, or
with the end of the program when it has none. -/
theorem insertion_home_partial (l r : Option Seg) (group : List Seg) (h : Token) (hh : h.start ≤ h.stop)
    (hl : ∀ s, l = some s → s.start ≤ s.stop) (hr : ∀ s, r = some s → s.start ≤ s.stop)
    (hg : ∀ s ∈ group, s.start ≤ s.stop) (n : Nat) (hn : 3 ≤ n) :
    (∃ s, seek l r group h n false false = .found (some s) ∧ Home l r group h s) ∨
    (seek l r group h n false false = .exit ∧ ∀ s, ¬ Home l r group h s) := by
  obtain ⟨m, e⟩ : ∃ m, n = m + 3 := ⟨n - 3, by omega⟩
  rw [e]
  exact seek_home l r group h hh hl hr hg m

example : seek (some segA) (some segB) [segA, segB] h2 3 false false = .found (some segB) := by decide

/-- There is at most one home. -/
theorem home_unique {l r : Option Seg} {group : List Seg} {h : Token} {s s' : Seg} (h1 : Home l r group h s)
    (h2 : Home l r group h s') : s = s' := by
  have first : ∀ {pre post pre' post' : List Seg}, group = pre ++ s :: post → group = pre' ++ s' :: post' →
      (∀ x ∈ pre, ¬ Overlaps h x) → (∀ x ∈ pre', ¬ Overlaps h x) → Overlaps h s → Overlaps h s' → s = s' := by
    intro pre post pre' post' e e' n n' o o'
    rw [e] at e'
    rcases List.append_eq_append_iff.1 e' with ⟨a, h1, h2⟩ | ⟨a, h1, h2⟩
    · cases a with
      | nil => simp at h2; exact h2.1
      | cons y a =>
        rw [List.cons_append] at h2
        injection h2 with h2 _
        exact absurd o (n' s (by rw [h1, h2]; simp))
    · cases a with
      | nil => simp at h2; exact h2.1.symm
      | cons y a =>
        rw [List.cons_append] at h2
        injection h2 with h2 _
        exact absurd o' (n s' (by rw [h1, h2]; simp))
  cases h1 with
  | left a1 a2 =>
    cases h2 with
    | left b1 b2 => rw [a1] at b1; injection b1
    | right b1 b2 b3 => exact absurd (a2 (b1 s a1).1) (b1 s a1).2
    | time pre post b1 b2 b3 b4 b5 => exact absurd (a2 (b1 s a1).1) (b1 s a1).2
  | right a1 a2 a3 =>
    cases h2 with
    | left b1 b2 => exact absurd (b2 (a1 s' b1).1) (a1 s' b1).2
    | right b1 b2 b3 => rw [a2] at b2; injection b2
    | time pre post b1 b2 b3 b4 b5 => exact absurd (a3 (b2 s a2).1) (b2 s a2).2
  | time pre post a1 a2 a3 a4 a5 =>
    cases h2 with
    | left b1 b2 => exact absurd (b2 (a1 s' b1).1) (a1 s' b1).2
    | right b1 b2 b3 => exact absurd (b3 (a2 s' b2).1) (a2 s' b2).2
    | time pre' post' b1 b2 b3 b4 b5 => exact first a3 b3 a4 b4 a5 b5

/-- C133 fails for a word that ends before it begins: the search never ends. -/
theorem insertion_search_endless : ∃ (group : List Seg) (h : Token), ∀ n,
    seek none none group h n false false = .running :=
  ⟨[⟨1, 10, ['f'], ['1'], ['p'], 500, 1000⟩], ⟨5, 500, 300, ['x'], false, hypSeg⟩,
    fun n => seek_forever _ _ _ _ (by decide) n⟩

/-! ### C134 -/

theorem row_token {k : Str} {A : Alignment} {w : Row} (h : w ∈ rowsOf k A) :
    ∃ a ∈ segsOf A, ∃ t ∈ a.toks, t.ref = w.2.1 ∧ t.get k = some w.2.2 := by
  obtain ⟨a, ha, hw⟩ := List.mem_flatMap.1 h
  obtain ⟨p, hp, e⟩ := List.mem_map.1 hw
  obtain ⟨t, ht, e'⟩ := List.mem_filterMap.1 hp
  refine ⟨a, ha, t, ht, ?_⟩
  subst e
  cases hg : t.get k with
  | none => rw [hg] at e'; cases e'
  | some x =>
    rw [hg] at e'
    simp only [Option.map_some, Option.some.injEq] at e'
    subst e'
    exact ⟨rfl, rfl⟩

theorem not_scores {S : Setting} {titles : List Str} {A : Alignment} {a : ASeg} {t : TA} {k : Str} (ha : a ∈ segsOf A)
    (ht : t ∈ a.toks) (hk : k ∈ titles) (h : judge S k t = none) : scores S titles A = false := by
  unfold scores
  rw [List.all_eq_false]
  refine ⟨a, ha, ?_⟩
  rw [Bool.not_eq_true, List.all_eq_false]
  refine ⟨t, ht, ?_⟩
  rw [Bool.not_eq_true, List.all_eq_false]
  exact ⟨k, hk, by rw [h]; decide⟩

/-- C134 fails in every case of two systems where one has a superfluous word: the scorer reads through a null
pointer. -/
theorem two_systems_crash (S : Setting) (ss : List System) (hp : Proper ss) (A : Alignment)
    (hA : addSystems [] (given ss) = .stored A) (s s' : System) (hs : s ∈ ss) (hs' : s' ∈ ss) (hne : s.title ≠ s'.title)
    (h : Token) (hins : (none, some h) ∈ s.pairs.flatten) : scores S (ss.map System.title) A = false := by
  rcases pairs_stored_partial ss hp with ⟨A1, e1, e2⟩ | ⟨e1, _⟩
  · rw [hA] at e1
    injection e1 with e1
    subst e1
    obtain ⟨rows, segs, _, f2, f3⟩ := e2 s hs
    rw [← f2] at hins
    obtain ⟨w, hw, ew⟩ := List.mem_map.1 hins
    obtain ⟨a, ha, t, ht, g1, g2⟩ := row_token (f3.mem_iff.2 hw)
    rw [ew] at g1 g2
    have hl := every_systems (P := Lone) _ _ _ (fun key _ => lone_new key) (fun key _ => lone_add key)
      (by intro a ha; cases ha) hA a ha t ht g1
    have hg : t.get s'.title = none := by
      cases hg : t.get s'.title with
      | none => rfl
      | some x =>
        exfalso
        exact hne (hl s.title s'.title (hp.1 s hs).2 (hp.1 s' hs').2 (by rw [g2]; intro c; cases c)
          (by rw [hg]; intro c; cases c))
    exact not_scores ha ht (List.mem_map.2 ⟨s', hs', rfl⟩) (by unfold judge; rw [hg])
  · rw [hA] at e1; cases e1

example : ∃ A, addSystems [] (given [demoSystem, demoSystem']) = .stored A ∧
    scores plainSetting [['s'], ['t']] A = false ∧ scores plainSetting [['t'], ['t']] A = false := ⟨_, rfl, by decide, by decide⟩

theorem verdictOf_some (S : Setting) (p : Pair) (h : p ≠ (none, none)) : ∃ v, verdictOf S p = some v := by
  obtain ⟨r, x⟩ := p
  cases r <;> cases x
  · exact absurd rfl h
  all_goals exact ⟨_, rfl⟩

theorem plan_filled {gs : List Group} {pss : List (List Pair)} (h : Plan gs pss) : Filled pss.flatten := by
  induction h with
  | nil => intro p hp; cases hp
  | cons g ps gs pss _ hf _ _ ih =>
    intro p hp
    rw [List.flatten_cons] at hp
    rcases List.mem_append.1 hp with hp | hp
    · exact hf p hp
    · exact ih p hp

theorem scores_iff (S : Setting) (titles : List Str) (A : Alignment) :
    scores S titles A = true ↔ ∀ a ∈ segsOf A, ∀ t ∈ a.toks, ∀ k ∈ titles, judge S k t ≠ none := by
  unfold scores
  simp only [List.all_eq_true]
  constructor
  · intro h a ha t ht k hk e
    have := h a ha t ht k hk
    rw [e] at this; cases this
  · intro h a ha t ht k hk
    cases hj : judge S k t with
    | none => exact absurd hj (h a ha t ht k hk)
    | some v => rfl

/-- C134 for a system alone: scoring never fails. -/
theorem one_system_scores_partial (S : Setting) (s : System) (hp : Proper [s]) (A : Alignment)
    (hA : addSystems [] (given [s]) = .stored A) : scores S [s.title] A = true ∧ Every (Has s.title) A := by
  have hk : s.title ≠ refKey := (hp.1 s (by simp)).2
  have hhas : Every (Has s.title) A := by
    have e : addSystems [] (given [s]) =
        match addGroups s.title [] s.groups with
        | .stored A' => .stored A'
        | r => r := by
      show (match addGroups s.title [] s.groups with
        | .stored A' => addSystems A' []
        | r => r) = _
      cases addGroups s.title [] s.groups <;> rfl
    rw [e] at hA
    cases hg : addGroups s.title [] s.groups with
    | stored A1 =>
      rw [hg] at hA
      injection hA with hA
      subst hA
      exact every_groups (has_new s.title) (fun t h _ ht => has_add s.title t h ht) _ _ _ (by intro a ha; cases ha) hg
    | exit => rw [hg] at hA; cases hA
    | hang => rw [hg] at hA; cases hA
    | crash => rw [hg] at hA; cases hA
  refine ⟨?_, hhas⟩
  rw [scores_iff]
  intro a ha t ht k hk' hj
  rw [List.mem_singleton] at hk'
  subst hk'
  rcases pairs_stored_partial [s] hp with ⟨A1, e1, e2⟩ | ⟨e1, _⟩
  · rw [hA] at e1
    injection e1 with e1
    subst e1
    obtain ⟨rows, segs, _, f2, f3⟩ := e2 s (by simp)
    cases hg : t.get s.title with
    | none => exact hhas a ha t ht hg
    | some x =>
      have hrow : (a.seg, t.ref, x) ∈ rowsOf s.title A := by
        refine List.mem_flatMap.2 ⟨a, ha, List.mem_map.2 ⟨(t.ref, x), List.mem_filterMap.2 ⟨t, ht, ?_⟩, rfl⟩⟩
        rw [hg]; rfl
      have hmem : (t.ref, x) ∈ s.pairs.flatten := by
        rw [← f2]; exact List.mem_map.2 ⟨_, f3.mem_iff.1 hrow, rfl⟩
      obtain ⟨v, hv⟩ := verdictOf_some S (t.ref, x) (plan_filled (hp.1 s (by simp)).1.1 _ hmem)
      unfold judge at hj
      rw [hg] at hj
      unfold verdictOf at hv
      dsimp only at hj hv
      rw [hv] at hj; cases hj
  · rw [hA] at e1; cases e1

/-- C134, exactly: the scorer runs through all systems if and only if there is one title only or no system has a
superfluous word, and all systems have the same reference words among their pairs. -/
theorem several_systems_score_partial (S : Setting) (ss : List System) (hp : Proper ss) (A : Alignment)
    (hA : addSystems [] (given ss) = .stored A) :
    scores S (ss.map System.title) A = true ↔
      ∀ s ∈ ss, ∀ s' ∈ ss, s.title ≠ s'.title →
        (∀ h, (none, some h) ∉ s.pairs.flatten) ∧ ∀ r ∈ refWords s.pairs.flatten, r ∈ refWords s'.pairs.flatten := by
  have hrun := addSystems_spec ss [] hp (fun _ _ => rfl)
  obtain ⟨e2, hwell⟩ : (∀ s ∈ ss, ∃ rows segs, AllPlaced s.groups s.pairs rows segs ∧ (rowsOf s.title A).Perm rows ∧
      ∀ x ∈ segs, x ∈ segNames A) ∧ (Well [] → Well A) := by
    rcases hrun with ⟨A1, e1, e2, _, _, hwell⟩ | ⟨e1, _⟩
    · rw [hA] at e1
      injection e1 with e1
      subst e1
      exact ⟨e2, hwell⟩
    · rw [hA] at e1; cases e1
  have hw : (segNames A).Nodup := well_nodup A (hwell ⟨by simp, by simp⟩)
  have htidy := tidy_systems _ _ _ (by intro a ha; cases ha) hA
  have hsome := every_systems (P := fun t => ∃ k ∈ ss.map System.title, t.get k ≠ none) _ _ _
    (fun key hk r h => ⟨key, by
      have : (given ss).map Prod.fst = ss.map System.title := by unfold given; rw [List.map_map]; rfl
      rw [← this]; exact hk, has_new key r h⟩)
    (fun key hk t h _ ⟨k, h1, h2⟩ => ⟨k, h1, by
      by_cases e : k = key
      · subst e; exact has_add k t h h2
      · rw [get_add_other e]; exact h2⟩)
    (by intro a ha; cases ha) hA
  -- a stored entry belongs to the pairs of its system
  have mem_pairs : ∀ s ∈ ss, ∀ a ∈ segsOf A, ∀ t ∈ a.toks, ∀ x, t.get s.title = some x → (t.ref, x) ∈ s.pairs.flatten := by
    intro s hs a ha t ht x hx
    obtain ⟨rows, segs, f1, f2, _⟩ := e2 s hs
    have hrow : (a.seg, t.ref, x) ∈ rowsOf s.title A := by
      refine List.mem_flatMap.2 ⟨a, ha, List.mem_map.2 ⟨(t.ref, x), List.mem_filterMap.2 ⟨t, ht, ?_⟩, rfl⟩⟩
      rw [hx]; rfl
    rw [← allPlaced_pairs f1]
    exact List.mem_map.2 ⟨_, f2.mem_iff.1 hrow, rfl⟩
  have of_pairs : ∀ s ∈ ss, ∀ p ∈ s.pairs.flatten, ∃ a ∈ segsOf A, ∃ t ∈ a.toks, t.ref = p.1 ∧ t.get s.title = some p.2 := by
    intro s hs p hpp
    obtain ⟨rows, segs, f1, f2, _⟩ := e2 s hs
    rw [← allPlaced_pairs f1] at hpp
    obtain ⟨w, hww, ew⟩ := List.mem_map.1 hpp
    have := row_token (f2.mem_iff.2 hww)
    rw [ew] at this
    exact this
  constructor
  · intro hsc s hs s' hs' hne
    refine ⟨?_, ?_⟩
    · intro h hins
      have := two_systems_crash S ss hp A hA s s' hs hs' hne h hins
      rw [hsc] at this; cases this
    · intro r hr
      obtain ⟨p, hpp, ep⟩ := List.mem_filterMap.1 hr
      obtain ⟨a, ha, t, ht, g1, g2⟩ := of_pairs s hs p hpp
      have hj := (scores_iff S _ A).1 hsc a ha t ht s'.title (List.mem_map.2 ⟨s', hs', rfl⟩)
      cases hg : t.get s'.title with
      | none => exact absurd (by unfold judge; rw [hg]) hj
      | some x =>
        have := mem_pairs s' hs' a ha t ht x hg
        exact List.mem_filterMap.2 ⟨_, this, by rw [g1]; exact ep⟩
  · intro hcond
    rw [scores_iff]
    intro a ha t ht k hk hj
    obtain ⟨s', hs', ek⟩ := List.mem_map.1 hk
    subst ek
    obtain ⟨k0, hk0, hg0⟩ := hsome a ha t ht
    obtain ⟨s, hs, ek⟩ := List.mem_map.1 hk0
    subst ek
    cases hg : t.get s.title with
    | none => exact hg0 hg
    | some x =>
      have hin := mem_pairs s hs a ha t ht x hg
      -- the entry for `s'`
      have hhas : ∃ y, t.get s'.title = some y := by
        by_cases e : s.title = s'.title
        · exact ⟨x, by rw [← e]; exact hg⟩
        · obtain ⟨c1, c2⟩ := hcond s hs s' hs' e
          cases hr : t.ref with
          | none =>
            rw [hr] at hin
            cases x with
            | none => exact absurd rfl (plan_filled (hp.1 s hs).1.1 _ hin)
            | some h => exact absurd hin (c1 h)
          | some r =>
            have hrm : r ∈ refWords s.pairs.flatten := List.mem_filterMap.2 ⟨_, hin, hr⟩
            obtain ⟨p, hpp, ep⟩ := List.mem_filterMap.1 (c2 r hrm)
            obtain ⟨b, hb, u, hu, g1, g2⟩ := of_pairs s' hs' p hpp
            have hur : u.ref = some r := by rw [g1]; exact ep
            have eab : a = b := names_eq hw ha hb (by
              rw [← (htidy a ha).2 t ht r hr, ← (htidy b hb).2 u hu r hur])
            subst eab
            have : t = u := refs_eq (htidy a ha).1 ht hu hr hur
            rw [this]
            exact ⟨_, g2⟩
      obtain ⟨y, hy⟩ := hhas
      have hin' := mem_pairs s' hs' a ha t ht y hy
      obtain ⟨v, hv⟩ := verdictOf_some S (t.ref, y) (plan_filled (hp.1 s' hs').1.1 _ hin')
      unfold judge at hj
      unfold verdictOf at hv
      rw [hy] at hj
      dsimp only at hj hv
      rw [hv] at hj; cases hj

/-- Two systems with the same reference words and nothing superfluous. -/
example : ∃ A, addSystems [] [(['s'], [demoGroup']), (['t'], [⟨1, [[none, some r1], [some h1, some r2]], [[segA, segB]]⟩])] =
    .stored A ∧ scores plainSetting [['s'], ['t']] A = true := ⟨_, rfl, by decide⟩

/-! ### C135, C136 -/

/-- C135 and C136 for a system alone: the report shows for each speaker the numbers of verdicts on the pairs that belong
under the speaker's segments, each pair counted once, and the number of different segments among those that
are to appear. -/
theorem report_of_pairs_partial (S : Setting) (s : System) (hp : Proper [s]) (A : Alignment)
    (hA : addSystems [] (given [s]) = .stored A) :
    ∃ rows segs m, AllPlaced s.groups s.pairs rows segs ∧ rows.map Prod.snd = s.pairs.flatten ∧
      generate (fun _ => none) [scored S s.title A] = [m] ∧
      (∀ spk, (m spk).isSome = true ↔ ∃ x ∈ segs, x.speaker = spk) ∧
      ∃ shown : List Seg, shown.Nodup ∧ (∀ x, x ∈ shown ↔ x ∈ segs) ∧
        ∀ spk d, m spk = some d →
          d.correct = tallyRows S .correct spk rows ∧ d.subs = tallyRows S .substitution spk rows ∧
          d.spkErrs = tallyRows S .speakerSub spk rows ∧ d.dels = tallyRows S .deletion spk rows ∧
          d.ins = tallyRows S .insertion spk rows ∧
          d.refWords = d.correct + d.subs + d.spkErrs + d.dels ∧
          d.segments = shown.countP (fun x => x.speaker = spk) := by
  obtain ⟨hsc, hhas⟩ := one_system_scores_partial S s hp A hA
  have hk : s.title ≠ refKey := (hp.1 s (by simp)).2
  -- the run again, with the segments
  have e : addSystems [] (given [s]) =
      match addGroups s.title [] s.groups with
      | .stored A' => .stored A'
      | r => r := by
    show (match addGroups s.title [] s.groups with
      | .stored A' => addSystems A' []
      | r => r) = _
    cases addGroups s.title [] s.groups <;> rfl
  rw [e] at hA
  rcases addGroups_spec hk (hp.1 s (by simp)).1.1 [] (hp.1 s (by simp)).1.2 (fun t _ w hw => by cases hw) with
    ⟨A1, rows, segs, e1, e2, e3⟩ | ⟨e1, e2⟩
  · rw [e1] at hA
    injection hA with hA
    subst hA
    have hperm : (rowsOf s.title A1).Perm rows := by
      have := e3.own
      rwa [show rowsOf s.title [] = [] from rfl, List.append_nil] at this
    have hav : ∀ x ∈ scored S s.title A1, ∀ r ∈ x.results, r ≠ none := by
      intro x hx r hr
      obtain ⟨a, ha, ex⟩ := List.mem_map.1 hx
      subst ex
      obtain ⟨t, ht, er⟩ := List.mem_map.1 hr
      subst er
      exact (scores_iff S _ A1).1 hsc a ha t ht s.title (by simp)
    obtain ⟨m, ms, g1, g2⟩ := first_report_right_partial (scored S s.title A1) [] hav
    have hms : ms = [] := by
      unfold generate at g1
      injection g1 with _ g1
      exact g1.symm
    subst hms
    have hnames : ∀ x, x ∈ segNames A1 ↔ x ∈ segs := by
      intro x
      rw [e3.names x]
      simp [segNames, segsOf]
    have hspk : ∀ spk, (∃ x ∈ scored S s.title A1, x.speaker = spk) ↔ ∃ x ∈ segs, x.speaker = spk := by
      intro spk
      constructor
      · rintro ⟨x, hx, ex⟩
        obtain ⟨a, ha, e⟩ := List.mem_map.1 hx
        subst e
        exact ⟨a.seg, (hnames _).1 (List.mem_map.2 ⟨a, ha, rfl⟩), ex⟩
      · rintro ⟨x, hx, ex⟩
        obtain ⟨a, ha, e⟩ := List.mem_map.1 ((hnames x).2 hx)
        subst e
        exact ⟨_, List.mem_map.2 ⟨a, ha, rfl⟩, ex⟩
    refine ⟨rows, segs, m, e2, allPlaced_pairs e2, g1, ?_, segNames A1, ?_, hnames, ?_⟩
    · intro spk
      rw [g2 spk, ← hspk]
      by_cases c : ∃ x ∈ scored S s.title A1, x.speaker = spk
      · rw [if_pos c]; simp [c]
      · rw [if_neg c]; simp [c]
    · exact well_nodup _ (e3.well ⟨by simp, by simp⟩)
    · intro spk d hd
      rw [g2 spk] at hd
      split at hd
      · injection hd with hd
        subst hd
        refine ⟨howMany_rows S _ spk _ A1 rows hhas hperm, howMany_rows S _ spk _ A1 rows hhas hperm,
          howMany_rows S _ spk _ A1 rows hhas hperm, howMany_rows S _ spk _ A1 rows hhas hperm,
          howMany_rows S _ spk _ A1 rows hhas hperm, rfl, ?_⟩
        show ((scored S s.title A1).filter fun x => x.speaker = spk).length = _
        unfold scored segNames
        rw [← List.countP_eq_length_filter, List.countP_map, List.countP_map]
        rfl
      · cases hd
  · rw [e1] at hA; cases hA

theorem demo_alone : Proper [demoSystem] :=
  ⟨fun s hs => demo_proper.1 s (by simp at hs; simp [hs]), by decide⟩

example : ∃ A m, addSystems [] (given [demoSystem]) = .stored A ∧
    generate (fun _ => none) [scored plainSetting ['s'] A] = [m] ∧ m ['p'] = some ⟨2, 2, 2, 0, 0, 0, 1, 1⟩ :=
  ⟨_, _, rfl, rfl, by decide⟩

/-- C136 in full fails: a reference segment without words is counted when its group is empty, and not counted when
another segment of its group has a word. -/
theorem empty_segment_counted_or_not :
    ∃ A A' m m', addSystems [] [(['s'], [⟨1, [], [[segA, segB]]⟩])] = .stored A ∧
      addSystems [] [(['s'], [⟨1, [[none, some r2]], [[segA, segB]]⟩])] = .stored A' ∧
      generate (fun _ => none) [scored plainSetting ['s'] A] = [m] ∧
      generate (fun _ => none) [scored plainSetting ['s'] A'] = [m'] ∧
      (m ['p']).map Datas.segments = some 2 ∧ (m' ['p']).map Datas.segments = some 1 :=
  ⟨_, _, _, _, rfl, rfl, rfl, rfl, by decide, by decide⟩

/-! ### C137 -/

theorem difficulty_fold : ∀ (ns : List Nat) (a : Nat), ns.foldl (fun res n => res * (n + 1) % 2 ^ 64) (a % 2 ^ 64) =
    (a * cells ns) % 2 ^ 64 := by
  intro ns
  induction ns with
  | nil => intro a; simp [cells]
  | cons n ns ih =>
    intro a
    rw [List.foldl_cons]
    have : a % 2 ^ 64 * (n + 1) % 2 ^ 64 = (a * (n + 1)) % 2 ^ 64 := by
      rw [Nat.mod_mul_mod]
    rw [this, ih]
    rw [cells, Nat.mul_assoc]

/-- The computed size is the number of cells modulo 2^64. -/
theorem difficulty_mod (ns : List Nat) : difficulty ns = cells ns % 2 ^ 64 := by
  have := difficulty_fold ns 1
  rw [Nat.one_mul] at this
  exact this

theorem cells_append (a b : List Nat) : cells (a ++ b) = cells a * cells b := by
  induction a with
  | nil => simp [cells]
  | cons n a ih => rw [List.cons_append, cells, cells, ih, Nat.mul_assoc]

theorem cells_hyps (refs hyps : List Nat) :
    cells (refs ++ (if hyps = [] then [0] else hyps)) = cells (refs ++ hyps) := by
  cases hyps with
  | nil => simp [cells_append, cells]
  | cons a b => simp

/-- C137 for tables of fewer than 2^64 cells: a group is aligned exactly when it is not marked to be ignored, is the
only one wanted, the number of its reference speakers and of its cells is within the limits, and its table fits or
compression is allowed; the table is compressed exactly when that is forced or the table does not fit. -/
theorem group_decision_partial (L : Limits) (g : Sized) (hc : cells (g.refs ++ g.hyps) < 2 ^ 64) (comp : Bool) :
    decideGroup L g = some comp ↔
      g.ignored = false ∧ (∀ i, L.onlySG = some i → g.id = i) ∧
      g.refs.length ≤ L.maxOverlap ∧ L.minOverlap ≤ g.refs.length ∧
      (∀ d, L.maxDifficulty = some d → cells (g.refs ++ g.hyps) ≤ d) ∧
      (∀ d, L.minDifficulty = some d → d ≤ cells (g.refs ++ g.hyps)) ∧
      (L.compression = true ∨ L.forced = true ∨
        (cells (g.refs ++ g.hyps) ≤ L.maxCells ∧ cells (g.refs ++ g.hyps) ≤ twoGb)) ∧
      (comp = true ↔ L.forced = true ∨ L.maxCells < cells (g.refs ++ g.hyps) ∨ twoGb < cells (g.refs ++ g.hyps)) := by
  have hd : difficulty (g.refs ++ (if g.hyps = [] then [0] else g.hyps)) = cells (g.refs ++ g.hyps) := by
    rw [difficulty_mod, cells_hyps, Nat.mod_eq_of_lt hc]
  unfold decideGroup
  simp only [hd]
  generalize cells (g.refs ++ g.hyps) = c
  obtain ⟨maxO, minO, only, maxD, minD, maxC, compr, forced⟩ := L
  obtain ⟨ign, id, refs, hyps⟩ := g
  dsimp only
  cases ign with
  | true => simp
  | false =>
    simp only [Bool.not_false, Bool.true_and]
    by_cases p1 : ∀ i, only = some i → id = i
    · have q1 : only.any (fun i => decide (id ≠ i)) = false := by
        cases only with
        | none => rfl
        | some i => simp [p1 i rfl]
      simp only [q1, Bool.false_eq_true, if_false]
      by_cases p2 : refs.length > maxO
      · simp [p2]; omega
      · simp only [p2, decide_false, Bool.and_false, Bool.false_eq_true, if_false]
        by_cases p3 : refs.length < minO
        · simp [p3]; omega
        · simp only [p3, decide_false, Bool.and_false, Bool.false_eq_true, if_false]
          by_cases p4 : ∀ d, maxD = some d → c ≤ d
          · have q4 : maxD.any (fun d => decide (c > d)) = false := by
              cases maxD with
              | none => rfl
              | some d => have := p4 d rfl; simp; omega
            simp only [q4, Bool.and_false, Bool.false_eq_true, if_false]
            by_cases p5 : ∀ d, minD = some d → d ≤ c
            · have q5 : minD.any (fun d => decide (c < d)) = false := by
                cases minD with
                | none => rfl
                | some d => have := p5 d rfl; simp; omega
              simp only [q5, Bool.and_false, Bool.false_eq_true, if_false]
              have hR : ∀ (X : Prop), (True ∧ (∀ i, only = some i → id = i) ∧ refs.length ≤ maxO ∧
                  minO ≤ refs.length ∧ (∀ d, maxD = some d → c ≤ d) ∧ (∀ d, minD = some d → d ≤ c) ∧ X) ↔ X :=
                fun X => ⟨fun h => h.2.2.2.2.2.2, fun h => ⟨trivial, p1, by omega, by omega, p4, p5, h⟩⟩
              rw [hR]
              by_cases p6 : c > maxC ∨ c > twoGb
              · have q6 : (decide (c > maxC) || decide (c > twoGb)) = true := by simp [p6]
                cases compr <;> cases forced <;> cases comp <;> simp [q6] <;> omega
              · have q6 : (decide (c > maxC) || decide (c > twoGb)) = false := by
                  simp only [Bool.or_eq_false_iff, decide_eq_false_iff_not]; omega
                cases compr <;> cases forced <;> cases comp <;> simp [q6] <;> omega
            · have q5 : minD.any (fun d => decide (c < d)) = true := by
                cases minD with
                | none => exact absurd (fun d h => by cases h) p5
                | some d =>
                  simp only [Option.any_some, decide_eq_true_eq]
                  refine Classical.byContradiction fun hn => p5 ?_
                  intro d' e; cases e; omega
              simp only [q5, Bool.and_true, Bool.not_false, if_true]
              simp [p5]
          · have q4 : maxD.any (fun d => decide (c > d)) = true := by
              cases maxD with
              | none => exact absurd (fun d h => by cases h) p4
              | some d =>
                simp only [Option.any_some, decide_eq_true_eq]
                refine Classical.byContradiction fun hn => p4 ?_
                intro d' e; cases e; omega
            simp only [q4, Bool.and_true, Bool.not_false, if_true]
            simp [p4]
    · have q1 : only.any (fun i => decide (id ≠ i)) = true := by
        cases only with
        | none => exact absurd (fun d h => by cases h) p1
        | some d =>
          simp only [Option.any_some, decide_eq_true_eq]
          intro e
          exact p1 (fun i h => by cases h; exact e)
      simp only [q1, if_true]
      simp [p1]

example : decideGroup ⟨8, 0, none, none, none, twoGb, false, false⟩ ⟨false, 1, [10, 20], [25]⟩ = some false := by decide

/-- C137 in full fails: for four streams of 65535 words the number of cells is 2^64, which is computed as 0, so the group is
taken to fit into any memory. -/
theorem difficulty_wraps : cells [65535, 65535, 65535, 65535] = 2 ^ 64 ∧
    decideGroup ⟨8, 0, none, some 1, none, 1, false, false⟩ ⟨false, 1, [65535, 65535, 65535], [65535]⟩ = some false := by
  decide

end Verif.Store
