import Verif.Expand.State
/-!
# Links between tokens
-/
set_option autoImplicit false
namespace Verif.Expand

theorem upd_same {α : Type} (f : Nat → α) (k : Nat) (v : α) : upd f k v k = v := by simp [upd]
theorem upd_other {α : Type} (f : Nat → α) (k : Nat) (v : α) {n : Nat} (h : n ≠ k) : upd f k v n = f n := by simp [upd, h]

theorem link_next (a b : Nat) (s : Store) (x : Nat) : (link a b s).next x = if x = a then s.next x ++ [b] else s.next x := by
  simp only [link, upd]
  split
  · rename_i h; subst h; rfl
  · rfl

theorem link_prec (a b : Nat) (s : Store) (y : Nat) : (link a b s).prec y = if y = b then s.prec y ++ [a] else s.prec y := by
  simp only [link, upd]
  split
  · rename_i h; subst h; rfl
  · rfl

theorem link_sym {s : Store} (h : Sym s) (a b : Nat) : Sym (link a b s) := by
  intro x y
  rw [link_next, link_prec]
  have := h x y
  by_cases h1 : x = a <;> by_cases h2 : y = b
  · rw [if_pos h1, if_pos h2, List.count_append, List.count_append, this, h1, h2]; simp
  · rw [if_pos h1, if_neg h2, List.count_append, this]
    simp [Ne.symm h2]
  · rw [if_neg h1, if_pos h2, List.count_append, this]
    simp [Ne.symm h1]
  · rw [if_neg h1, if_neg h2, this]

theorem linkAll_sym (ps : List (Nat × Nat)) : ∀ {s : Store}, Sym s → Sym (linkAll ps s) := by
  induction ps with
  | nil => intro s h; exact h
  | cons p ps ih => intro s h; exact ih (link_sym h p.1 p.2)

theorem linkAll_tok (ps : List (Nat × Nat)) : ∀ s : Store, (linkAll ps s).tok = s.tok ∧ (linkAll ps s).fresh = s.fresh := by
  induction ps with
  | nil => intro s; exact ⟨rfl, rfl⟩
  | cons p ps ih =>
    intro s
    obtain ⟨h1, h2⟩ := ih (link p.1 p.2 s)
    exact ⟨h1, h2⟩

theorem linkAll_mem (ps : List (Nat × Nat)) : ∀ (s : Store) (x y : Nat), y ∈ (linkAll ps s).next x ↔ y ∈ s.next x ∨ (x, y) ∈ ps := by
  induction ps with
  | nil => intro s x y; simp [linkAll]
  | cons p ps ih =>
    intro s x y
    rw [linkAll, ih, link_next]
    obtain ⟨a, b⟩ := p
    by_cases h : x = a
    · subst h
      simp [or_assoc]
    · simp [h]

theorem linkAll_next (ps : List (Nat × Nat)) : ∀ (s : Store) (x : Nat), (∀ p ∈ ps, p.1 ≠ x) → (linkAll ps s).next x = s.next x := by
  induction ps with
  | nil => intro s x _; rfl
  | cons p ps ih =>
    intro s x h
    rw [linkAll, ih _ x (fun q hq => h q (List.mem_cons_of_mem _ hq)), link_next, if_neg]
    exact fun e => h p List.mem_cons_self e.symm

theorem linkAll_prec (ps : List (Nat × Nat)) : ∀ (s : Store) (x : Nat), (∀ p ∈ ps, p.2 ≠ x) → (linkAll ps s).prec x = s.prec x := by
  induction ps with
  | nil => intro s x _; rfl
  | cons p ps ih =>
    intro s x h
    rw [linkAll, ih _ x (fun q hq => h q (List.mem_cons_of_mem _ hq)), link_prec, if_neg]
    exact fun e => h p List.mem_cons_self e.symm

theorem sym_mem {s : Store} (h : Sym s) (x y : Nat) : y ∈ s.next x ↔ x ∈ s.prec y := by
  rw [← List.count_pos_iff, ← List.count_pos_iff, h x y]

theorem count_erase_other (l : List Nat) {a b : Nat} (h : a ≠ b) : (l.erase b).count a = l.count a := List.count_erase_of_ne h

theorem unlink_spec {s : Store} (h : Sym s) {a b : Nat} (hm : a ∈ s.prec b) :
    ∃ s', unlink a b s = some s' ∧ Sym s' ∧ (∀ x, s'.next x = if x = a then (s.next x).erase b else s.next x) ∧
      (∀ y, s'.prec y = if y = b then (s.prec y).erase a else s.prec y) ∧ s'.tok = s.tok ∧ s'.fresh = s.fresh := by
  have hm2 := (sym_mem h a b).2 hm
  refine ⟨{ s with next := upd s.next a ((s.next a).erase b), prec := upd s.prec b ((s.prec b).erase a) }, by rw [unlink, if_pos ⟨hm2, hm⟩], ?_, ?_, ?_, rfl, rfl⟩
  · intro x y
    have := h x y
    simp only [upd]
    by_cases h1 : x = a <;> by_cases h2 : y = b
    · subst h1; subst h2
      rw [if_pos rfl, if_pos rfl, List.count_erase_self, List.count_erase_self, this]
    · subst h1
      rw [if_pos rfl, if_neg h2, count_erase_other _ h2, this]
    · subst h2
      rw [if_neg h1, if_pos rfl, count_erase_other _ h1, this]
    · rw [if_neg h1, if_neg h2, this]
  · intro x
    simp only [upd]
    split
    · rename_i e; subst e; rfl
    · rfl
  · intro x
    simp only [upd]
    split
    · rename_i e; subst e; rfl
    · rfl

theorem drainPrec_spec (t : Nat) : ∀ (n : Nat) (s : Store), Sym s → (s.prec t).length = n →
    ∃ s', drainPrec t n s = some s' ∧ Sym s' ∧ s'.prec t = [] ∧ (∀ x y, y ≠ t → (y ∈ s'.next x ↔ y ∈ s.next x)) ∧
      (∀ x, t ∉ s.next x → s'.next x = s.next x) ∧ s'.tok = s.tok ∧ s'.fresh = s.fresh := by
  intro n
  induction n with
  | zero =>
    intro s h hl
    exact ⟨s, rfl, h, List.length_eq_zero_iff.1 hl, fun _ _ _ => Iff.rfl, fun _ _ => rfl, rfl, rfl⟩
  | succ n ih =>
    intro s h hl
    cases hp : s.prec t with
    | nil => rw [hp] at hl; simp at hl
    | cons x l =>
      obtain ⟨s1, h1, h2, h3, h4, h5, h6⟩ := unlink_spec h (a := x) (b := t) (by rw [hp]; simp)
      have hl1 : (s1.prec t).length = n := by
        rw [h4, if_pos rfl, hp, List.erase_cons_head]
        rw [hp] at hl
        simpa using hl
      obtain ⟨s2, g1, g2, g3, g4, g5, g6, g7⟩ := ih s1 h2 hl1
      refine ⟨s2, by rw [drainPrec, hp]; simp only [h1, g1], g2, g3, ?_, ?_, g6.trans h5, g7.trans h6⟩
      · intro z y hy
        rw [g4 z y hy, h3]
        split
        · exact List.mem_erase_of_ne hy
        · rfl
      · intro z hz
        have e : s1.next z = s.next z := by
          rw [h3]
          split
          · exact List.erase_of_not_mem hz
          · rfl
        rw [g5 z (by rw [e]; exact hz), e]

theorem drainNext_spec (t : Nat) : ∀ (n : Nat) (s : Store), Sym s → (s.next t).length = n →
    ∃ s', drainNext t n s = some s' ∧ Sym s' ∧ s'.next t = [] ∧ (∀ x, x ≠ t → s'.next x = s.next x) ∧ (s.prec t = [] → s'.prec t = []) ∧
      s'.tok = s.tok ∧ s'.fresh = s.fresh := by
  intro n
  induction n with
  | zero =>
    intro s h hl
    exact ⟨s, rfl, h, List.length_eq_zero_iff.1 hl, fun _ _ => rfl, fun e => e, rfl, rfl⟩
  | succ n ih =>
    intro s h hl
    cases hp : s.next t with
    | nil => rw [hp] at hl; simp at hl
    | cons y l =>
      obtain ⟨s1, h1, h2, h3, h4, h5, h6⟩ := unlink_spec h (a := t) (b := y) ((sym_mem h t y).1 (by rw [hp]; simp))
      have hl1 : (s1.next t).length = n := by
        rw [h3, if_pos rfl, hp, List.erase_cons_head]
        rw [hp] at hl
        simpa using hl
      obtain ⟨s2, g1, g2, g3, g4, g5, g6, g7⟩ := ih s1 h2 hl1
      refine ⟨s2, by rw [drainNext, hp]; simp only [h1, g1], g2, g3, ?_, ?_, g6.trans h5, g7.trans h6⟩
      · intro z hz
        rw [g4 z hz, h3, if_neg hz]
      · intro e
        refine g5 ?_
        rw [h4]
        split
        · rename_i e'; subst e'; rw [e]; rfl
        · exact e

/-- What `ReplaceTokenWith` does to the links and the ends of its segment. -/
theorem replace_spec {s : Store} (hs : Sym s) {sg : Seg} {t : Nat} {S T : List Nat} (hloop : t ∉ s.next t) (hS : t ∉ S) (hT : t ∉ T)
    (hF : t ∈ sg.first → ∀ x ∈ S, ¬ ((s.tok x).start ≠ -1 ∧ (s.tok x).start < sg.start))
    (hL : t ∈ sg.last → ∀ x ∈ T, ¬ ((s.tok x).stop ≠ -1 ∧ (s.tok x).stop > sg.stop)) :
    ∃ s' sg', replace t S T s sg = some (s', sg') ∧ Sym s' ∧ s'.tok = s.tok ∧ s'.fresh = s.fresh ∧
      (∀ x y, y ∈ s'.next x ↔ x ≠ t ∧ y ≠ t ∧ (y ∈ s.next x ∨ (t ∈ s.next x ∧ y ∈ S) ∨ (x ∈ T ∧ y ∈ s.next t))) ∧
      (∀ x, x ≠ t → t ∉ s.next x → x ∉ T → s'.next x = s.next x) ∧
      sg'.first = (if t ∈ sg.first then sg.first ++ S else sg.first).erase t ∧
      sg'.last = (if t ∈ sg.last then sg.last ++ T else sg.last).erase t ∧ sg'.start = sg.start ∧ sg'.stop = sg.stop := by
  have firsts : ∀ (xs : List Nat) (tok : Nat → Tok) (g : Seg), (∀ x ∈ xs, ¬ ((tok x).start ≠ -1 ∧ (tok x).start < g.start)) →
      addFirsts tok xs g = some { g with first := g.first ++ xs } := by
    intro xs
    induction xs with
    | nil => intro tok g _; simp [addFirsts]
    | cons x xs ih =>
      intro tok g h
      rw [addFirsts, if_neg (h x List.mem_cons_self), ih tok { g with first := g.first ++ [x] } (fun z hz => h z (List.mem_cons_of_mem _ hz))]
      simp
  have lasts : ∀ (xs : List Nat) (tok : Nat → Tok) (g : Seg), (∀ x ∈ xs, ¬ ((tok x).stop ≠ -1 ∧ (tok x).stop > g.stop)) →
      addLasts tok xs g = some { g with last := g.last ++ xs } := by
    intro xs
    induction xs with
    | nil => intro tok g _; simp [addLasts]
    | cons x xs ih =>
      intro tok g h
      rw [addLasts, if_neg (h x List.mem_cons_self), ih tok { g with last := g.last ++ [x] } (fun z hz => h z (List.mem_cons_of_mem _ hz))]
      simp
  -- the links to the new tokens
  let ps1 := S.flatMap (fun a => (s.prec t).map (fun p => (p, a)))
  let s1 := linkAll ps1 s
  have hps1 : ∀ x y, (x, y) ∈ ps1 ↔ x ∈ s.prec t ∧ y ∈ S := by
    intro x y
    simp only [ps1, List.mem_flatMap, List.mem_map, Prod.mk.injEq]
    constructor
    · rintro ⟨a, ha, p, hp, rfl, rfl⟩; exact ⟨hp, ha⟩
    · rintro ⟨h1, h2⟩; exact ⟨y, h2, x, h1, rfl, rfl⟩
  have hs1 : Sym s1 := linkAll_sym ps1 hs
  have ht1 := linkAll_tok ps1 s
  have hself : t ∉ s.prec t := fun h => hloop ((sym_mem hs t t).2 h)
  have hnt : s1.next t = s.next t := by
    refine linkAll_next ps1 s t ?_
    rintro ⟨a, b⟩ h rfl
    exact hself ((hps1 _ _).1 h).1
  -- the links from the new tokens
  let ps2 := T.flatMap (fun e => (s1.next t).map (fun n => (e, n)))
  let s2 := linkAll ps2 s1
  have hps2 : ∀ x y, (x, y) ∈ ps2 ↔ x ∈ T ∧ y ∈ s.next t := by
    intro x y
    simp only [ps2, List.mem_flatMap, List.mem_map, Prod.mk.injEq, hnt]
    constructor
    · rintro ⟨a, ha, p, hp, rfl, rfl⟩; exact ⟨ha, hp⟩
    · rintro ⟨h1, h2⟩; exact ⟨x, h1, y, h2, rfl, rfl⟩
  have hs2 : Sym s2 := linkAll_sym ps2 hs1
  have ht2 := linkAll_tok ps2 s1
  -- the token loses its links
  obtain ⟨s3, d1, d2, d3, d4, d5, d6, d7⟩ := drainPrec_spec t _ s2 hs2 rfl
  obtain ⟨s4, e1, e2, e3, e4, e5, e6, e7⟩ := drainNext_spec t _ s3 d2 rfl
  have hfirst : (if t ∈ sg.first then addFirsts s1.tok S sg else some sg) =
      some { sg with first := if t ∈ sg.first then sg.first ++ S else sg.first } := by
    by_cases h : t ∈ sg.first
    · rw [if_pos h, if_pos h, firsts S s1.tok sg]
      rw [ht1.1]
      exact hF h
    · rw [if_neg h, if_neg h]
  have hlast : ∀ g : Seg, g.last = sg.last → g.stop = sg.stop → (if t ∈ g.last then addLasts s2.tok T g else some g) =
      some { g with last := if t ∈ sg.last then sg.last ++ T else sg.last } := by
    intro g hg hg2
    by_cases h : t ∈ sg.last
    · rw [if_pos (by rw [hg]; exact h), if_pos h, lasts T s2.tok g, hg]
      rw [ht2.1, ht1.1, hg2]
      exact hL h
    · rw [if_neg (by rw [hg]; exact h), if_neg h, ← hg]
  refine ⟨s4, { sg with first := (if t ∈ sg.first then sg.first ++ S else sg.first).erase t,
                        last := (if t ∈ sg.last then sg.last ++ T else sg.last).erase t }, ?_, e2, ?_, ?_, ?_, ?_, rfl, rfl, rfl, rfl⟩
  · unfold replace
    dsimp only
    rw [hfirst]
    dsimp only
    have hl := hlast { sg with first := if t ∈ sg.first then sg.first ++ S else sg.first } rfl rfl
    dsimp only at hl
    rw [show linkAll (T.flatMap fun e => ((linkAll (S.flatMap fun a => (s.prec t).map fun p => (p, a)) s).next t).map fun n => (e, n))
      (linkAll (S.flatMap fun a => (s.prec t).map fun p => (p, a)) s) = s2 from rfl, hl]
    dsimp only
    unfold detach
    rw [d1]
    dsimp only
    rw [e1]
  · rw [e6, d6, ht2.1, ht1.1]
  · rw [e7, d7, ht2.2, ht1.2]
  · intro x y
    by_cases hx : x = t
    · subst hx
      rw [e3]
      simp
    · rw [e4 x hx]
      by_cases hy : y = t
      · subst hy
        rw [sym_mem d2, d3]
        simp
      · rw [d4 x y hy, linkAll_mem, linkAll_mem, hps2, hps1, ← sym_mem hs]
        constructor
        · intro h
          refine ⟨hx, hy, ?_⟩
          rcases h with (h | h) | h
          · exact Or.inl h
          · exact Or.inr (Or.inl h)
          · exact Or.inr (Or.inr h)
        · rintro ⟨_, _, h | h | h⟩
          · exact Or.inl (Or.inl h)
          · exact Or.inl (Or.inr h)
          · exact Or.inr h
  · intro x hx hn hT'
    have a1 : s1.next x = s.next x := by
      refine linkAll_next ps1 s x ?_
      rintro ⟨a, b⟩ h rfl
      exact hn ((sym_mem hs _ _).2 ((hps1 _ _).1 h).1)
    have a2 : s2.next x = s1.next x := by
      refine linkAll_next ps2 s1 x ?_
      rintro ⟨a, b⟩ h rfl
      exact hT' ((hps2 _ _).1 h).1
    rw [e4 x hx, d5 x (by rw [a2, a1]; exact hn), a2, a1]

end Verif.Expand
