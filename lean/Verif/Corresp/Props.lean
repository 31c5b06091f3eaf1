import Verif.Corresp.Lemmas
import Verif.Corresp.Lattice
/-!
# C47, C49, C73, C74, C75: comparing several systems
-/
set_option autoImplicit false
namespace Verif.Corresp
variable {W N I : Type}

/-- **C49** (partial: see `prefix_accepted`, `reads_past_end`) Two alignments are reported as having different references exactly when
neither reference is a beginning of the other; alignments with the same reference are always recognised; and alignments reported as having
identical references with the same number of words do have the same reference. -/
theorem identical_two_partial [DecidableEq W] (a b : List (Entry W)) :
    (identicalRefs [a, b] = .differ ↔ ¬ refs a <+: refs b ∧ ¬ refs b <+: refs a) ∧
    (refs a = refs b → identicalRefs [a, b] = .same) ∧
    (identicalRefs [a, b] = .same → (refs a).length = (refs b).length → refs a = refs b) := by
  obtain ⟨h1, h2⟩ := refLoop_spec (a.length + 1) a b (by omega)
  have e : identicalRefs [a, b] = refLoop (a.length + 1) a b := by
    show refsAll a [b] = _
    unfold refsAll
    cases refLoop (a.length + 1) a b <;> rfl
  rw [e]
  refine ⟨h1, fun h => h2.mpr (Or.inl h), ?_⟩
  intro h hl
  rcases h2.mp h with h' | ⟨h', _⟩ | ⟨h', _⟩
  · exact h'
  · exact h'.eq_of_length hl
  · exact (h'.eq_of_length hl.symm).symm

/-- **C49** (negative part) A reference that is a proper beginning of the other is accepted as identical, if its alignment does not
end with an insertion, ... -/
theorem prefix_accepted [DecidableEq W] (a b : List (Entry W)) (hp : refs a <+: refs b) (hn : NoTail a) :
    identicalRefs [a, b] = .same ∧ identicalRefs [b, a] = .same := by
  have e : ∀ x y : List (Entry W), identicalRefs [x, y] = refLoop (x.length + 1) x y := by
    intro x y
    show refsAll x [y] = _
    unfold refsAll
    cases refLoop (x.length + 1) x y <;> rfl
  rw [e, e]
  exact ⟨(refLoop_spec _ a b (by omega)).2.mpr (Or.inr (Or.inl ⟨hp, hn⟩)),
    (refLoop_spec _ b a (by omega)).2.mpr (Or.inr (Or.inr ⟨hp, hn⟩))⟩

/-- ... and otherwise memory past the end of the alignment is read. -/
theorem reads_past_end [DecidableEq W] (a b : List (Entry W)) (hp : refs a <+: refs b) (hne : refs a ≠ refs b) (h : W)
    (hn : a.getLast? = some (.ins h)) : identicalRefs [a, b] = .undefined := by
  have e : identicalRefs [a, b] = refLoop (a.length + 1) a b := by
    show refsAll a [b] = _
    unfold refsAll
    cases refLoop (a.length + 1) a b <;> rfl
  obtain ⟨h1, h2⟩ := refLoop_spec (a.length + 1) a b (by omega)
  rw [e]
  cases hr : refLoop (a.length + 1) a b with
  | undefined => rfl
  | differ => exact absurd hp (h1.mp hr).1
  | same =>
    exfalso
    rcases h2.mp hr with h' | ⟨_, h'⟩ | ⟨h', _⟩
    · exact hne h'
    · exact h' h hn
    · exact hne (List.IsPrefix.eq_of_length hp (Nat.le_antisymm hp.length_le h'.length_le))

/-- **C49** Any number of alignments: with the same reference they are recognised, they are reported as different only if two of the
references are neither a beginning of the other, and as identical only if references of the same length are the same. -/
theorem identical_all_partial [DecidableEq W] (a b : List (Entry W)) (bs : List (List (Entry W))) :
    ((∀ x ∈ b :: bs, refs x = refs a) → identicalRefs (a :: b :: bs) = .same) ∧
    (identicalRefs (a :: b :: bs) = .differ → ∃ x ∈ b :: bs, ¬ refs a <+: refs x ∧ ¬ refs x <+: refs a) ∧
    (identicalRefs (a :: b :: bs) = .same → ∀ x ∈ b :: bs, (refs x).length = (refs a).length → refs x = refs a) := by
  show ((∀ x ∈ b :: bs, refs x = refs a) → refsAll a (b :: bs) = .same) ∧ (refsAll a (b :: bs) = .differ → _) ∧
    (refsAll a (b :: bs) = .same → _)
  generalize b :: bs = l
  induction l with
  | nil => exact ⟨fun _ => rfl, fun h => by (cases h), fun _ x hx => by simp at hx⟩
  | cons x l ih =>
    obtain ⟨h1, h2⟩ := refLoop_spec (a.length + 1) a x (by omega)
    unfold refsAll
    refine ⟨?_, ?_, ?_⟩
    · intro h
      rw [h2.mpr (Or.inl (h x (by simp)).symm)]
      exact ih.1 (fun y hy => h y (by simp [hy]))
    · intro h
      cases hr : refLoop (a.length + 1) a x with
      | undefined => rw [hr] at h; cases h
      | differ => exact ⟨x, by simp, h1.mp hr⟩
      | same =>
        rw [hr] at h
        obtain ⟨y, hy, hd⟩ := ih.2.1 h
        exact ⟨y, by simp [hy], hd⟩
    · intro h y hy hl
      cases hr : refLoop (a.length + 1) a x with
      | undefined => rw [hr] at h; cases h
      | differ => rw [hr] at h; cases h
      | same =>
        rw [hr] at h
        rcases List.mem_cons.mp hy with rfl | hy
        · rcases h2.mp hr with h' | ⟨h', _⟩ | ⟨h', _⟩
          · exact h'.symm
          · exact (h'.eq_of_length hl.symm).symm
          · exact h'.eq_of_length hl
        · exact ih.2.2 h y hy hl

example : identicalRefs [[.ins 9, .ref 1 true, .ref 2 false], [.ref 1 true, .ins 3, .ref 2 true, .ins 4]] = .same := by decide
example : identicalRefs [[.ref 1 true], [.ref 2 true]] = .differ := by decide
/-- References of different lengths called identical. -/
example : identicalRefs [[.ref 1 true], [.ref 1 true, .ref 2 true]] = .same := by decide
example : identicalRefs [[.ref 1 true, .ins 5], [.ref 1 true, .ref 2 true]] = .undefined := by decide

/-- A speaker of the first system is found in all others. -/
def Common [DecidableEq N] (others : List (List (Spkr N I W))) (g : Spkr N I W) : Bool :=
  others.all (fun s => s.any (fun h => decide (g.name = h.name)))

theorem rowOf_common {A : Type} (p : A → Bool) (ss : List (List A)) :
    (rowOf p ss).isSome = ss.all (fun s => s.any p) := by
  cases h : rowOf p ss with
  | none =>
    obtain ⟨s, h1, h2⟩ := (rowOf_none p ss).mp h
    symm
    rw [Option.isSome_none, List.all_eq_false]
    exact ⟨s, h1, by rw [Bool.not_eq_true, List.any_eq_false]; intro x hx; rw [h2 x hx]; simp⟩
  | some r =>
    symm
    rw [Option.isSome_some, List.all_eq_true]
    intro s hs
    apply Classical.byContradiction
    intro hn
    have : rowOf p ss = none := (rowOf_none p ss).mpr ⟨s, hs, by
      intro x hx
      rw [Bool.not_eq_true, List.any_eq_false] at hn
      have := hn x hx
      simpa using this⟩
    rw [this] at h; cases h

theorem groups_spec [DecidableEq N] (others : List (List (Spkr N I W))) : ∀ (gs : List (Spkr N I W)) (i : Nat),
    (matchedGroups others i gs).length = (gs.takeWhile (Common others)).length ∧
    ∀ (k : Nat) (row : List Nat), (matchedGroups others i gs)[k]? = some row → ∃ g r, gs[k]? = some g ∧ row = (i + k) :: r ∧
      rowOf (fun s => decide (g.name = s.name)) others = some r
  | [], i => ⟨rfl, by intro k row h; simp [matchedGroups] at h⟩
  | g :: gs, i => by
    unfold matchedGroups
    have hc : (rowOf (fun s => decide (g.name = s.name)) others).isSome = Common others g := rowOf_common _ others
    cases hr : rowOf (fun s => decide (g.name = s.name)) others with
    | none =>
      rw [hr] at hc
      simp only [Option.isSome_none] at hc
      refine ⟨by rw [List.takeWhile_cons, ← hc]; rfl, ?_⟩
      intro k row h; simp at h
    | some r =>
      rw [hr] at hc
      simp only [Option.isSome_some] at hc
      obtain ⟨h1, h2⟩ := groups_spec others gs (i + 1)
      refine ⟨by rw [List.takeWhile_cons, ← hc]; simp [h1], ?_⟩
      intro k row h
      cases k with
      | zero =>
        simp only [List.getElem?_cons_zero, Option.some.injEq] at h
        exact ⟨g, r, rfl, by rw [← h]; rfl, hr⟩
      | succ k =>
        simp only [List.getElem?_cons_succ] at h
        obtain ⟨g', r', e1, e2, e3⟩ := h2 k row h
        exact ⟨g', r', by simpa using e1, by rw [e2]; congr 1; omega, e3⟩

theorem row_lookup {A K : Type} [DecidableEq K] (key : A → K) (k0 : K) (others : List (List A)) (r : List Nat)
    (h : rowOf (fun s => decide (k0 = key s)) others = some r) :
    r.length = others.length ∧ ∀ (s : Nat) (sys : List A) (j : Nat), others[s]? = some sys → r[s]? = some j →
      ∃ x, sys[j]? = some x ∧ key x = k0 := by
  obtain ⟨h1, h2⟩ := rowOf_spec _ others r h
  refine ⟨h1, ?_⟩
  intro s sys j hs hj
  obtain ⟨⟨x, hx, hp⟩, _⟩ := h2 s sys j hs hj
  exact ⟨x, hx, by simpa using (of_decide_eq_true hp).symm⟩

/-- **C73** (partial: see `speakers_lost`) Speakers are only matched with speakers of the same name in all systems.  The matched
speakers are those of the first system before the first one that some system lacks. -/
theorem speakers_matched_partial [DecidableEq N] (sys : List (Spkr N I W)) (others : List (List (Spkr N I W))) :
    (matchedGroups others 0 sys).length = (sys.takeWhile (fun g => others.all (fun s => s.any (fun h => decide (g.name = h.name))))).length ∧
    ∀ (k : Nat) (row : List Nat), (matchedGroups others 0 sys)[k]? = some row →
      row.length = others.length + 1 ∧ ∃ g, sys[k]? = some g ∧
        ∀ (s : Nat) (system : List (Spkr N I W)) (j : Nat), (sys :: others)[s]? = some system → row[s]? = some j →
          ∃ x, system[j]? = some x ∧ x.name = g.name := by
  obtain ⟨h1, h2⟩ := groups_spec others sys 0
  refine ⟨h1, ?_⟩
  intro k row hk
  obtain ⟨g, r, e1, e2, e3⟩ := h2 k row hk
  obtain ⟨l1, l2⟩ := row_lookup (fun s : Spkr N I W => s.name) g.name others r e3
  subst e2
  refine ⟨by simp [l1], g, e1, ?_⟩
  intro s system j hs hj
  cases s with
  | zero =>
    simp only [List.getElem?_cons_zero, Option.some.injEq] at hs hj
    subst hs hj
    exact ⟨g, by rw [Nat.zero_add]; exact e1, rfl⟩
  | succ s =>
    simp only [List.getElem?_cons_succ] at hs hj
    exact l2 s system j hs hj

/-- **C73** If every speaker of the first system is found in the others, all of them are matched. -/
theorem all_speakers_matched [DecidableEq N] (sys : List (Spkr N I W)) (others : List (List (Spkr N I W)))
    (h : ∀ g ∈ sys, ∀ s ∈ others, ∃ x ∈ s, x.name = g.name) : (matchedGroups others 0 sys).length = sys.length := by
  rw [(groups_spec others sys 0).1]
  have : ∀ g ∈ sys, Common others g = true := by
    intro g hg
    unfold Common
    rw [List.all_eq_true]
    intro s hs
    obtain ⟨x, hx, hn⟩ := h g hg s hs
    rw [List.any_eq_true]
    exact ⟨x, hx, by simp [hn]⟩
  clear h
  induction sys with
  | nil => rfl
  | cons g gs ih =>
    rw [List.takeWhile_cons, this g (by simp)]
    simp [ih (fun x hx => this x (by simp [hx]))]

/-- C73 fails as stated: a speaker known to all systems is not matched if it follows one that some system lacks. -/
theorem speakers_lost : ∃ (sys other : List (Spkr Nat Nat Nat)) (g : Spkr Nat Nat Nat),
    g ∈ sys ∧ g ∈ other ∧ matchedGroups [other] 0 sys = [] :=
  ⟨[⟨1, []⟩, ⟨2, []⟩], [⟨2, []⟩], ⟨2, []⟩, by decide, by decide, by decide⟩

theorem paths_spec [DecidableEq I] (others : List (List (Path I W))) : ∀ (ps pre : List (Path I W)),
    ∀ (row : List Nat), row ∈ matchedPaths others pre.length ps ↔ ∃ i r p, row = i :: r ∧ pre.length ≤ i ∧ (pre ++ ps)[i]? = some p ∧
      rowOf (fun q => decide (p.id = q.id)) others = some r
  | [], pre, row => by
    simp only [matchedPaths, List.not_mem_nil, List.append_nil, false_iff]
    rintro ⟨i, r, p, _, h1, h2, _⟩
    have := (List.getElem?_eq_some_iff.mp h2).1
    omega
  | p :: ps, pre, row => by
    have ih := paths_spec others ps (pre ++ [p]) row
    simp only [List.append_assoc, List.singleton_append, List.length_append, List.length_singleton] at ih
    have hhead : (pre ++ p :: ps)[pre.length]? = some p := by
      rw [List.getElem?_append_right (Nat.le_refl _)]; simp
    unfold matchedPaths
    cases hr : rowOf (fun q => decide (p.id = q.id)) others with
    | none =>
      simp only
      rw [ih]
      constructor
      · rintro ⟨i, r, q, h1, h2, h3, h4⟩; exact ⟨i, r, q, h1, by omega, h3, h4⟩
      · rintro ⟨i, r, q, h1, h2, h3, h4⟩
        refine ⟨i, r, q, h1, ?_, h3, h4⟩
        apply Classical.byContradiction
        intro hn
        have : i = pre.length := by omega
        subst this
        rw [hhead] at h3
        simp only [Option.some.injEq] at h3
        subst h3
        rw [hr] at h4; cases h4
    | some r0 =>
      simp only [List.mem_cons]
      rw [ih]
      constructor
      · rintro (h | ⟨i, r, q, h1, h2, h3, h4⟩)
        · exact ⟨pre.length, r0, p, h, Nat.le_refl _, hhead, hr⟩
        · exact ⟨i, r, q, h1, by omega, h3, h4⟩
      · rintro ⟨i, r, q, h1, h2, h3, h4⟩
        by_cases hi : i = pre.length
        · left
          subst hi
          rw [hhead] at h3
          simp only [Option.some.injEq] at h3
          subst h3
          rw [hr] at h4
          rw [h1, Option.some.inj h4]
        · right
          exact ⟨i, r, q, h1, by omega, h3, h4⟩

/-- **C73** Within matched speakers, sentences are matched with sentences of the same identifier in all systems, and every sentence of the
first system whose identifier occurs in all the others is matched. -/
theorem sentences_matched [DecidableEq I] (ps : List (Path I W)) (others : List (List (Path I W))) :
    (∀ row ∈ matchedPaths others 0 ps, row.length = others.length + 1 ∧ ∃ id,
        ∀ (s : Nat) (paths : List (Path I W)) (j : Nat), (ps :: others)[s]? = some paths → row[s]? = some j →
          ∃ x, paths[j]? = some x ∧ x.id = id) ∧
    (∀ (i : Nat) (p : Path I W), ps[i]? = some p → (∀ l ∈ others, ∃ q ∈ l, q.id = p.id) → ∃ r, (i :: r) ∈ matchedPaths others 0 ps) := by
  have key := fun row => paths_spec others ps [] row
  simp only [List.length_nil, List.nil_append, Nat.zero_le, true_and] at key
  constructor
  · intro row hrow
    obtain ⟨i, r, p, rfl, h3, h4⟩ := (key row).mp hrow
    obtain ⟨l1, l2⟩ := row_lookup (fun q : Path I W => q.id) p.id others r h4
    refine ⟨by simp [l1], p.id, ?_⟩
    intro s paths j hs hj
    cases s with
    | zero =>
      simp only [List.getElem?_cons_zero, Option.some.injEq] at hs hj
      subst hs hj
      exact ⟨p, h3, rfl⟩
    | succ s =>
      simp only [List.getElem?_cons_succ] at hs hj
      exact l2 s paths j hs hj
  · intro i p hp hall
    cases hr : rowOf (fun q => decide (p.id = q.id)) others with
    | none =>
      obtain ⟨l, hl, hn⟩ := (rowOf_none _ _).mp hr
      obtain ⟨q, hq, e⟩ := hall l hl
      have := hn q hq
      simp [e] at this
    | some r => exact ⟨r, (key _).mpr ⟨i, r, p, rfl, hp, hr⟩⟩

example : matchedGroups [[⟨2, []⟩, ⟨1, []⟩], [⟨1, []⟩, ⟨2, []⟩]] 0 ([⟨1, []⟩, ⟨2, []⟩] : List (Spkr Nat Nat Nat)) =
    [[0, 1, 0], [1, 0, 1]] := by decide
example : matchedPaths [[⟨2, []⟩, ⟨1, []⟩]] 0 ([⟨3, []⟩, ⟨1, []⟩, ⟨2, []⟩] : List (Path Nat Nat)) = [[1, 1], [2, 0]] := by decide

/-- **C47** (partial: see `rank_mixes_speakers`) If all systems list the same speakers in the same order, a row of the ranking table holds
for each system the value of the speaker the row is named after. -/
theorem rank_rows_partial {G V : Type} (name : G → N) (value : G → V) (first : List G) (others : List (List G))
    (h : ∀ s ∈ others, s.map name = first.map name) (g n : Nat) (nm : N) (hn : n < others.length + 1)
    (hr : rankName name (first :: others) g = some nm) :
    ∃ s x, (first :: others)[n]? = some s ∧ s[g]? = some x ∧ name x = nm ∧ rankEntry value (first :: others) g n = some (value x) := by
  have hall : ∀ s ∈ first :: others, s.map name = first.map name := by
    intro s hs
    rcases List.mem_cons.mp hs with rfl | hs
    · rfl
    · exact h s hs
  unfold rankName at hr
  simp only [List.getElem?_cons_zero, Option.bind_some] at hr
  have hnl : n < (first :: others).length := by simpa using hn
  have hm := hall _ (List.getElem_mem hnl)
  have : (((first :: others)[n]).map name)[g]? = some nm := by rw [hm, List.getElem?_map]; exact hr
  rw [List.getElem?_map, Option.map_eq_some_iff] at this
  obtain ⟨x, hx, hxn⟩ := this
  refine ⟨_, x, List.getElem?_eq_getElem hnl, hx, hxn, ?_⟩
  unfold rankEntry
  rw [List.getElem?_eq_getElem hnl]
  simp [hx]

/-- C47 fails as stated: with speakers in another order, a row holds the value of another speaker; and with a speaker missing, an entry of
the table is never set. -/
theorem rank_mixes_speakers : (∃ systems : List (List (Nat × Nat)), rankName (·.1) systems 0 = some 1 ∧
      (∃ s, systems[1]? = some s ∧ (1, 10) ∈ s ∧ (s.map (·.1)).Perm [1, 2]) ∧ rankEntry (·.2) systems 0 1 = some 20) ∧
    (∃ systems : List (List (Nat × Nat)), rankName (·.1) systems 1 = some 2 ∧ rankEntry (·.2) systems 1 1 = none ∧
      rankEntry (·.2) systems 0 1 = some 20) :=
  ⟨⟨[[(1, 10), (2, 20)], [(2, 20), (1, 10)]], by decide, ⟨_, rfl, by decide, by decide⟩, by decide⟩,
    ⟨[[(1, 10), (2, 20)], [(2, 20)]], by decide, by decide, by decide⟩⟩

example : rankEntry (·.2) [[(1, 10), (2, 20)], [(1, 30), (2, 40)]] 1 1 = some 40 := by decide

/-- **C74** For systems with the same reference, the lattice analysis reports the number of reference words, and the number of those that
no system got right. -/
theorem lattice_counts (a : List (Entry W)) (bs : List (List (Entry W))) (h : ∀ b ∈ bs, refs b = refs a) :
    latticeError a bs = ((refs a).length,
      (List.range (refs a).length).countP (fun k => (a :: bs).all (fun p => decide ((oks p)[k]? = some false)))) := by
  obtain ⟨h1, h2⟩ := fold_content (refs a).length bs (marks a) (by rw [marks_content, oks_length])
    (fun b hb => by rw [oks_length, h b hb])
  unfold latticeError
  simp only
  rw [count_some, count_false, h1, countP_range, h1]
  congr 1
  apply List.countP_congr
  intro k hk
  rw [List.mem_range] at hk
  rw [h2 k hk, marks_content]
  have hlen : ∀ b ∈ bs, (oks b).length = (refs a).length := fun b hb => by rw [oks_length, h b hb]
  have ha : k < (oks a).length := by rw [oks_length]; exact hk
  rw [List.getElem?_eq_getElem ha]
  simp only [Option.map_some, Option.any_some, List.all_cons, Bool.not_eq_true', Bool.or_eq_false_iff, Bool.and_eq_true,
    List.any_eq_false, List.all_eq_true, List.getElem?_eq_getElem ha, decide_eq_true_eq, Option.some.injEq]
  have : ∀ b ∈ bs, ((¬ ((oks b)[k]? == some true) = true) ↔ (oks b)[k]? = some false) := by
    intro b hb
    rw [List.getElem?_eq_getElem (by rw [hlen b hb]; exact hk)]
    cases (oks b)[k]'(by rw [hlen b hb]; exact hk) <;> simp
  constructor
  · rintro ⟨e, hall⟩; exact ⟨e, fun b hb => (this b hb).mp (hall b hb)⟩
  · rintro ⟨e, hall⟩; exact ⟨e, fun b hb => (this b hb).mpr (hall b hb)⟩

example : latticeError [.ref 1 false, .ins 7, .ref 2 false, .ref 3 true] [[.ins 5, .ref 1 false, .ref 2 true, .ref 3 false]] = (3, 1) := by
  decide

/-- **C75** (partial: see `print_reads_past_end`) For systems with the same reference, the combined print ends, its word columns are the
reference words in order, each with an entry for that word from every system, and the entries of each system, read along the columns, are its
whole alignment. -/
theorem multi_print_partial (R : List W) (ps : List (List (Entry W))) (hne : ps ≠ []) (hR : ∀ p ∈ ps, refs p = R) (f : Nat)
    (hf : (ps.map List.length).sum < f) :
    ∃ cs, multiPrint f ps = some cs ∧
      (cs.filterMap (fun c => match c with | .word r _ => some r | .ins _ => none)) = R ∧
      (∀ (i : Nat) (p : List (Entry W)), ps[i]? = some p →
        cs.filterMap (fun c => match c with | .ins cells => (cells[i]?).join | .word _ cells => (cells[i]?).join) = p) ∧
      (∀ c ∈ cs, match c with
        | .word r cells => cells.length = ps.length ∧ ∀ x ∈ cells, ∃ ok, x = some (.ref r ok)
        | .ins cells => cells.length = ps.length ∧ (∃ h, some (.ins h) ∈ cells) ∧ ∀ x ∈ cells, x = none ∨ ∃ h, x = some (.ins h)) := by
  obtain ⟨cs, h1, h2, h3, h4⟩ := multiPrint_spec R f ps hf hR hne
  refine ⟨cs, h1, h2, ?_, h4⟩
  intro i p hp
  rw [← h3 i p hp]
  congr 1

/-- C75 fails for references that differ in length but were taken to be identical: the print reads past the end of the first alignment. -/
theorem print_reads_past_end : ∃ ps : List (List (Entry Nat)), identicalRefs ps = .same ∧ ∀ f, multiPrint f ps = none :=
  ⟨[[.ref 1 true], [.ref 1 true, .ref 2 true]], by decide, by
    intro f
    match f with
    | 0 => rfl
    | 1 => rfl
    | f + 2 => rfl⟩

example : multiPrint 20 [[.ins 9, .ref 1 true], [.ref 1 false, .ins 8]] =
    some [.ins [some (.ins 9), none], .word 1 [some (.ref 1 true), some (.ref 1 false)], .ins [none, some (.ins 8)]] := by decide

end Verif.Corresp
