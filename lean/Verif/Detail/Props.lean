import Verif.Detail.Printing
import Verif.Score.Props
/-!
# Properties of the detailed reports (C148-C151)
-/
set_option autoImplicit false
namespace Verif.Detail
open Verif.Text
open Verif.Sgml (Entry)
open Verif.Score (Grp Scores Totals pathsOf isCorr isSub isIns isDel isErr)

variable {W : Type}

/-! ### C148: the counted lists -/

/-- C148: counting any texts and printing them gives the table of their occurrences, whatever order `qsort` leaves equal counts in. -/
theorem counted_list (e : Enc) (size : Nat) (hs : 0 < size) (ws : List (List Nat)) (hv : ∀ w ∈ ws, Valid e w) :
    ∃ lex, countAll e (initLex size) ws = some lex ∧ ∀ ptr : List Nat, IsSort lex ptr → ∃ p, printout lex ptr 1 = some p ∧ IsTable e ws p := by
  obtain ⟨lex, h1, h2, h3⟩ := countAll_ok ws (initLex size) [] (ok_init e size hs) (counts_init size) hv
  rw [List.nil_append] at h3
  exact ⟨lex, h1, fun ptr hp => printout_table h2 h3 hp⟩

/-- C148: there is only one table of given occurrences. -/
theorem table_unique (e : Enc) (ws : List (List Nat)) (hv : ∀ w ∈ ws, Valid e w) (p q : Printout) (hp : IsTable e ws p)
    (hq : IsTable e ws q) : p = q := by
  have hl : p.lines = q.lines := by
    refine sorted_unique (Above e) p.lines q.lines ?_ hp.order hq.order ?_
    · intro x y hx hy h1 h2
      exact above_asymm (hv _ ((hp.lines x.1 x.2).1 hx).1) (hv _ ((hp.lines y.1 y.2).1 hy).1) h1 h2
    · intro x
      rw [show x = (x.1, x.2) from rfl, hp.lines, hq.lines]
  have h1 := hp.total; have h2 := hq.total; have h3 := hp.reaching; have h4 := hq.reaching; have h5 := hp.sum; have h6 := hq.sum
  cases p; cases q
  simp only at hl h1 h2 h3 h4 h5 h6
  subst hl
  rw [h1, h2, h3, h4, h5, h6]

/-- "a", "b" and "c": "b" twice, the others once. -/
example : (countAll .ascii (initLex 1) [[98], [99], [98], [97]]).bind (fun lex => printout lex [0, 1, 2] 1) =
    some ⟨3, 3, [(2, [98]), (1, [97]), (1, [99])], 4⟩ := by decide
/-- The order of "a" and "c" does not depend on `qsort`. -/
example : (countAll .ascii (initLex 1) [[98], [99], [98], [97]]).bind (fun lex => printout lex [0, 2, 1] 1) =
    some ⟨3, 3, [(2, [98]), (1, [97]), (1, [99])], 4⟩ := by decide

/-- C148: a printed pair tells its two words if they contain no blank. -/
theorem arrow_injective (x y : List Nat × List Nat) (hx : 32 ∉ x.1) (hy : 32 ∉ y.1) (h : arrow x = arrow y) : x = y := by
  unfold arrow at h
  simp only [List.append_assoc, List.cons_append, List.nil_append] at h
  have key : ∀ a b : List Nat, 32 ∉ a → (a ++ 32 :: b).takeWhile (· ≠ 32) = a := by
    intro a b ha
    induction a with
    | nil => simp
    | cons z a ih =>
      have hz : z ≠ 32 := fun he => ha (he ▸ List.mem_cons_self)
      have := ih (fun hm => ha (List.mem_cons_of_mem _ hm))
      simp only [List.cons_append, List.takeWhile_cons, hz, ne_eq, not_false_eq_true, decide_true, if_true]
      congr 1
  have h1 : x.1 = y.1 := by rw [← key x.1 _ hx, ← key y.1 _ hy, h]
  have h2 : x.2 = y.2 := by
    rw [h1] at h
    have := List.append_cancel_left h
    simpa using this
  exact Prod.ext h1 h2

/-- With blanks in the words a printed pair can stand for two. -/
theorem arrow_ambiguous : arrow ([97], [98, 32, 61, 61, 62, 32, 99]) = arrow ([97, 32, 61, 61, 62, 32, 98], [99]) := by decide

/-- C148: so a line of the list of pairs gives the number of times this word was substituted for that one. -/
theorem confusion_lines (e : Enc) (pairs : List (List Nat × List Nat)) (p : Printout) (hp : IsTable e (pairs.map arrow) p)
    (hb : ∀ x ∈ pairs, 32 ∉ x.1) (x : List Nat × List Nat) (hx : 32 ∉ x.1) (n : Nat) :
    (n, arrow x) ∈ p.lines ↔ x ∈ pairs ∧ n = pairs.count x := by
  rw [hp.lines]
  have hm : arrow x ∈ pairs.map arrow ↔ x ∈ pairs := by
    rw [List.mem_map]
    exact ⟨fun ⟨y, hy, he⟩ => arrow_injective y x (hb y hy) hx he ▸ hy, fun h => ⟨x, h, rfl⟩⟩
  have hc : (pairs.map arrow).count (arrow x) = pairs.count x := by
    rw [List.count_eq_countP, List.countP_map, List.count_eq_countP]
    apply List.countP_congr
    intro y hy
    constructor
    · intro h
      have h : arrow y = arrow x := by simpa using h
      rw [arrow_injective y x (hb y hy) hx h]; simp
    · intro h
      have h : y = x := by simpa using h
      rw [h]; simp
  rw [hm, hc]

/-! ### C149: the numbers of the reports -/

/-- The groups' own paths and totals give the report of all paths. -/
theorem report_core (e : Enc) (qs : Lex → List Nat) (hq : ∀ lex, IsSort lex (qs lex)) (value : W → List Nat) (weight : W → Int)
    (grps : List (Grp W)) (paths : List (List (Entry W))) (hp : (grps.flatMap (·.paths)).Perm paths)
    (ht : ∀ g ∈ grps, Totals weight g g.paths)
    (hv : ∀ x : W, (∃ p ∈ paths, ∃ en ∈ p, en.ref = some x ∨ en.hyp = some x) → Valid e (value x))
    (hlen : ∀ p ∈ paths, ∀ a b : W, Entry.pair .sub a b ∈ p → (value a).length + (value b).length < 9995) :
    ∃ r, report e qs value grps = some r ∧ IsReport e value paths r := by
  have hfl : (grps.flatMap fun g => g.paths.flatten).Perm paths.flatten := by
    have h1 : (grps.flatMap fun g => g.paths.flatten) = (grps.flatMap (·.paths)).flatten := by
      clear ht hp
      induction grps with
      | nil => rfl
      | cons g gs ih => rw [List.flatMap_cons, List.flatMap_cons, List.flatten_append, ih]
    rw [h1]
    exact hp.flatten
  have hsum : ∀ (q : Entry W → Bool) (f : Grp W → Nat), (∀ g ∈ grps, f g = g.paths.flatten.countP q) →
      (grps.map f).sum = paths.flatten.countP q := by
    intro q f hf
    rw [← hfl.countP_eq, List.countP_flatMap]
    congr 1
    apply List.map_congr_left
    intro g hg
    exact hf g hg
  have hsum2 : ∀ (q : List (Entry W) → Bool) (f : Grp W → Nat), (∀ g ∈ grps, f g = g.paths.countP q) →
      (grps.map f).sum = paths.countP q := by
    intro q f hf
    rw [← hp.countP_eq, List.countP_flatMap]
    congr 1
    apply List.map_congr_left
    intro g hg
    exact hf g hg
  have hwith : ∀ q : Entry W → Bool, pathsWith q grps = paths.countP (·.any q) := by
    intro q
    unfold pathsWith
    rw [hp.countP_eq]
    apply List.countP_congr
    intro path _
    rw [decide_eq_true_iff, List.countP_pos_iff, List.any_eq_true]
  have hvr : ∀ en ∈ paths.flatten, ∀ x : W, en.ref = some x ∨ en.hyp = some x → Valid e (value x) := by
    intro en hen x hx
    obtain ⟨p, hp1, hp2⟩ := List.mem_flatten.1 hen
    exact hv x ⟨p, hp1, en, hp2, hx⟩
  -- the five lists
  have conf : confWord value = fun en => (confused value en).map arrow := by
    funext en
    cases en with
    | pair ev a b => cases ev <;> rfl
    | _ => rfl
  have subs : subWord value = fun en => (confused value en).map (·.1) := by
    funext en
    cases en with
    | pair ev a b => cases ev <;> rfl
    | _ => rfl
  have fals : falseWord value = fun en => (confused value en).map (·.2) := by
    funext en
    cases en with
    | pair ev a b => cases ev <;> rfl
    | _ => rfl
  have hmem : ∀ x : List Nat × List Nat, x ∈ paths.flatten.filterMap (confused value) →
      Valid e x.1 ∧ Valid e x.2 ∧ x.1.length + x.2.length < 9995 := by
    intro x hx
    obtain ⟨en, hen, he⟩ := List.mem_filterMap.1 hx
    cases en with
    | ins b => cases he
    | del a => cases he
    | pair ev a b =>
      cases ev with
      | sub =>
        cases he
        obtain ⟨p, hp1, hp2⟩ := List.mem_flatten.1 hen
        exact ⟨hvr _ hen a (Or.inl rfl), hvr _ hen b (Or.inr rfl), hlen p hp1 a b hp2⟩
      | _ => cases he
  have hins : insWord value = inserted value := by funext en; cases en <;> rfl
  have hdel : delWord value = deleted value := by funext en; cases en <;> rfl
  have hvalA : Valid e [32, 61, 61, 62, 32] := by
    refine ⟨[[32], [61], [61], [62], [32]], rfl, ?_⟩
    intro c hcm
    simp only [List.mem_cons, List.not_mem_nil, or_false] at hcm
    rcases hcm with rfl | rfl | rfl | rfl | rfl <;>
      exact ⟨_, [], rfl, by cases e <;> decide, by decide⟩
  have happ : ∀ a b : List Nat, Valid e a → Valid e b → Valid e (a ++ b) := by
    rintro a b ⟨cs, rfl, h1⟩ ⟨ds, rfl, h2⟩
    exact ⟨cs ++ ds, by rw [List.flatten_append], fun c hc => (List.mem_append.1 hc).elim (h1 c) (h2 c)⟩
  obtain ⟨t1, a1, b1⟩ := table_ok hq (confWord value) grps ((paths.flatten.filterMap (confused value)).map arrow) (by
    rw [conf, List.map_filterMap]
    exact hfl.filterMap _) (by
    intro w hw
    obtain ⟨x, hx, rfl⟩ := List.mem_map.1 hw
    obtain ⟨v1, v2, _⟩ := hmem x hx
    exact happ _ _ (happ _ _ v1 hvalA) v2)
  obtain ⟨t2, a2, b2⟩ := table_ok hq (insWord value) grps (paths.flatten.filterMap (inserted value)) (by
    rw [hins]; exact hfl.filterMap _) (by
    intro w hw
    obtain ⟨en, hen, he⟩ := List.mem_filterMap.1 hw
    cases en with
    | ins b => cases he; exact hvr _ hen b (Or.inr rfl)
    | _ => cases he)
  obtain ⟨t3, a3, b3⟩ := table_ok hq (delWord value) grps (paths.flatten.filterMap (deleted value)) (by
    rw [hdel]; exact hfl.filterMap _) (by
    intro w hw
    obtain ⟨en, hen, he⟩ := List.mem_filterMap.1 hw
    cases en with
    | del a => cases he; exact hvr _ hen a (Or.inl rfl)
    | _ => cases he)
  obtain ⟨t4, a4, b4⟩ := table_ok hq (subWord value) grps ((paths.flatten.filterMap (confused value)).map (·.1)) (by
    rw [subs, List.map_filterMap]
    exact hfl.filterMap _) (by
    intro w hw
    obtain ⟨x, hx, rfl⟩ := List.mem_map.1 hw
    exact (hmem x hx).1)
  obtain ⟨t5, a5, b5⟩ := table_ok hq (falseWord value) grps ((paths.flatten.filterMap (confused value)).map (·.2)) (by
    rw [fals, List.map_filterMap]
    exact hfl.filterMap _) (by
    intro w hw
    obtain ⟨x, hx, rfl⟩ := List.mem_map.1 hw
    exact (hmem x hx).2.1)
  have hconf : confTable e qs value grps = some t1 := by
    unfold confTable
    rw [if_pos, a1]
    rw [List.all_eq_true]
    intro t htm
    rw [conf, ← List.map_filterMap] at htm
    obtain ⟨x, hx, rfl⟩ := List.mem_map.1 htm
    have := (hmem x ((hfl.filterMap _).mem_iff.1 hx)).2.2
    apply decide_eq_true
    unfold arrow
    simp only [List.length_append, List.length_cons, List.length_nil]
    omega
  unfold report
  dsimp only
  rw [hconf, a2, a3, a4, a5]
  dsimp only
  refine ⟨_, rfl, ⟨hsum2 (fun _ => true) _ ?_ |>.trans (by simp), hsum2 _ _ (fun g hg => (ht g hg).serr), ?_, ?_, ?_,
    hsum _ _ (fun g hg => (ht g hg).corr), hsum _ _ (fun g hg => (ht g hg).sub), hsum _ _ (fun g hg => (ht g hg).del),
    hsum _ _ (fun g hg => (ht g hg).ins), rfl, rfl, rfl, ?_, b1, b2, b3, b4, b5⟩⟩
  · intro g hg; rw [(ht g hg).nsent]; simp
  · refine (hwith _).trans ?_
    apply List.countP_congr
    intro path _
    rw [List.any_eq_true, List.any_eq_true]
    constructor <;>
    · rintro ⟨en, h1, h2⟩
      refine ⟨en, h1, ?_⟩
      cases en with
      | pair ev a b => cases ev <;> first | exact h2 | cases h2
      | _ => cases h2
  · refine (hwith _).trans ?_
    apply List.countP_congr
    intro path _
    rw [List.any_eq_true, List.any_eq_true]
    constructor <;>
    · rintro ⟨en, h1, h2⟩
      refine ⟨en, h1, ?_⟩
      cases en <;> first | exact h2 | cases h2
  · refine (hwith _).trans ?_
    apply List.countP_congr
    intro path _
    rw [List.any_eq_true, List.any_eq_true]
    constructor <;>
    · rintro ⟨en, h1, h2⟩
      refine ⟨en, h1, ?_⟩
      cases en <;> first | exact h2 | cases h2
  · show (grps.map (·.sub)).sum + (grps.map (·.del)).sum + (grps.map (·.ins)).sum = _
    rw [hsum _ _ (fun g hg => (ht g hg).sub), hsum _ _ (fun g hg => (ht g hg).del), hsum _ _ (fun g hg => (ht g hg).ins)]
    generalize paths.flatten = es
    induction es with
    | nil => rfl
    | cons en es ih =>
      simp only [List.countP_cons]
      cases en with
      | ins b => simp [isSub, isDel, isIns, isErr]; omega
      | del a => simp [isSub, isDel, isIns, isErr]; omega
      | pair ev a b => cases ev <;> simp [isSub, isDel, isIns, isErr] <;> omega

/-- C149: the detailed report of a system is that of all its utterances. -/
theorem overall_report (e : Enc) (qs : Lex → List Nat) (hq : ∀ lex, IsSort lex (qs lex)) (value : W → List Nat) (weight : W → Int) (n : Nat)
    (us : List (List Nat × List (Entry W))) (sc : Scores W) (hsc : Score.scoreAll weight true (Score.init W n) us = some sc)
    (hv : ∀ x : W, (∃ u ∈ us, ∃ en ∈ u.2, en.ref = some x ∨ en.hyp = some x) → Valid e (value x))
    (hlen : ∀ u ∈ us, ∀ a b : W, Entry.pair .sub a b ∈ u.2 → (value a).length + (value b).length < 9995) :
    ∃ r, report e qs value sc.grps = some r ∧ IsReport e value (us.map (·.2)) r := by
  obtain ⟨sc', h1, h2, h3, h4, h5⟩ := Score.scoreAll_totals weight true n us
  rw [hsc] at h1
  cases h1
  refine report_core e qs hq value weight sc.grps (us.map (·.2)) ?_ ?_ ?_ ?_
  · have hg := groups_perm (sc.grps.map (·.name)) us h2 (fun u hu => (h3 u.1).2 ⟨u.2, hu⟩)
    refine List.Perm.trans (List.Perm.of_eq ?_) hg
    rw [List.flatMap_map, List.flatMap_def, List.flatMap_def]
    congr 1
    apply List.map_congr_left
    intro g hgm
    exact h5 rfl g hgm
  · intro g hg
    rw [h5 rfl g hg]
    exact h4 g hg
  · rintro x ⟨p, hp, en, hen, hx⟩
    obtain ⟨u, hu, rfl⟩ := List.mem_map.1 hp
    exact hv x ⟨u, hu, en, hen, hx⟩
  · intro p hp a b hab
    obtain ⟨u, hu, rfl⟩ := List.mem_map.1 hp
    exact hlen u hu a b hab

/-- C149: the report of a speaker is that of the speaker's utterances. -/
theorem speaker_report (e : Enc) (qs : Lex → List Nat) (hq : ∀ lex, IsSort lex (qs lex)) (value : W → List Nat) (weight : W → Int) (n : Nat)
    (us : List (List Nat × List (Entry W))) (sc : Scores W) (hsc : Score.scoreAll weight true (Score.init W n) us = some sc)
    (hv : ∀ x : W, (∃ u ∈ us, ∃ en ∈ u.2, en.ref = some x ∨ en.hyp = some x) → Valid e (value x))
    (hlen : ∀ u ∈ us, ∀ a b : W, Entry.pair .sub a b ∈ u.2 → (value a).length + (value b).length < 9995) (g : Grp W) (hg : g ∈ sc.grps) :
    ∃ r, report e qs value [g] = some r ∧ IsReport e value (pathsOf g.name us) r := by
  obtain ⟨sc', h1, h2, h3, h4, h5⟩ := Score.scoreAll_totals weight true n us
  rw [hsc] at h1
  cases h1
  refine report_core e qs hq value weight [g] (pathsOf g.name us) ?_ ?_ ?_ ?_
  · rw [← h5 rfl g hg]
    simp
  · intro g' hg'
    rw [List.mem_singleton.1 hg', h5 rfl g hg]
    exact h4 g hg
  · rintro x ⟨p, hp, en, hen, hx⟩
    obtain ⟨u, hu, rfl⟩ := List.mem_map.1 hp
    exact hv x ⟨u, (List.mem_filter.1 hu).1, en, hen, hx⟩
  · intro p hp a b hab
    obtain ⟨u, hu, rfl⟩ := List.mem_map.1 hp
    exact hlen u (List.mem_filter.1 hu).1 a b hab

/-- A pair of words that together have 9995 bytes does not fit into the buffer. -/
theorem long_pairs_overflow (e : Enc) (qs : Lex → List Nat) (value : W → List Nat) (grps : List (Grp W)) (g : Grp W) (hg : g ∈ grps)
    (path : List (Entry W)) (hp : path ∈ g.paths) (a b : W) (hab : Entry.pair .sub a b ∈ path)
    (hlen : 9995 ≤ (value a).length + (value b).length) : report e qs value grps = none := by
  have : confTable e qs value grps = none := by
    unfold confTable
    rw [if_neg]
    intro hall
    rw [List.all_eq_true] at hall
    have := of_decide_eq_true (hall (pairText (value a) (value b)) (List.mem_filterMap.2 ⟨_, List.mem_flatMap.2
      ⟨g, hg, List.mem_flatten.2 ⟨path, hp, hab⟩⟩, rfl⟩))
    unfold pairText at this
    simp only [List.length_append, List.length_cons, List.length_nil] at this
    omega
  unfold report
  dsimp only
  rw [this]

/-- Two utterances of two speakers: a substitution and an insertion; a deletion and the same substitution. -/
example : (Score.scoreAll (W := Nat) (fun _ => 1) true (Score.init Nat 0)
    [([115], [.pair .corr 97 97, .pair .sub 98 99, .ins 97]), ([116], [.pair .sub 98 99, .del 97])]).bind
      (fun sc => (report .ascii (fun lex => List.range lex.str.length) (fun w => [w]) sc.grps).map
        (fun r => (r.nsent, r.nserr, r.withIns, r.ref, r.confusions.lines, r.pcts))) =
    some (2, 2, 1, 4, [(2, [98, 32, 61, 61, 62, 32, 99])], some (1000, 250, 500, 250, 250, 0)) := by rfl

/-! ### C150: the percentages -/

theorem tenths_nearest (num den : Nat) (h : 0 < den) : Nearest num den (tenths num den) := by
  unfold tenths
  rw [if_neg (by omega)]
  have h1 := Nat.div_add_mod (2000 * num + den) (2 * den)
  have h2 := Nat.mod_lt (2000 * num + den) (show 0 < 2 * den by omega)
  generalize (2000 * num + den) / (2 * den) = t at h1
  generalize (2000 * num + den) % (2 * den) = m at h1 h2
  unfold Nearest
  have h3 : 2 * (den : Int) * (t : Int) = ((2 * den * t : Nat) : Int) := by simp
  rw [h3]
  generalize 2 * den * t = x at h1
  omega

theorem accuracy_nearest (err ref : Nat) (h : 0 < ref) : Nearest ((ref : Int) - err) ref (accuracy err ref) := by
  unfold accuracy
  by_cases hlt : err < ref
  · rw [if_pos hlt]
    have h1 := Nat.div_add_mod (2000 * (ref - err) + ref) (2 * ref)
    have h2 := Nat.mod_lt (2000 * (ref - err) + ref) (show 0 < 2 * ref by omega)
    generalize (2000 * (ref - err) + ref) / (2 * ref) = t at h1
    generalize (2000 * (ref - err) + ref) % (2 * ref) = m at h1 h2
    unfold Nearest
    have h3 : 2 * (ref : Int) * (t : Int) = ((2 * ref * t : Nat) : Int) := by simp
    rw [h3]
    generalize 2 * ref * t = x at h1
    omega
  · rw [if_neg hlt]
    have h1 := Nat.div_add_mod (2000 * (err - ref) + ref) (2 * ref)
    have h2 := Nat.mod_lt (2000 * (err - ref) + ref) (show 0 < 2 * ref by omega)
    generalize (2000 * (err - ref) + ref) / (2 * ref) = t at h1
    generalize (2000 * (err - ref) + ref) % (2 * ref) = m at h1 h2
    unfold Nearest
    have h3 : 2 * (ref : Int) * (-(t : Int)) = -((2 * ref * t : Nat) : Int) := by simp [Int.mul_neg]
    rw [h3]
    generalize 2 * ref * t = x at h1
    omega

/-- C150: without reference words no percentage is printed, otherwise each is within half a tenth of the exact one. -/
theorem report_percentages (e : Enc) (qs : Lex → List Nat) (value : W → List Nat) (grps : List (Grp W)) (r : Report)
    (h : report e qs value grps = some r) :
    (r.ref = 0 → r.pcts = none) ∧ (0 < r.ref → ∃ (pe pc ps pd pi : Nat) (pa : Int), r.pcts = some (pe, pc, ps, pd, pi, pa) ∧
      Nearest r.err r.ref pe ∧ Nearest r.corr r.ref pc ∧ Nearest r.sub r.ref ps ∧ Nearest r.del r.ref pd ∧ Nearest r.ins r.ref pi ∧
      Nearest ((r.ref : Int) - r.err) r.ref pa) := by
  unfold report at h
  dsimp only at h
  split at h
  · cases h
    refine ⟨fun h0 => ?_, fun h0 => ?_⟩
    · dsimp only at h0 ⊢
      rw [if_neg (by omega)]
    · dsimp only at h0 ⊢
      rw [if_pos h0]
      exact ⟨_, _, _, _, _, _, rfl, tenths_nearest _ _ h0, tenths_nearest _ _ h0, tenths_nearest _ _ h0, tenths_nearest _ _ h0,
        tenths_nearest _ _ h0, accuracy_nearest _ _ h0⟩
  · cases h

/-- C150 (part): the printed error and accuracy add up to 100.0, or to 100.1.  Missing: that they always add up to 100.0, which is false
(`accuracy_and_error_over`). -/
theorem accuracy_and_error_partial (err ref : Nat) (h : 0 < ref) :
    (tenths err ref : Int) + accuracy err ref = 1000 ∨ (tenths err ref : Int) + accuracy err ref = 1001 := by
  unfold tenths accuracy
  rw [if_neg (by omega)]
  by_cases hlt : err < ref
  · rw [if_pos hlt]
    have h1 := Nat.div_add_mod (2000 * (ref - err) + ref) (2 * ref)
    have h2 := Nat.mod_lt (2000 * (ref - err) + ref) (show 0 < 2 * ref by omega)
    have h3 := Nat.div_add_mod (2000 * err + ref) (2 * ref)
    have h4 := Nat.mod_lt (2000 * err + ref) (show 0 < 2 * ref by omega)
    generalize (2000 * (ref - err) + ref) / (2 * ref) = t at h1
    generalize (2000 * (ref - err) + ref) % (2 * ref) = m at h1 h2
    generalize (2000 * err + ref) / (2 * ref) = t' at h3
    generalize (2000 * err + ref) % (2 * ref) = m' at h3 h4
    have h5 : 2 * ref * (t + t') + (m + m') = 2 * ref * 1001 := by rw [Nat.mul_add]; omega
    have h6 : t + t' < 1002 := by
      apply Nat.lt_of_mul_lt_mul_left (a := 2 * ref)
      omega
    have h7 : 999 < t + t' := by
      apply Nat.lt_of_mul_lt_mul_left (a := 2 * ref)
      omega
    omega
  · rw [if_neg hlt]
    have : 2000 * err + ref = (2000 * (err - ref) + ref) + 2 * ref * 1000 := by omega
    rw [this, Nat.add_mul_div_left _ _ (show 0 < 2 * ref by omega)]
    omega

/-- One error in 2000 words: 0.1% errors and 100.0% accuracy. -/
theorem accuracy_and_error_over : tenths 1 2000 = 1 ∧ accuracy 1 2000 = 1000 := by decide
example : tenths 1 3 = 333 ∧ accuracy 1 3 = 667 ∧ tenths 4 3 = 1333 ∧ accuracy 4 3 = -333 := by decide

/-! ### C151: the words no system got right -/

theorem sum_modify (l : List Nat) (i : Nat) (h : i < l.length) : (l.modify i (· + 1)).sum = l.sum + 1 := by
  induction l generalizing i with
  | nil => simp at h
  | cons x l ih =>
    cases i with
    | zero => simp; omega
    | succ i =>
      have := ih i (by simpa using h)
      simp only [List.modify_succ_cons, List.sum_cons, this]
      omega

theorem pos_modify (l : List Nat) (i : Nat) (h : ∀ n ∈ l, 0 < n) : ∀ n ∈ l.modify i (· + 1), 0 < n := by
  intro n hn
  obtain ⟨k, hk⟩ := List.mem_iff_getElem?.1 hn
  rw [List.getElem?_modify] at hk
  cases hx : l[k]? with
  | none => rw [hx] at hk; cases hk
  | some x =>
    rw [hx] at hk
    have := h x (List.mem_of_getElem? hx)
    by_cases hik : i = k <;> simp [hik] at hk <;> omega

structure Sums (e : Enc) (lex : Lex) (ws : List (List Nat)) : Prop where
  ok : Ok e lex
  mem : ∀ w : List Nat, w ∈ lex.str ↔ w ∈ ws
  sum : lex.cnt.sum = ws.length
  pos : ∀ n ∈ lex.cnt, 0 < n

/-- Counting a missed word. -/
theorem missed_ok {e : Enc} {lex : Lex} {ws : List (List Nat)} (h : Sums e lex ws) {w : List Nat} (hw : Valid e w) :
    ∃ lex', missed e lex w = some lex' ∧ Sums e lex' (ws ++ [w]) ∧
      (lex.sort = List.range lex.str.length → (w ∉ lex.str → ∀ v ∈ lex.str, Lt e v w) → Counts lex ws →
        lex'.sort = List.range lex'.str.length ∧ Counts lex' (ws ++ [w])) := by
  obtain ⟨b, i, hs, ht, hf⟩ := search_ok h.ok hw
  unfold missed find
  rw [hs]
  cases b with
  | true =>
    have hi := ht rfl
    have hil : i < lex.str.length := by
      have := (List.getElem?_eq_some_iff.1 hi).1; rw [h.ok.texts_len] at this; exact this
    have hwm : w ∈ lex.str := h.ok.texts_perm.mem_iff.1 (List.mem_of_getElem? hi)
    refine ⟨bump lex i, rfl, ⟨ok_bump h.ok i, ?_, ?_, pos_modify _ _ h.pos⟩, ?_⟩
    · intro v
      rw [show (bump lex i).str = lex.str from rfl, h.mem, List.mem_append, List.mem_singleton]
      exact ⟨Or.inl, fun hv => hv.elim id (fun he => he ▸ (h.mem w).1 hwm)⟩
    · show (lex.cnt.modify i (· + 1)).sum = _
      rw [sum_modify _ _ (by rw [h.ok.clen]; exact hil), h.sum, List.length_append, List.length_singleton]
    · intro hsr _ hc
      refine ⟨hsr, counts_bump h.ok.nodup (k := i) (w := w) ?_ hc.counts ?_⟩
      · have : texts lex = lex.str := by unfold texts; rw [hsr, map_getD_range]
        rw [this] at hi
        exact hi
      · intro v
        rw [hc.mem]
        exact ⟨Or.inl, fun hv => hv.elim id (fun he => he ▸ (hc.mem w).1 hwm)⟩
  | false =>
    obtain ⟨lex', k, h1, h2, h3, h4⟩ := insert_ok h.ok hw
    obtain ⟨_, hlo, hhi⟩ := hf rfl
    have hnot : w ∉ lex.str := by
      intro hc
      obtain ⟨k, hk⟩ := List.mem_iff_getElem?.1 (h.ok.texts_perm.mem_iff.2 hc)
      by_cases hki : k < i
      · exact (hlo k w hki hk).irrefl hw
      · exact (hhi k w (by omega) hk).irrefl hw
    rcases h4 with ⟨m, _⟩ | ⟨m, e1, e2, e3, e4⟩
    · exact absurd m hnot
    · have hset : { lex' with cnt := lex'.cnt.set k 0 } = lex' := by
        have : lex'.cnt.set k 0 = lex'.cnt := by
          rw [e2, e3, ← h.ok.clen, List.set_append]
          simp
        rw [this]
      have hset' : (⟨lex'.str, lex'.sort, lex'.cnt.set k 0, lex'.max⟩ : Lex) = lex' := hset
      refine ⟨bump lex' k, by rw [h1]; simp [hset'], ⟨ok_bump h2 k, ?_, ?_, ?_⟩, ?_⟩
      · intro v
        rw [show (bump lex' k).str = lex'.str from rfl, e1, List.mem_append, List.mem_append, h.mem]
      · show (lex'.cnt.modify k (· + 1)).sum = _
        rw [sum_modify _ _ (by rw [e2, e3, List.length_append, h.ok.clen]; simp), e2, List.sum_append, h.sum]
        simp
      · show ∀ n ∈ lex'.cnt.modify k (· + 1), 0 < n
        rw [e2, e3, ← h.ok.clen]
        intro n hn
        obtain ⟨j, hj⟩ := List.mem_iff_getElem?.1 hn
        rw [List.getElem?_modify] at hj
        by_cases hjl : j < lex.cnt.length
        · rw [List.getElem?_append_left hjl, List.getElem?_eq_getElem hjl] at hj
          have := h.pos _ (List.getElem_mem hjl)
          have hne : ¬ (lex.cnt.length = j) := by omega
          simp [hne] at hj
          omega
        · by_cases hje : j = lex.cnt.length
          · subst hje
            simp at hj
            omega
          · rw [List.getElem?_eq_none (by simp; omega)] at hj
            cases hj
      · intro hsr hnew hc
        have hall := hnew m
        refine ⟨?_, counts_bump h2.nodup h3 ?_ ?_⟩
        · show lex'.sort = List.range lex'.str.length
          rw [e4 hall, hsr, e1, List.length_append, List.length_singleton, List.range_succ]
        · intro i s hs
          rw [e1] at hs
          rw [e2]
          by_cases hi : i < lex.str.length
          · rw [List.getElem?_append_left hi] at hs
            rw [List.getElem?_append_left (by rw [h.ok.clen]; exact hi)]
            exact hc.counts i s hs
          · rw [List.getElem?_append_right (by omega)] at hs
            rw [List.getElem?_append_right (by rw [h.ok.clen]; omega)]
            obtain ⟨h5, h6⟩ := List.getElem?_eq_some_iff.1 hs
            simp at h5
            have h7 : i - lex.str.length = 0 := by omega
            simp only [h7] at h6
            simp only [List.getElem_cons_zero] at h6
            rw [h.ok.clen, h7, ← h6, List.count_eq_zero.2 (fun hm => m ((hc.mem w).2 hm))]
            rfl
        · intro v
          rw [e1, List.mem_append, hc.mem, List.mem_singleton]

theorem missedAll_ok {e : Enc} : ∀ (vs : List (List Nat)) (lex : Lex) (ws : List (List Nat)), Sums e lex ws → (∀ v ∈ vs, Valid e v) →
    ∃ lex', missedAll e lex vs = some lex' ∧ Sums e lex' (ws ++ vs) ∧
      (lex.sort = List.range lex.str.length → NewInOrder e (ws ++ vs) → Counts lex ws → Counts lex' (ws ++ vs)) := by
  intro vs
  induction vs with
  | nil => intro lex ws h _; exact ⟨lex, rfl, by simpa using h, fun _ _ hc => by simpa using hc⟩
  | cons v vs ih =>
    intro lex ws h hv
    obtain ⟨l1, h1, h2, h3⟩ := missed_ok h (hv v List.mem_cons_self)
    obtain ⟨l2, g1, g2, g3⟩ := ih l1 _ h2 (fun x hx => hv x (List.mem_cons_of_mem _ hx))
    rw [show ws ++ [v] ++ vs = ws ++ v :: vs by simp] at g2 g3
    refine ⟨l2, by unfold missedAll; rw [h1]; exact g1, g2, ?_⟩
    intro hsr hno hc
    obtain ⟨k1, k2⟩ := h3 hsr (fun hn x hx => hno ws vs v rfl (fun hm => hn ((h.mem v).2 hm)) x ((h.mem x).1 hx)) hc
    exact g3 k1 hno k2

/-- C151 (part): the list of words that no system got right has one line for each of them, and the sum of the counts is the number of such
words.  Missing: that each count is that of its word, which is false (`missed_counts_wrong`). -/
theorem missed_list_partial (e : Enc) (ws : List (List Nat)) (hv : ∀ w ∈ ws, Valid e w) :
    ∃ lex, missedAll e (initLex 1000) ws = some lex ∧ ∀ ptr : List Nat, IsSort lex ptr → ∃ p, printout lex ptr 1 = some p ∧
      (∀ w : List Nat, w ∈ p.lines.map (·.2) ↔ w ∈ ws) ∧ (p.lines.map (·.2)).Nodup ∧ p.total = p.lines.length ∧ p.sum = ws.length := by
  obtain ⟨lex, h1, h2, _⟩ := missedAll_ok ws (initLex 1000) [] ⟨ok_init e 1000 (by omega), (counts_init 1000).mem, rfl, nofun⟩ hv
  rw [List.nil_append] at h2
  refine ⟨lex, h1, fun ptr hp => ?_⟩
  obtain ⟨p, ord, g1, g2, g3, g4, g5, g6, g7⟩ := printout_ok h2.ok hp h2.pos
  have hperm : (p.lines.map (·.2)).Perm lex.str := by
    rw [g4, List.map_map]
    have := g2.map fun i => lex.str.getD i []
    rw [map_getD_range] at this
    exact this
  refine ⟨p, g1, ?_, hperm.nodup_iff.2 h2.ok.nodup, ?_, by rw [g7, h2.sum]⟩
  · intro w
    rw [hperm.mem_iff, h2.mem]
  · rw [g5, g4, List.length_map, g2.length_eq, List.length_range]

/-- C151 (part): it is the table of these words if every new one comes later in the order of texts than those before. -/
theorem missed_table_partial (e : Enc) (ws : List (List Nat)) (hv : ∀ w ∈ ws, Valid e w) (hno : NewInOrder e ws) :
    ∃ lex, missedAll e (initLex 1000) ws = some lex ∧ ∀ ptr : List Nat, IsSort lex ptr → ∃ p, printout lex ptr 1 = some p ∧ IsTable e ws p := by
  obtain ⟨lex, h1, h2, h3⟩ := missedAll_ok ws (initLex 1000) [] ⟨ok_init e 1000 (by omega), (counts_init 1000).mem, rfl, nofun⟩ hv
  rw [List.nil_append] at h2 h3
  exact ⟨lex, h1, fun ptr hp => printout_table h2.ok (h3 rfl hno (counts_init 1000)) hp⟩

example : NewInOrder .ascii [[97], [97], [98]] := by
  intro pre post w h hn v hv
  rcases pre with _ | ⟨p1, _ | ⟨p2, _ | ⟨p3, rest⟩⟩⟩
  · cases hv
  · simp at h
    obtain ⟨rfl, rfl, rfl⟩ := h
    simp at hn
  · simp at h
    obtain ⟨rfl, rfl, rfl, rfl⟩ := h
    simp at hv
    subst hv
    exact ⟨_, rfl, by decide⟩
  · simp at h

/-- "b" missed once and then "a" twice: the list says "b" twice and "a" once. -/
theorem missed_counts_wrong : (missedAll .ascii (initLex 1000) [[98], [97], [97]]).bind (fun lex => printout lex [0, 1] 1) =
    some ⟨2, 2, [(2, [98]), (1, [97])], 3⟩ ∧
    (countAll .ascii (initLex 1000) [[98], [97], [97]]).bind (fun lex => printout lex [1, 0] 1) =
      some ⟨2, 2, [(2, [97]), (1, [98])], 3⟩ := by decide

end Verif.Detail
