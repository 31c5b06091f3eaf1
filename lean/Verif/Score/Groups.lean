import Verif.Score.Spec
/-!
# Score groups: lemmas
-/
set_option autoImplicit false
namespace Verif.Score
open Verif.Sgml

variable {W : Type}

theorem refWeight_cons (weight : W → Int) (p : Entry W → Bool) (e : Entry W) (es : List (Entry W)) :
    refWeight weight p (e :: es) = (if p e then (e.ref.map weight).getD 0 else 0) + refWeight weight p es := by
  unfold refWeight
  rw [List.filter_cons]
  split
  · rw [List.filterMap_cons]
    cases e.ref <;> simp
  · simp

theorem hypWeight_cons (weight : W → Int) (p : Entry W → Bool) (e : Entry W) (es : List (Entry W)) :
    hypWeight weight p (e :: es) = (if p e then (e.hyp.map weight).getD 0 else 0) + hypWeight weight p es := by
  unfold hypWeight
  rw [List.filter_cons]
  split
  · rw [List.filterMap_cons]
    cases e.hyp <;> simp
  · simp

theorem refWeight_append (weight : W → Int) (p : Entry W → Bool) (a b : List (Entry W)) :
    refWeight weight p (a ++ b) = refWeight weight p a + refWeight weight p b := by
  simp [refWeight]

theorem hypWeight_append (weight : W → Int) (p : Entry W → Bool) (a b : List (Entry W)) :
    hypWeight weight p (a ++ b) = hypWeight weight p a + hypWeight weight p b := by
  simp [hypWeight]

theorem sum_perm {a b : List Int} (h : a.Perm b) : a.sum = b.sum := by
  induction h with
  | nil => rfl
  | cons x _ ih => simp [ih]
  | swap x y l => simp only [List.sum_cons]; omega
  | trans _ _ ih1 ih2 => rw [ih1, ih2]

theorem refWeight_perm (weight : W → Int) (p : Entry W → Bool) {a b : List (Entry W)} (h : a.Perm b) :
    refWeight weight p a = refWeight weight p b := sum_perm (((h.filter p).filterMap Entry.ref).map weight)

theorem hypWeight_perm (weight : W → Int) (p : Entry W → Bool) {a b : List (Entry W)} (h : a.Perm b) :
    hypWeight weight p a = hypWeight weight p b := sum_perm (((h.filter p).filterMap Entry.hyp).map weight)

/-- What scoring the elements of a path adds to a group. -/
theorem fold_spec (weight : W → Int) (path : List (Entry W)) : ∀ (g : Grp W) (k : Nat),
    let s := path.foldl (addEntry weight) (g, k)
    s.1.name = g.name ∧ s.1.nsent = g.nsent ∧ s.1.serr = g.serr ∧ s.1.maxPath = g.maxPath ∧ s.1.paths = g.paths ∧
    s.1.corr = g.corr + path.countP isCorr ∧ s.1.sub = g.sub + path.countP isSub ∧ s.1.ins = g.ins + path.countP isIns ∧
    s.1.del = g.del + path.countP isDel ∧ s.2 = k + path.countP isErr ∧
    s.1.wRef = g.wRef + refWeight weight (fun e => isCorr e || isSub e || isDel e) path ∧
    s.1.wCorr = g.wCorr + hypWeight weight isCorr path ∧ s.1.wIns = g.wIns + hypWeight weight isIns path ∧
    s.1.wDel = g.wDel + refWeight weight isDel path ∧
    s.1.wSub = g.wSub + (refWeight weight isSub path + hypWeight weight isSub path) := by
  induction path with
  | nil => intro g k; simp [refWeight, hypWeight]
  | cons e es ih =>
    intro g k
    simp only [List.foldl_cons, List.countP_cons, refWeight_cons, hypWeight_cons]
    have := ih (addEntry weight (g, k) e).1 (addEntry weight (g, k) e).2
    simp only at this
    obtain ⟨h1, h2, h3, h4, h5, h6, h7, h8, h9, h10, h11, h12, h13, h14, h15⟩ := this
    rw [h1, h2, h3, h4, h5, h6, h7, h8, h9, h10, h11, h12, h13, h14, h15]
    cases e with
    | ins b =>
      simp [addEntry, isCorr, isSub, isIns, isDel, isErr, Entry.ref, Entry.hyp]
      omega
    | del a =>
      simp [addEntry, isCorr, isSub, isIns, isDel, isErr, Entry.ref, Entry.hyp]
      omega
    | pair ev a b =>
      cases ev <;> simp [addEntry, isCorr, isSub, isIns, isDel, isErr, Entry.ref, Entry.hyp] <;> omega

/-- A group in good order: the path storage is not full. -/
def GrpOK (g : Grp W) : Prop := 20 ≤ g.maxPath ∧ g.paths.length < g.maxPath

theorem any_countP (p : List (Entry W)) : p.any isErr = decide (p.countP isErr > 0) := by
  rw [Bool.eq_iff_iff, List.any_eq_true, decide_eq_true_eq, gt_iff_lt, List.countP_pos_iff]

theorem addToGrp_spec (weight : W → Int) (g : Grp W) (hg : GrpOK g) (path : List (Entry W)) (keep : Bool) :
    ∃ g', addToGrp weight g path keep = some g' ∧ g'.name = g.name ∧ GrpOK g' ∧
      (∀ ps, Totals weight g ps → Totals weight g' (ps ++ [path])) ∧
      g'.paths = (if keep then g.paths ++ [path] else g.paths) := by
  obtain ⟨hg1, hg2⟩ := hg
  have hs := fold_spec weight path g 0
  simp only at hs
  obtain ⟨h1, h2, h3, h4, h5, h6, h7, h8, h9, h10, h11, h12, h13, h14, h15⟩ := hs
  unfold addToGrp
  simp only
  generalize path.foldl (addEntry weight) (g, 0) = s at *
  have tot : ∀ (g' : Grp W), g'.corr = s.1.corr → g'.sub = s.1.sub → g'.ins = s.1.ins → g'.del = s.1.del →
      g'.nsent = s.1.nsent + 1 → g'.serr = (if s.2 > 0 then s.1.serr + 1 else s.1.serr) → g'.wRef = s.1.wRef →
      g'.wCorr = s.1.wCorr → g'.wIns = s.1.wIns → g'.wDel = s.1.wDel → g'.wSub = s.1.wSub →
      ∀ ps, Totals weight g ps → Totals weight g' (ps ++ [path]) := by
    intro g' e1 e2 e3 e4 e5 e6 e7 e8 e9 e10 e11 ps ht
    have hf : (ps ++ [path]).flatten = ps.flatten ++ path := by simp
    constructor
    · rw [e1, h6, hf, List.countP_append, ht.corr]
    · rw [e2, h7, hf, List.countP_append, ht.sub]
    · rw [e3, h8, hf, List.countP_append, ht.ins]
    · rw [e4, h9, hf, List.countP_append, ht.del]
    · rw [e5, h2, ht.nsent, List.length_append]; rfl
    · rw [e6, h3, ht.serr, List.countP_append, List.countP_cons, List.countP_nil, any_countP, h10, Nat.zero_add]
      by_cases h : path.countP isErr > 0 <;> simp [h]
    · rw [e7, h11, hf, refWeight_append, ht.wRef]
    · rw [e8, h12, hf, hypWeight_append, ht.wCorr]
    · rw [e9, h13, hf, hypWeight_append, ht.wIns]
    · rw [e10, h14, hf, refWeight_append, ht.wDel]
    · rw [e11, h15, hf, refWeight_append, hypWeight_append, ht.wSub]; omega
  cases keep with
  | false =>
    refine ⟨_, rfl, h1, ⟨?_, ?_⟩, tot _ rfl rfl rfl rfl rfl rfl rfl rfl rfl rfl rfl, ?_⟩
    · simp only [h4]; exact hg1
    · simp only [h4, h5]; exact hg2
    · simp [h5]
  | true =>
    simp only [if_true]
    unfold keepPath
    simp only [h4, h5]
    generalize hm : (if g.paths.length + 1 ≥ g.maxPath then g.maxPath * 2 else g.maxPath) = m
    have hm2 : 20 ≤ m ∧ g.paths.length + 1 < m := by rw [← hm]; split <;> omega
    rw [if_pos (by omega)]
    refine ⟨_, rfl, h1, ⟨hm2.1, ?_⟩, tot _ rfl rfl rfl rfl rfl rfl rfl rfl rfl rfl rfl, rfl⟩
    simp only [List.length_append, List.length_cons, List.length_nil]
    omega

/-! ## The table of groups -/

/-- A table in good order. -/
structure OK (sc : Scores W) : Prop where
  size : 20 ≤ sc.maxGrp ∧ sc.grps.length < sc.maxGrp
  nodup : (sc.grps.map (·.name)).Nodup
  grps : ∀ g ∈ sc.grps, GrpOK g

theorem init_ok (n : Nat) : OK (init W n) := by
  refine ⟨?_, by simp [init], by simp [init]⟩
  simp only [init, List.length_nil]
  split <;> omega

theorem findGrp_none (name : List Nat) (gs : List (Grp W)) : ∀ k, findGrp name gs k = none ↔ name ∉ gs.map (·.name) := by
  induction gs with
  | nil => simp [findGrp]
  | cons g gs ih =>
    intro k
    simp only [findGrp, List.map_cons, List.mem_cons, not_or]
    split
    · rename_i h; simp [h]
    · rename_i h; rw [ih]; simp [h]

theorem findGrp_some (name : List Nat) (gs : List (Grp W)) : ∀ k i, findGrp name gs k = some i →
    k ≤ i ∧ ∃ g, gs[i - k]? = some g ∧ g.name = name := by
  induction gs with
  | nil => simp [findGrp]
  | cons g gs ih =>
    intro k i h
    simp only [findGrp] at h
    split at h
    · rename_i hn
      cases h
      exact ⟨Nat.le_refl _, g, by simp, hn.symm⟩
    · obtain ⟨h1, g', h2, h3⟩ := ih (k + 1) i h
      refine ⟨by omega, g', ?_, h3⟩
      rw [show i - k = (i - (k + 1)) + 1 by omega, List.getElem?_cons_succ]
      exact h2

theorem nodup_index {gs : List (Grp W)} (hn : (gs.map (·.name)).Nodup) {i j : Nat} {g h : Grp W} (hi : gs[i]? = some g)
    (hj : gs[j]? = some h) (he : g.name = h.name) : i = j := by
  obtain ⟨hi1, hi2⟩ := List.getElem?_eq_some_iff.1 hi
  obtain ⟨hj1, hj2⟩ := List.getElem?_eq_some_iff.1 hj
  have h1 : i < (gs.map (·.name)).length := by simpa using hi1
  have h2 : j < (gs.map (·.name)).length := by simpa using hj1
  have h3 : (gs.map (·.name))[i] = (gs.map (·.name))[j] := by simp [hi2, hj2, he]
  exact (List.getElem_inj hn).1 h3

/-- Asking for a name that is in the table gives its position and changes nothing. -/
theorem getGrp_found {sc : Scores W} (hn : (sc.grps.map (·.name)).Nodup) {i : Nat} {g : Grp W} (hi : sc.grps[i]? = some g) :
    getGrp sc g.name = some (sc, i) := by
  unfold getGrp
  cases hf : findGrp g.name sc.grps 0 with
  | none =>
    exfalso
    exact (findGrp_none g.name sc.grps 0).1 hf (List.mem_map.2 ⟨g, List.mem_of_getElem? hi, rfl⟩)
  | some j =>
    obtain ⟨_, g', h1, h2⟩ := findGrp_some g.name sc.grps 0 j hf
    simp only
    rw [nodup_index hn hi h1 h2.symm]
    rfl

/-- Asking for a name always succeeds: the table stays in good order, its groups stay where and as they are, and the group
that is returned carries the name; a new group has no counts. -/
theorem getGrp_spec {sc : Scores W} (ok : OK sc) (name : List Nat) :
    ∃ sc' i g, getGrp sc name = some (sc', i) ∧ OK sc' ∧ sc'.grps[i]? = some g ∧ g.name = name ∧
      ((name ∈ sc.grps.map (·.name) ∧ sc' = sc) ∨
        (name ∉ sc.grps.map (·.name) ∧ sc'.grps = sc.grps ++ [newGrp W name] ∧ i = sc.grps.length)) := by
  cases hf : findGrp name sc.grps 0 with
  | some i =>
    obtain ⟨_, g, h1, h2⟩ := findGrp_some name sc.grps 0 i hf
    refine ⟨sc, i, g, by unfold getGrp; rw [hf], ok, h1, h2, Or.inl ⟨?_, rfl⟩⟩
    exact List.mem_map.2 ⟨g, List.mem_of_getElem? h1, h2⟩
  | none =>
    have hnot := (findGrp_none name sc.grps 0).1 hf
    obtain ⟨hs1, hs2⟩ := ok.size
    generalize hm : (if sc.grps.length + 1 ≥ sc.maxGrp then sc.maxGrp * 3 / 2 else sc.maxGrp) = m
    have hm2 : 20 ≤ m ∧ sc.grps.length + 1 < m := by rw [← hm]; split <;> omega
    refine ⟨⟨sc.grps ++ [newGrp W name], m⟩, sc.grps.length, newGrp W name, ?_, ?_, by simp, rfl, Or.inr ⟨hnot, rfl, rfl⟩⟩
    · unfold getGrp
      rw [hf]
      simp only
      rw [hm, if_pos (by omega)]
    · refine ⟨⟨hm2.1, by simp only [List.length_append, List.length_cons, List.length_nil]; omega⟩, ?_, ?_⟩
      · simp only [List.map_append, List.map_cons, List.map_nil]
        rw [List.nodup_append]
        refine ⟨ok.nodup, by simp, ?_⟩
        intro a ha b hb
        rw [List.mem_singleton] at hb
        rw [hb]
        rintro rfl
        exact hnot ha
      · intro g hg
        rcases List.mem_append.1 hg with h | h
        · exact ok.grps g h
        · rw [List.mem_singleton] at h
          rw [h]
          exact ⟨Nat.le_refl _, by simp [newGrp]⟩

theorem map_set_name {gs : List (Grp W)} {i : Nat} {g g' : Grp W} (hi : gs[i]? = some g) (hn : g'.name = g.name) :
    (gs.set i g').map (·.name) = gs.map (·.name) := by
  rw [List.map_set, hn]
  obtain ⟨hi1, hi2⟩ := List.getElem?_eq_some_iff.1 hi
  apply List.ext_getElem?
  intro j
  rw [List.getElem?_set]
  split
  · rename_i h
    subst h
    simp [hi1, hi2]
  · rfl

/-- Adding a path to an existing group succeeds and changes only that group. -/
theorem addPath_spec (weight : W → Int) {sc : Scores W} (ok : OK sc) (path : List (Entry W)) (i : Nat) (g : Grp W)
    (hi : sc.grps[i]? = some g) (keep : Bool) :
    ∃ g', addPath weight sc path i keep = some { sc with grps := sc.grps.set i g' } ∧ OK { sc with grps := sc.grps.set i g' } ∧
      g'.name = g.name ∧ (∀ ps, Totals weight g ps → Totals weight g' (ps ++ [path])) ∧
      g'.paths = (if keep then g.paths ++ [path] else g.paths) := by
  obtain ⟨g', h1, h2, h3, h4, h5⟩ := addToGrp_spec weight g (ok.grps g (List.mem_of_getElem? hi)) path keep
  refine ⟨g', ?_, ⟨?_, ?_, ?_⟩, h2, h4, h5⟩
  · unfold addPath
    rw [hi]
    simp only [h1, Option.map_some]
  · simp only [List.length_set]; exact ok.size
  · simp only [map_set_name hi h2]; exact ok.nodup
  · intro x hx
    rcases List.mem_or_eq_of_mem_set hx with h | h
    · exact ok.grps x h
    · rw [h]; exact h3

theorem Reach.ok {weight : W → Int} {sc sc' : Scores W} (hr : Reach weight sc sc') (ok : OK sc) : OK sc' := by
  induction hr with
  | refl => exact ok
  | get _ h ih =>
    obtain ⟨s, j, g, h1, h2, _⟩ := getGrp_spec ih _
    rw [h] at h1; cases h1; exact h2
  | add _ h ih =>
    rename_i sc1 sc2 path i keep _
    cases hi : sc1.grps[i]? with
    | none => unfold addPath at h; rw [hi] at h; cases h
    | some g =>
      obtain ⟨g', h1, h2, _⟩ := addPath_spec weight ih path i g hi keep
      rw [h] at h1; cases h1; exact h2

/-- Names stay at their positions. -/
theorem Reach.names {weight : W → Int} {sc sc' : Scores W} (hr : Reach weight sc sc') (ok : OK sc) (i : Nat) (g : Grp W)
    (hi : sc.grps[i]? = some g) : ∃ g', sc'.grps[i]? = some g' ∧ g'.name = g.name := by
  induction hr with
  | refl => exact ⟨g, hi, rfl⟩
  | get hr h ih =>
    obtain ⟨g1, h1, h2⟩ := ih
    obtain ⟨s, j, g', e1, _, _, _, e5⟩ := getGrp_spec (hr.ok ok) _
    rw [h] at e1; cases e1
    rcases e5 with ⟨_, rfl⟩ | ⟨_, e, _⟩
    · exact ⟨g1, h1, h2⟩
    · refine ⟨g1, ?_, h2⟩
      rw [e, List.getElem?_append_left (List.getElem?_eq_some_iff.1 h1).1]
      exact h1
  | add hr h ih =>
    rename_i sc1 sc2 path k keep
    obtain ⟨g1, h1, h2⟩ := ih
    cases hk : sc1.grps[k]? with
    | none => unfold addPath at h; rw [hk] at h; cases h
    | some gk =>
      obtain ⟨g', e1, _, e3, _⟩ := addPath_spec weight (hr.ok ok) path k gk hk keep
      rw [h] at e1; cases e1
      simp only
      rw [List.getElem?_set]
      split
      · rename_i hkj
        subst hkj
        rw [h1] at hk; cases hk
        rw [if_pos (List.getElem?_eq_some_iff.1 h1).1]
        exact ⟨g', rfl, by rw [e3, h2]⟩
      · exact ⟨g1, h1, h2⟩

/-! ## Scoring a list of utterances -/

theorem totals_new (weight : W → Int) (name : List Nat) : Totals weight (newGrp W name) [] := by
  constructor <;> simp [newGrp, refWeight, hypWeight]

theorem pathsOf_append (name : List Nat) (us vs : List (List Nat × List (Entry W))) :
    pathsOf name (us ++ vs) = pathsOf name us ++ pathsOf name vs := by simp [pathsOf]

theorem pathsOf_none (name : List Nat) (us : List (List Nat × List (Entry W))) (h : name ∉ us.map (·.1)) : pathsOf name us = [] := by
  unfold pathsOf
  rw [List.filter_eq_nil_iff.2]
  · rfl
  · intro u hu
    simp only [decide_eq_true_eq]
    rintro rfl
    exact h (List.mem_map.2 ⟨u, hu, rfl⟩)

/-- The table after the utterances `done`. -/
structure Inv (weight : W → Int) (keep : Bool) (sc : Scores W) (done : List (List Nat × List (Entry W))) : Prop where
  ok : OK sc
  names : ∀ n, n ∈ sc.grps.map (·.name) ↔ n ∈ done.map (·.1)
  totals : ∀ g ∈ sc.grps, Totals weight g (pathsOf g.name done)
  paths : ∀ g ∈ sc.grps, g.paths = if keep then pathsOf g.name done else []

theorem score_spec (weight : W → Int) (keep : Bool) (sc : Scores W) (done : List (List Nat × List (Entry W)))
    (inv : Inv weight keep sc done) (u : List Nat × List (Entry W)) :
    ∃ sc', score weight keep sc u = some sc' ∧ Inv weight keep sc' (done ++ [u]) := by
  obtain ⟨name, path⟩ := u
  obtain ⟨sc1, i, g, h1, h2, h3, h4, h5⟩ := getGrp_spec inv.ok name
  have inv1 : (∀ n, n ∈ sc1.grps.map (·.name) ↔ n ∈ done.map (·.1) ∨ n = name) ∧
      (∀ g ∈ sc1.grps, Totals weight g (pathsOf g.name done)) ∧
      (∀ g ∈ sc1.grps, g.paths = if keep then pathsOf g.name done else []) := by
    rcases h5 with ⟨ha, rfl⟩ | ⟨ha, hb, _⟩
    · refine ⟨?_, inv.totals, inv.paths⟩
      intro n
      rw [inv.names]
      constructor
      · exact Or.inl
      · rintro (h | rfl)
        · exact h
        · exact (inv.names _).1 ha
    · have hnd : name ∉ done.map (·.1) := fun h => ha ((inv.names _).2 h)
      refine ⟨?_, ?_, ?_⟩
      · intro n
        rw [hb, List.map_append, List.mem_append, inv.names]
        simp [newGrp]
      · intro x hx
        rw [hb] at hx
        rcases List.mem_append.1 hx with h | h
        · exact inv.totals x h
        · rw [List.mem_singleton] at h
          subst h
          simp only [newGrp]
          rw [pathsOf_none name done hnd]
          exact totals_new weight name
      · intro x hx
        rw [hb] at hx
        rcases List.mem_append.1 hx with h | h
        · exact inv.paths x h
        · rw [List.mem_singleton] at h
          subst h
          simp only [newGrp]
          rw [pathsOf_none name done hnd]
          simp
  obtain ⟨i1, i2, i3⟩ := inv1
  obtain ⟨g', k1, k2, k3, k4, k5⟩ := addPath_spec weight h2 path i g h3 keep
  refine ⟨_, by unfold score; rw [h1]; exact k1, k2, ?_, ?_, ?_⟩
  · intro n
    simp only [map_set_name h3 k3]
    rw [i1, List.map_append, List.mem_append]
    simp
  · intro x hx
    simp only at hx
    obtain ⟨j, hj⟩ := List.mem_iff_getElem?.1 hx
    rw [List.getElem?_set] at hj
    split at hj
    · rename_i hij
      rw [if_pos (by subst hij; exact (List.getElem?_eq_some_iff.1 h3).1)] at hj
      cases hj
      rw [k3, h4, pathsOf_append]
      have : pathsOf name [(name, path)] = [path] := by simp [pathsOf]
      rw [this]
      have := i2 g (List.mem_of_getElem? h3)
      rw [h4] at this
      exact k4 _ this
    · rename_i hij
      have hne : x.name ≠ name := by
        intro he
        exact hij (nodup_index h2.nodup h3 hj (by rw [h4, he]))
      rw [pathsOf_append]
      have : pathsOf x.name [(name, path)] = [] := pathsOf_none _ _ (by simpa using hne)
      rw [this, List.append_nil]
      exact i2 x (List.mem_of_getElem? hj)
  · intro x hx
    simp only at hx
    obtain ⟨j, hj⟩ := List.mem_iff_getElem?.1 hx
    rw [List.getElem?_set] at hj
    split at hj
    · rename_i hij
      rw [if_pos (by subst hij; exact (List.getElem?_eq_some_iff.1 h3).1)] at hj
      cases hj
      rw [k3, h4, pathsOf_append, k5, i3 g (List.mem_of_getElem? h3), h4]
      have : pathsOf name [(name, path)] = [path] := by simp [pathsOf]
      rw [this]
      cases keep <;> simp
    · rename_i hij
      have hne : x.name ≠ name := by
        intro he
        exact hij (nodup_index h2.nodup h3 hj (by rw [h4, he]))
      rw [pathsOf_append]
      have : pathsOf x.name [(name, path)] = [] := pathsOf_none _ _ (by simpa using hne)
      rw [this, List.append_nil]
      exact i3 x (List.mem_of_getElem? hj)

theorem scoreAll_spec (weight : W → Int) (keep : Bool) (us : List (List Nat × List (Entry W))) : ∀ (sc : Scores W)
    (done : List (List Nat × List (Entry W))), Inv weight keep sc done →
    ∃ sc', scoreAll weight keep sc us = some sc' ∧ Inv weight keep sc' (done ++ us) := by
  induction us with
  | nil => intro sc done inv; exact ⟨sc, rfl, by rw [List.append_nil]; exact inv⟩
  | cons u us ih =>
    intro sc done inv
    obtain ⟨sc1, h1, h2⟩ := score_spec weight keep sc done inv u
    obtain ⟨sc2, h3, h4⟩ := ih sc1 _ h2
    refine ⟨sc2, by unfold scoreAll; rw [h1]; exact h3, ?_⟩
    rw [List.append_assoc] at h4
    exact h4

theorem inv_init (weight : W → Int) (keep : Bool) (n : Nat) : Inv weight keep (init W n) [] :=
  ⟨init_ok n, by simp [init], by simp [init], by simp [init]⟩

end Verif.Score
