import Verif.Score.Groups
import Verif.Score.Sorting
/-!
# C24, C28 and C30: score totals, sorting by time, score groups
-/
set_option autoImplicit false
namespace Verif.Score
open Verif.Sgml

variable {W : Type}

/-! ## C30: score groups -/

/-- **C30** From a fresh table on, whatever was done before, asking for a group succeeds (it never indexes outside of the
array); the groups that exist stay at their positions with their counts and paths; the group returned carries the name asked
for; and if the name is new, the group starts with nothing counted. -/
theorem getGrp_total (weight : W → Int) (n : Nat) (sc : Scores W) (hr : Reach weight (init W n) sc) (name : List Nat) :
    ∃ sc' i g, getGrp sc name = some (sc', i) ∧ sc'.grps[i]? = some g ∧ g.name = name ∧
      (∀ (j : Nat) (h : Grp W), sc.grps[j]? = some h → sc'.grps[j]? = some h) ∧
      (name ∉ sc.grps.map (·.name) → Totals weight g [] ∧ g.paths = []) ∧
      sc'.grps.length < sc'.maxGrp := by
  obtain ⟨sc', i, g, h1, h2, h3, h4, h5⟩ := getGrp_spec (hr.ok (init_ok n)) name
  refine ⟨sc', i, g, h1, h3, h4, ?_, ?_, h2.size.2⟩
  · intro j h hj
    rcases h5 with ⟨_, rfl⟩ | ⟨_, e, _⟩
    · exact hj
    · rw [e, List.getElem?_append_left (List.getElem?_eq_some_iff.1 hj).1]
      exact hj
  · intro hn
    rcases h5 with ⟨hin, _⟩ | ⟨_, e, ei⟩
    · exact absurd hin hn
    · rw [e, ei] at h3
      simp only [List.getElem?_concat_length, Option.some.injEq] at h3
      subst h3
      exact ⟨totals_new weight name, rfl⟩

/-- **C30** The same name gives the same group at all later times. -/
theorem getGrp_same (weight : W → Int) (n : Nat) (sc sc1 sc2 : Scores W) (hr : Reach weight (init W n) sc) (name : List Nat)
    (i : Nat) (h1 : getGrp sc name = some (sc1, i)) (hr2 : Reach weight sc1 sc2) : getGrp sc2 name = some (sc2, i) := by
  have ok := hr.ok (init_ok n)
  obtain ⟨sc', j, g, k1, k2, k3, k4, _⟩ := getGrp_spec ok name
  rw [h1] at k1; cases k1
  obtain ⟨g', e1, e2⟩ := hr2.names k2 i g k3
  have := getGrp_found (hr2.ok k2).nodup e1
  rw [e2, k4] at this
  exact this

/-- **C30** Different names give different groups. -/
theorem getGrp_different (weight : W → Int) (n : Nat) (sc sc1 sc2 sc3 : Scores W) (hr : Reach weight (init W n) sc)
    (name name' : List Nat) (i j : Nat) (h1 : getGrp sc name = some (sc1, i)) (hr2 : Reach weight sc1 sc2)
    (h2 : getGrp sc2 name' = some (sc3, j)) (hne : name ≠ name') : i ≠ j := by
  have ok := hr.ok (init_ok n)
  obtain ⟨s, x, g, k1, k2, k3, k4, _⟩ := getGrp_spec ok name
  rw [h1] at k1; cases k1
  obtain ⟨g', e1, e2⟩ := hr2.names k2 i g k3
  have ok2 := hr2.ok k2
  obtain ⟨s, x, gj, l1, l2, l3, l4, l5⟩ := getGrp_spec ok2 name'
  rw [h2] at l1; cases l1
  rintro rfl
  have : sc3.grps[i]? = some g' := by
    rcases l5 with ⟨_, rfl⟩ | ⟨_, e, _⟩
    · exact e1
    · rw [e, List.getElem?_append_left (List.getElem?_eq_some_iff.1 e1).1]
      exact e1
  rw [this] at l3
  cases l3
  exact hne (by rw [← k4, ← e2, l4])

/-- **C30** Scoring a path into a group one was given succeeds and leaves all other groups as they are. -/
theorem addPath_total (weight : W → Int) (n : Nat) (sc : Scores W) (hr : Reach weight (init W n) sc) (i : Nat) (g : Grp W)
    (hi : sc.grps[i]? = some g) (path : List (Entry W)) (keep : Bool) :
    ∃ sc' g', addPath weight sc path i keep = some sc' ∧ sc'.grps[i]? = some g' ∧ g'.name = g.name ∧
      sc'.grps.length = sc.grps.length ∧ (∀ j, j ≠ i → sc'.grps[j]? = sc.grps[j]?) ∧ g'.paths.length < g'.maxPath := by
  obtain ⟨g', h1, h2, h3, _⟩ := addPath_spec weight (hr.ok (init_ok n)) path i g hi keep
  have hg' : (sc.grps.set i g')[i]? = some g' := by
    rw [List.getElem?_set_self (List.getElem?_eq_some_iff.1 hi).1]
  refine ⟨_, g', h1, hg', h3, by simp, ?_, (h2.grps g' (List.mem_of_getElem? hg')).2⟩
  intro j hj
  exact List.getElem?_set_ne (fun h => hj h.symm)

/-- Two speakers: the second asking for the first name finds the first group. -/
example : ((getGrp (init Nat 0) [1]).bind fun p => (getGrp p.1 [2]).bind fun q => (getGrp q.1 [1]).map fun r =>
    (p.2, q.2, r.2, r.1.grps.length)) = some (0, 1, 0, 2) := by decide

/-! ## C24: totals -/

/-- **C24** Scoring any list of utterances succeeds; there is exactly one group for each speaker that occurs, and its counts
and sums of weights are those of the entries of that speaker's paths. -/
theorem scoreAll_totals (weight : W → Int) (keep : Bool) (n : Nat) (us : List (List Nat × List (Entry W))) :
    ∃ sc, scoreAll weight keep (init W n) us = some sc ∧ (sc.grps.map (·.name)).Nodup ∧
      (∀ name, name ∈ sc.grps.map (·.name) ↔ ∃ path, (name, path) ∈ us) ∧
      (∀ g ∈ sc.grps, Totals weight g (pathsOf g.name us)) ∧
      (keep = true → ∀ g ∈ sc.grps, g.paths = pathsOf g.name us) := by
  obtain ⟨sc, h1, h2⟩ := scoreAll_spec weight keep us (init W n) [] (inv_init weight keep n)
  rw [List.nil_append] at h2
  refine ⟨sc, h1, h2.ok.nodup, ?_, h2.totals, ?_⟩
  · intro name
    rw [h2.names, List.mem_map]
    constructor
    · rintro ⟨⟨a, p⟩, hu, rfl⟩; exact ⟨p, hu⟩
    · rintro ⟨p, hu⟩; exact ⟨_, hu, rfl⟩
  · intro hk g hg
    have := h2.paths g hg
    rwa [hk, if_pos rfl] at this

theorem balance_ref (l : List (Entry W)) :
    l.countP isCorr + l.countP isSub + l.countP isDel + l.countP (fun e => hasRef e && hasHyp e && !isCorr e && !isSub e)
      = l.countP hasRef := by
  induction l with
  | nil => rfl
  | cons e l ih =>
    simp only [List.countP_cons]
    rw [← ih]
    cases e with
    | ins b => simp [isCorr, isSub, isDel, hasRef, hasHyp, Entry.ref, Entry.hyp]
    | del a => simp [isCorr, isSub, isDel, hasRef, hasHyp, Entry.ref, Entry.hyp]; omega
    | pair ev a b => cases ev <;> simp [isCorr, isSub, isDel, hasRef, hasHyp, Entry.ref, Entry.hyp] <;> omega

theorem balance_hyp (l : List (Entry W)) :
    l.countP isCorr + l.countP isSub + l.countP isIns + l.countP (fun e => hasRef e && hasHyp e && !isCorr e && !isSub e)
      = l.countP hasHyp := by
  induction l with
  | nil => rfl
  | cons e l ih =>
    simp only [List.countP_cons]
    rw [← ih]
    cases e with
    | ins b => simp [isCorr, isSub, isIns, hasRef, hasHyp, Entry.ref, Entry.hyp]; omega
    | del a => simp [isCorr, isSub, isIns, hasRef, hasHyp, Entry.ref, Entry.hyp]
    | pair ev a b => cases ev <;> simp [isCorr, isSub, isIns, hasRef, hasHyp, Entry.ref, Entry.hyp] <;> omega

/-- **C24** For every speaker: correct + substituted + deleted is the number of entries with a reference word, correct +
substituted + inserted the number of entries with a hypothesis word, when all entries are of these four kinds; and the number
of wrong utterances is the number of utterances that have a substitution, insertion or deletion. -/
theorem scoreAll_balance (weight : W → Int) (keep : Bool) (n : Nat) (us : List (List Nat × List (Entry W)))
    (hus : ∀ u ∈ us, ∀ e ∈ u.2, isCorr e || isSub e || isIns e || isDel e) (sc : Scores W)
    (hsc : scoreAll weight keep (init W n) us = some sc) (g : Grp W) (hg : g ∈ sc.grps) :
    g.corr + g.sub + g.del = (pathsOf g.name us).flatten.countP hasRef ∧
    g.corr + g.sub + g.ins = (pathsOf g.name us).flatten.countP hasHyp ∧
    g.nsent = (pathsOf g.name us).length ∧
    g.serr = (pathsOf g.name us).countP (fun path => path.any fun e => isSub e || isIns e || isDel e) := by
  obtain ⟨sc', h1, _, _, h4, _⟩ := scoreAll_totals weight keep n us
  rw [hsc] at h1; cases h1
  have ht := h4 g hg
  have h0 : (pathsOf g.name us).flatten.countP (fun e => hasRef e && hasHyp e && !isCorr e && !isSub e) = 0 := by
    rw [List.countP_eq_zero]
    intro e he
    obtain ⟨p, hp, hep⟩ := List.mem_flatten.1 he
    obtain ⟨u, hu, rfl⟩ := List.mem_map.1 hp
    have := hus u (List.mem_filter.1 hu).1 e hep
    cases e with
    | ins b => simp [hasRef, Entry.ref]
    | del a => simp [hasHyp, Entry.hyp]
    | pair ev a b => cases ev <;> simp_all [isCorr, isSub, isIns, isDel]
  have hr := balance_ref (pathsOf g.name us).flatten
  have hh := balance_hyp (pathsOf g.name us).flatten
  rw [h0] at hr hh
  refine ⟨?_, ?_, ht.nsent, ht.serr⟩
  · rw [ht.corr, ht.sub, ht.del]; omega
  · rw [ht.corr, ht.sub, ht.ins]; omega

/-- **C24** The totals of a speaker do not depend on the order in which the utterances are scored. -/
theorem scoreAll_order (weight : W → Int) (keep : Bool) (n : Nat) (us vs : List (List Nat × List (Entry W))) (hp : us.Perm vs)
    (sc sc' : Scores W) (h1 : scoreAll weight keep (init W n) us = some sc)
    (h2 : scoreAll weight keep (init W n) vs = some sc') (g : Grp W) (hg : g ∈ sc.grps) :
    ∃ g' ∈ sc'.grps, g'.name = g.name ∧ g'.corr = g.corr ∧ g'.sub = g.sub ∧ g'.ins = g.ins ∧ g'.del = g.del ∧
      g'.nsent = g.nsent ∧ g'.serr = g.serr ∧ g'.wRef = g.wRef ∧ g'.wCorr = g.wCorr ∧ g'.wSub = g.wSub ∧ g'.wIns = g.wIns ∧
      g'.wDel = g.wDel := by
  obtain ⟨s, e1, _, e3, e4, _⟩ := scoreAll_totals weight keep n us
  rw [h1] at e1; cases e1
  obtain ⟨s, f1, _, f3, f4, _⟩ := scoreAll_totals weight keep n vs
  rw [h2] at f1; cases f1
  obtain ⟨p, hin⟩ := (e3 g.name).1 (List.mem_map.2 ⟨g, hg, rfl⟩)
  obtain ⟨g', hg', hn⟩ := List.mem_map.1 ((f3 g.name).2 ⟨p, hp.mem_iff.1 hin⟩)
  have t := e4 g hg
  have t' := f4 g' hg'
  rw [hn] at t'
  have hps : (pathsOf g.name vs).Perm (pathsOf g.name us) := ((hp.symm.filter _).map _)
  have hfl : (pathsOf g.name vs).flatten.Perm (pathsOf g.name us).flatten := hps.flatten
  refine ⟨g', hg', hn, ?_, ?_, ?_, ?_, ?_, ?_, ?_, ?_, ?_, ?_, ?_⟩
  · rw [t.corr, t'.corr, hfl.countP_eq]
  · rw [t.sub, t'.sub, hfl.countP_eq]
  · rw [t.ins, t'.ins, hfl.countP_eq]
  · rw [t.del, t'.del, hfl.countP_eq]
  · rw [t.nsent, t'.nsent, hps.length_eq]
  · rw [t.serr, t'.serr, hps.countP_eq]
  · rw [t.wRef, t'.wRef, refWeight_perm weight _ hfl]
  · rw [t.wCorr, t'.wCorr, hypWeight_perm weight _ hfl]
  · rw [t.wSub, t'.wSub, refWeight_perm weight _ hfl, hypWeight_perm weight _ hfl]
  · rw [t.wIns, t'.wIns, hypWeight_perm weight _ hfl]
  · rw [t.wDel, t'.wDel, refWeight_perm weight _ hfl]

/-- Two utterances of speaker 1 and one of speaker 2. -/
example : (scoreAll (fun w : Nat => (w : Int)) false (init Nat 0)
    [([1], [.pair .corr 5 5, .ins 7]), ([2], [.del 3]), ([1], [.pair .sub 2 4])]).map
      (fun sc => sc.grps.map fun g => (g.name, [g.corr, g.sub, g.ins, g.del, g.nsent, g.serr], g.wRef)) =
    some [([1], [1, 1, 1, 0, 2, 2], 7), ([2], [0, 0, 0, 1, 1, 1], 3)] := by decide

/-! ## C28: sorting by time -/

/-- **C28** Sorting terminates; correct and substituted entries stay where they are; each run of insertions and deletions is
permuted within itself and ends up in the order of the start times. -/
theorem sortPath_runs (t1 : W → Int) (l : List (Entry W)) : ∃ s, sortPath t1 (l.length + 1) l = some s ∧
    s.length = l.length ∧
    (∀ (i : Nat) (ev : Ev2) (a b : W), l[i]? = some (.pair ev a b) ↔ s[i]? = some (.pair ev a b)) ∧
    (∀ i, (i = l.length ∨ ∃ ev a b, l[i]? = some (.pair ev a b)) → (s.take i).Perm (l.take i)) ∧
    RunsInOrder t1 s := by
  obtain ⟨s, h1, h2⟩ := sortPath_spec t1 (l.length + 1) l (Nat.lt_succ_self _)
  have hlen : s.length = l.length := by
    have := congrArg List.length h2.fixed
    simpa [fixedPart] using this
  refine ⟨s, h1, hlen, ?_, ?_, h2.sorted.inOrder⟩
  · intro i ev a b
    have hf := congrArg (fun x => x[i]?) h2.fixed
    simp only [fixedPart, List.getElem?_map] at hf
    constructor
    · intro h
      rw [h] at hf
      cases hs : s[i]? with
      | none => rw [hs] at hf; cases hf
      | some e =>
        rw [hs] at hf
        cases e <;> simp_all [isIndel]
    · intro h
      rw [h] at hf
      cases hs : l[i]? with
      | none => rw [hs] at hf; cases hf
      | some e =>
        rw [hs] at hf
        cases e <;> simp_all [isIndel]
  · intro i hi
    refine h2.within i ?_
    intro e he
    rcases hi with rfl | ⟨ev, a, b, h⟩
    · simp at he
    · rw [h] at he; cases he; rfl

/-- **C28** The words of either side keep their order if their start times do not decrease along the path; insertions and
deletions with equal start times always keep their order. -/
theorem sortPath_keeps_order (t1 : W → Int) (l s : List (Entry W)) (hs : sortPath t1 (l.length + 1) l = some s) :
    ((l.filterMap Entry.ref).Pairwise (fun a b => t1 a ≤ t1 b) → s.filterMap Entry.ref = l.filterMap Entry.ref) ∧
    ((l.filterMap Entry.hyp).Pairwise (fun a b => t1 a ≤ t1 b) → s.filterMap Entry.hyp = l.filterMap Entry.hyp) ∧
    (∀ t : Int, s.filter (fun e => startTime t1 e == some t) = l.filter (fun e => startTime t1 e == some t)) := by
  obtain ⟨s', h1, h2⟩ := sortPath_spec t1 (l.length + 1) l (Nat.lt_succ_self _)
  rw [hs] at h1; cases h1
  refine ⟨h2.order W Entry.ref t1 (agrees_ref t1), h2.order W Entry.hyp t1 (agrees_hyp t1), ?_⟩
  intro t
  have := h2.order (Entry W) (fun e => if startTime t1 e == some t then some e else none) (fun _ => t) (by
    intro e w hi hf
    simp only at hf
    split at hf
    · rename_i hc
      rw [startTime_eq, hi] at hc
      simpa using hc
    · cases hf) (by
    rw [List.pairwise_iff_getElem]
    intros
    exact Int.le_refl _)
  have hfm : ∀ l : List (Entry W), l.filterMap (fun e => if startTime t1 e == some t then some e else none) =
      l.filter (fun e => startTime t1 e == some t) := by
    intro l
    exact congrFun (List.filterMap_eq_filter (p := fun e => startTime t1 e == some t) ) l
  rw [hfm, hfm] at this
  exact this

/-- A run with a deletion that starts after the following insertions. -/
example : sortPath (fun w : Nat => (w : Int)) 6 [.del 9, .ins 4, .ins 6, .pair .corr 10 10, .del 1] =
    some [.ins 4, .ins 6, .del 9, .pair .corr 10 10, .del 1] := by
  simp [sortPath, passes, pass, isIndel, key, List.dropWhile, List.takeWhile]

end Verif.Score
