import Verif.Refs.Lines
/-!
# C46, C76, C77: references and speakers of utterances
-/
set_option autoImplicit false
namespace Verif.Refs
open Verif.Text

/-- The contract of `qsort` with `TEXT_strcmp`: some sorted rearrangement. -/
def Sorts (e : Enc) (sort : List (List Nat) → List (List Nat)) : Prop :=
  ∀ l, (∀ x ∈ l, Valid e x) → (sort l).Perm l ∧ SortedBy e (sort l)

theorem sortedBy_iff (e : Enc) (l : List (List Nat)) :
    SortedBy e l ↔ l.Pairwise (fun x y => ∃ r, strcmp e x y = some r ∧ r ≤ 0) := by
  rw [List.pairwise_iff_getElem]
  constructor
  · intro h i j hi hj hij
    exact h i j _ _ hij (List.getElem?_eq_getElem hi) (List.getElem?_eq_getElem hj)
  · intro h i j x y hij hx hy
    obtain ⟨hi, rfl⟩ := List.getElem?_eq_some_iff.mp hx
    obtain ⟨hj, rfl⟩ := List.getElem?_eq_some_iff.mp hy
    exact h i j hi hj hij

theorem insert_exists (e : Enc) (x : List Nat) (hx : Valid e x) : ∀ l : List (List Nat), (∀ y ∈ l, Valid e y) → SortedBy e l →
    ∃ m : List (List Nat), m.Perm (x :: l) ∧ SortedBy e m
  | [], _, _ => ⟨[x], List.Perm.refl _, by rw [sortedBy_iff]; simp⟩
  | y :: l, hv, hs => by
    have hy := hv y (by simp)
    obtain ⟨r, hr⟩ := strcmp_defined e x y hx hy
    rw [sortedBy_iff, List.pairwise_cons] at hs
    by_cases h0 : r ≤ 0
    · refine ⟨x :: y :: l, List.Perm.refl _, ?_⟩
      rw [sortedBy_iff, List.pairwise_cons, List.pairwise_cons]
      refine ⟨?_, hs⟩
      intro z hz
      rcases List.mem_cons.mp hz with rfl | hz
      · exact ⟨r, hr, h0⟩
      · obtain ⟨r2, h2, h3⟩ := hs.1 z hz
        exact strcmp_trans e x y z hx hy (hv z (by simp [hz])) r r2 hr h2 h0 h3
    · have hyx := strcmp_antisymm e x y hx hy r hr
      obtain ⟨m, hm, hms⟩ := insert_exists e x hx l (fun z hz => hv z (by simp [hz])) ((sortedBy_iff e l).mpr hs.2)
      refine ⟨y :: m, (hm.cons y).trans (List.Perm.swap x y l), ?_⟩
      rw [sortedBy_iff, List.pairwise_cons]
      refine ⟨?_, (sortedBy_iff e m).mp hms⟩
      intro z hz
      rcases List.mem_cons.mp (hm.mem_iff.mp hz) with rfl | hz
      · exact ⟨-r, hyx, by omega⟩
      · exact hs.1 z hz

theorem sorted_exists (e : Enc) : ∀ l : List (List Nat), (∀ x ∈ l, Valid e x) → ∃ m : List (List Nat), m.Perm l ∧ SortedBy e m
  | [], _ => ⟨[], List.Perm.refl _, by rw [sortedBy_iff]; simp⟩
  | x :: l, hv => by
    obtain ⟨m, h1, h2⟩ := sorted_exists e l (fun y hy => hv y (by simp [hy]))
    obtain ⟨m', h3, h4⟩ := insert_exists e x (hv x (by simp)) m (fun y hy => hv y (by simp [h1.mem_iff.mp hy])) h2
    exact ⟨m', h3.trans (h1.cons x), h4⟩

/-- The contract can be met. -/
example (e : Enc) : ∃ sort, Sorts e sort := by
  refine ⟨fun l => Classical.epsilon (fun m : List (List Nat) => m.Perm l ∧ SortedBy e m), ?_⟩
  intro l hl
  exact Classical.epsilon_spec (p := fun m : List (List Nat) => m.Perm l ∧ SortedBy e m) (sorted_exists e l hl)

/-- The identifiers of the lines consist of complete characters, before and after case conversion. -/
def IdsValid (e : Enc) (fold : List Nat → List Nat) (ls : List (List Nat)) : Prop :=
  ∀ l ∈ ls, ∀ id t, (removeId (fold l) = .ok (id, t) → Valid e id) ∧ (removeId l = .ok (id, t) → Valid e (fold id))

example : IdsValid .ascii id [[120, 40, 97, 41, 10]] := by
  have key : removeId [120, 40, 97, 41, 10] = .ok ([40, 97, 41], [120]) := by decide
  have hval : Valid .ascii [40, 97, 41] := ⟨[[40], [97], [41]], rfl, by
    intro c hc
    simp only [List.mem_cons, List.not_mem_nil, or_false] at hc
    rcases hc with rfl | rfl | rfl <;> exact ⟨_, _, rfl, rfl, by decide⟩⟩
  intro l hl i t
  simp only [List.mem_singleton] at hl
  subst hl
  simp only [id_eq]
  rw [key]
  constructor <;> (intro h; injection h with h; injection h with h1 h2; subst h1; exact hval)

/-- **C46** (loading) Loading succeeds exactly if the identifiers of the hypotheses differ, each has a reference, and further references
for the same identifier are beginnings of the first one.  Then each hypothesis finds the first reference with its identifier. -/
theorem load_iff (e : Enc) (sort : List (List Nat) → List (List Nat)) (hsort : Sorts e sort) (hids : List (List Nat))
    (refs : List (List Nat × List Nat)) (hv : ∀ x ∈ hids, Valid e x) (hr : ∀ r ∈ refs, Valid e r.1) :
    ((∃ out, loadRecs e sort hids refs = .ok out) ↔
      hids.Nodup ∧ (∀ h ∈ hids, ∃ t, (h, t) ∈ refs) ∧ ∀ h ∈ hids, ∀ t t', firstText refs h = some t → (h, t') ∈ refs → t' <+: t) ∧
    (∀ ids rs, loadRecs e sort hids refs = .ok (ids, rs) →
      ∀ h ∈ hids, ∃ i t, inTextList e ids h = some (some i) ∧ rs[i]? = some (some t) ∧ firstText refs h = some t) := by
  obtain ⟨h1, h2⟩ := hsort hids hv
  obtain ⟨_, a, b⟩ := loadRecs_spec e sort hids refs h1 h2 hv hr
  exact ⟨a, fun ids rs h => (b ids rs h).2⟩

/-- **C46** If scoring of two transcript files gets past loading, every utterance read is aligned, in order, with the text of a
reference line that has the identical identifier. -/
theorem own_reference (e : Enc) (sort : List (List Nat) → List (List Nat)) (hsort : Sorts e sort) (t : IdType)
    (fold : List Nat → List Nat) (hyp ref : List (List Nat)) (hv : IdsValid e fold hyp) (hv' : IdsValid e fold ref) (js : List Job)
    (h : alignTrans e sort t fold hyp ref = .ok js) :
    js.length = (deliver hyp).length ∧ ∀ (k : Nat) (l : List Nat) (j : Job), (deliver hyp)[k]? = some l → js[k]? = some j →
      (∃ id, removeId l = .ok (id, j.hyp) ∧ j.id = fold id) ∧ ∃ rl ∈ deliver ref, removeId (fold rl) = .ok (j.id, j.ref) := by
  have hmem : ∀ (ls : List (List Nat)) (x : List Nat), x ∈ deliver ls → x ∈ ls := fun ls x hx =>
    (List.mem_filter.mp ((deliver_sub ls).subset hx)).1
  unfold alignTrans at h
  obtain ⟨⟨ids, refs⟩, h1, h2⟩ := bind_ok h
  unfold loadRefs at h1
  obtain ⟨hs, a1, h1⟩ := bind_ok h1
  obtain ⟨rs, a2, h1⟩ := bind_ok h1
  rw [each_ok] at a1 a2
  have hsv : ∀ x ∈ hs.map (·.1), Valid e x := by
    intro x hx
    rw [List.mem_map] at hx
    obtain ⟨p, hp, rfl⟩ := hx
    have : Res.ok p ∈ (deliver hyp).map (fun l => removeId (fold l)) := by rw [a1]; exact List.mem_map.mpr ⟨p, hp, rfl⟩
    obtain ⟨l, hl, e1⟩ := List.mem_map.mp this
    exact (hv l (hmem _ _ hl) p.1 p.2).1 e1
  have hrmem : ∀ p ∈ rs, ∃ l ∈ deliver ref, removeId (fold l) = .ok p := by
    intro p hp
    have : Res.ok p ∈ (deliver ref).map (fun l => removeId (fold l)) := by rw [a2]; exact List.mem_map.mpr ⟨p, hp, rfl⟩
    exact List.mem_map.mp this
  have hrv : ∀ r ∈ rs, Valid e r.1 := by
    intro p hp
    obtain ⟨l, hl, e1⟩ := hrmem p hp
    exact (hv' l (hmem _ _ hl) p.1 p.2).1 e1
  obtain ⟨p1, p2⟩ := hsort _ hsv
  obtain ⟨⟨st, s1, s2, s3⟩, _, b⟩ := loadRecs_spec e sort _ rs p1 p2 hsv hrv
  have hid := (b ids refs h1).1
  rw [s3] at h1
  have hrefs : refs = st.refset := by
    by_cases hc : st.num ≠ (sort (hs.map (·.1))).length ∨ st.failure = true
    · rw [if_pos hc] at h1; cases h1
    · rw [if_neg hc] at h1
      injection h1 with h1
      injection h1 with _ h1
      exact h1.symm
  obtain ⟨j1, j2⟩ := jobs_spec e t fold ids refs (deliver hyp) [] js h2
  refine ⟨j1, ?_⟩
  intro k l j hl hj
  obtain ⟨id, i, q1, q2, q3, q4, _⟩ := j2 k l j hl hj
  refine ⟨⟨id, q1, q2⟩, ?_⟩
  have hjv : Valid e j.id := by rw [q2]; exact (hv l (hmem _ _ (List.mem_of_getElem? hl)) id j.hyp).2 q1
  subst hid hrefs
  have hsv' : ∀ x ∈ sort (hs.map (·.1)), Valid e x := fun x hx => hsv x (p1.mem_iff.mp hx)
  rcases lookup_cases e _ hsv' p2 j.id hjv with ⟨c, _⟩ | ⟨i', c, c'⟩
  · rw [c] at q3; cases q3
  · rw [c] at q3
    injection q3 with q3
    injection q3 with q3
    subst q3
    rw [s2.here i' j.id c' c] at q4
    injection q4 with q4
    exact hrmem _ (firstText_mem q4)

/-- **C46** (partial: see `last_line_dropped`) The same for whole files with a newline at the end of the hypothesis file: every line that
is neither a comment nor empty is aligned, in order, its text with the text of a line of the reference file with the identical
identifier. -/
theorem every_utterance_partial (e : Enc) (sort : List (List Nat) → List (List Nat)) (hsort : Sorts e sort) (t : IdType)
    (fold : List Nat → List Nat) (hypFile refFile : List Nat) (hyp ref : List (List Nat)) (h1 : Lines.IsLines hypFile hyp)
    (_h2 : Lines.IsLines refFile ref) (hn : hypFile = [] ∨ hypFile.getLast? = some 10)
    (hv : IdsValid e fold hyp) (hv' : IdsValid e fold ref) (js : List Job) (h : alignTrans e sort t fold hyp ref = .ok js) :
    js.length = (hyp.filter (fun l => decide (¬ NoUtterance l))).length ∧
    ∀ (k : Nat) (l : List Nat) (j : Job), (hyp.filter (fun l => decide (¬ NoUtterance l)))[k]? = some l → js[k]? = some j →
      ∀ text name after, Utterance l text name after → j.hyp = text ∧ j.id = fold (40 :: (name ++ [41])) ∧
        ∃ rl ∈ ref, ¬ NoUtterance rl ∧
          ∀ rtext rname rafter, Utterance (fold rl) rtext rname rafter → j.id = 40 :: (rname ++ [41]) ∧ j.ref = rtext := by
  have hd := deliver_all hyp (isLines_newline h1 hn)
  obtain ⟨a, b⟩ := own_reference e sort hsort t fold hyp ref hv hv' js h
  rw [hd] at a b
  refine ⟨a, ?_⟩
  intro k l j hl hj text name after hu
  obtain ⟨⟨id, c1, c2⟩, rl, d1, d2⟩ := b k l j hl hj
  rw [removeId_utterance hu] at c1
  injection c1 with c1
  injection c1 with c3 c4
  refine ⟨c4.symm, by rw [c2, c3], rl, ?_⟩
  have := (deliver_sub ref).subset d1
  rw [List.mem_filter] at this
  refine ⟨this.1, by simpa using this.2, ?_⟩
  intro rtext rname rafter hru
  rw [removeId_utterance hru] at d2
  injection d2 with d2
  injection d2 with d3 d4
  exact ⟨d3.symm, d4.symm⟩

/-- **C46** When the run gets past loading, for files of utterances: exactly if the identifiers in the hypothesis file differ, each
occurs in the reference file, and repeated references are beginnings of the first one.  `f` is the case conversion of a byte. -/
theorem run_iff (e : Enc) (sort : List (List Nat) → List (List Nat)) (hsort : Sorts e sort) (t : IdType) (f : Nat → Nat)
    (hl : ∀ b, f b = 40 ↔ b = 40) (hr : ∀ b, f b = 41 ↔ b = 41) (hyp ref : List (List Nat))
    (hv : IdsValid e (List.map f) hyp) (hv' : IdsValid e (List.map f) ref)
    (us vs : List (List Nat × List Nat × List Nat)) (hu : ∀ u ∈ us, Utterance (u.1 ++ 40 :: (u.2.1 ++ 41 :: u.2.2)) u.1 u.2.1 u.2.2)
    (hw : ∀ u ∈ vs, Utterance (u.1 ++ 40 :: (u.2.1 ++ 41 :: u.2.2)) u.1 u.2.1 u.2.2)
    (hd : deliver hyp = us.map (fun u => u.1 ++ 40 :: (u.2.1 ++ 41 :: u.2.2)))
    (hd' : deliver ref = vs.map (fun u => u.1 ++ 40 :: (u.2.1 ++ 41 :: u.2.2))) :
    (∃ js, alignTrans e sort t (List.map f) hyp ref = .ok js) ↔
      (us.map (fun u => u.2.1.map f)).Nodup ∧ (∀ u ∈ us, ∃ v ∈ vs, v.2.1.map f = u.2.1.map f) ∧
      ∀ u ∈ us, ∀ s s', firstText (vs.map (fun v => (v.2.1.map f, v.1.map f))) (u.2.1.map f) = some s →
        (u.2.1.map f, s') ∈ vs.map (fun v => (v.2.1.map f, v.1.map f)) → s' <+: s := by
  have hmem : ∀ (ls : List (List Nat)) (x : List Nat), x ∈ deliver ls → x ∈ ls := fun ls x hx =>
    (List.mem_filter.mp ((deliver_sub ls).subset hx)).1
  let wrap : List Nat → List Nat := fun n => 40 :: (n ++ [41])
  have winj : ∀ a b, wrap a = wrap b → a = b := by
    intro a b h
    exact List.append_cancel_right (List.cons.inj h).2
  have f40 : f 40 = 40 := (hl 40).mpr rfl
  have f41 : f 41 = 41 := (hr 41).mpr rfl
  have hrec : ∀ (ws : List (List Nat × List Nat × List Nat)), (∀ u ∈ ws, Utterance (u.1 ++ 40 :: (u.2.1 ++ 41 :: u.2.2)) u.1 u.2.1 u.2.2) →
      (ws.map (fun u => u.1 ++ 40 :: (u.2.1 ++ 41 :: u.2.2))).map (fun l => removeId (l.map f)) =
        (ws.map (fun u => (wrap (u.2.1.map f), u.1.map f))).map Res.ok := by
    intro ws hws
    rw [List.map_map, List.map_map]
    apply List.map_congr_left
    intro u hu
    simp only [Function.comp]
    rw [removeId_map f hl hr, removeId_utterance (hws u hu)]
    simp [wrap, f40, f41]
  have e1 : Res.each (fun l => removeId (l.map f)) (deliver hyp) = .ok (us.map (fun u => (wrap (u.2.1.map f), u.1.map f))) := by
    rw [each_ok, hd]; exact hrec us hu
  have e2 : Res.each (fun l => removeId (l.map f)) (deliver ref) = .ok (vs.map (fun u => (wrap (u.2.1.map f), u.1.map f))) := by
    rw [each_ok, hd']; exact hrec vs hw
  have hload : loadRefs e sort (List.map f) hyp ref =
      loadRecs e sort ((us.map (fun u => (wrap (u.2.1.map f), u.1.map f))).map (·.1)) (vs.map (fun u => (wrap (u.2.1.map f), u.1.map f))) := by
    unfold loadRefs
    rw [e1, e2]
    rfl
  have hvalid : ∀ (ls : List (List Nat)) (ws : List (List Nat × List Nat × List Nat)), IdsValid e (List.map f) ls →
      (∀ u ∈ ws, Utterance (u.1 ++ 40 :: (u.2.1 ++ 41 :: u.2.2)) u.1 u.2.1 u.2.2) →
      deliver ls = ws.map (fun u => u.1 ++ 40 :: (u.2.1 ++ 41 :: u.2.2)) → ∀ u ∈ ws, Valid e (wrap (u.2.1.map f)) := by
    intro ls ws hvv hww hdd u huu
    have hin : (u.1 ++ 40 :: (u.2.1 ++ 41 :: u.2.2)) ∈ ls := hmem ls _ (by rw [hdd]; exact List.mem_map.mpr ⟨u, huu, rfl⟩)
    have := (hvv _ hin _ _).2 (removeId_utterance (hww u huu))
    simpa [wrap, f40, f41] using this
  have hv1 : ∀ x ∈ (us.map (fun u => (wrap (u.2.1.map f), u.1.map f))).map (·.1), Valid e x := by
    intro x hx
    simp only [List.map_map, List.mem_map, Function.comp] at hx
    obtain ⟨u, huu, rfl⟩ := hx
    exact hvalid hyp us hv hu hd u huu
  have hv2 : ∀ r ∈ vs.map (fun u => (wrap (u.2.1.map f), u.1.map f)), Valid e r.1 := by
    intro x hx
    rw [List.mem_map] at hx
    obtain ⟨u, huu, rfl⟩ := hx
    exact hvalid ref vs hv' hw hd' u huu
  obtain ⟨li, lk⟩ := load_iff e sort hsort _ _ hv1 hv2
  have hft : ∀ (n : List Nat) (ws : List (List Nat × List Nat × List Nat)), firstText (ws.map (fun u => (wrap (u.2.1.map f), u.1.map f))) (wrap n) =
      firstText (ws.map (fun v => (v.2.1.map f, v.1.map f))) n := by
    intro n ws
    unfold firstText
    induction ws with
    | nil => rfl
    | cons w ws ih =>
      simp only [List.map_cons, List.find?_cons]
      by_cases hc : w.2.1.map f = n
      · have : wrap (w.2.1.map f) = wrap n := by rw [hc]
        simp [hc]
      · have : wrap (w.2.1.map f) ≠ wrap n := fun hh => hc (winj _ _ hh)
        simp only [this, hc, decide_false]
        exact ih
  have hok : (∃ js, alignTrans e sort t (List.map f) hyp ref = .ok js) ↔
      ∃ out, loadRecs e sort ((us.map (fun u => (wrap (u.2.1.map f), u.1.map f))).map (·.1))
        (vs.map (fun u => (wrap (u.2.1.map f), u.1.map f))) = .ok out := by
    unfold alignTrans
    rw [hload]
    constructor
    · rintro ⟨js, h⟩
      obtain ⟨out, h1, _⟩ := bind_ok h
      exact ⟨out, h1⟩
    · rintro ⟨⟨ids, refs⟩, h⟩
      rw [h]
      apply jobs_total
      intro l hlm
      rw [hd, List.mem_map] at hlm
      obtain ⟨u, huu, rfl⟩ := hlm
      obtain ⟨i, s, c1, c2, c3⟩ := lk ids refs h (wrap (u.2.1.map f)) (by
        simp only [List.map_map, List.mem_map, Function.comp]
        exact ⟨u, huu, rfl⟩)
      refine ⟨_, _, i, s, removeId_utterance (hu u huu), by simp, ?_, c2⟩
      simpa [wrap, f40, f41] using c1
  rw [hok, li]
  constructor
  · rintro ⟨a, b, c⟩
    refine ⟨?_, ?_, ?_⟩
    · have h' : ((us.map (fun u => u.2.1.map f)).map wrap).Nodup := by
        rw [List.map_map] at a ⊢
        exact a
      rw [List.nodup_iff_pairwise_ne] at h' ⊢
      rw [List.pairwise_map] at h'
      exact h'.imp (fun hne he => hne (by rw [he]))
    · intro u huu
      obtain ⟨s, hs⟩ := b (wrap (u.2.1.map f)) (by simp only [List.map_map, List.mem_map, Function.comp]; exact ⟨u, huu, rfl⟩)
      rw [List.mem_map] at hs
      obtain ⟨v, hv, he⟩ := hs
      injection he with he _
      exact ⟨v, hv, winj _ _ he⟩
    · intro u huu s s' h1 h2
      apply c (wrap (u.2.1.map f)) (by simp only [List.map_map, List.mem_map, Function.comp]; exact ⟨u, huu, rfl⟩) s s'
      · rw [hft]; exact h1
      · rw [List.mem_map] at h2 ⊢
        obtain ⟨v, hv, he⟩ := h2
        injection he with he1 he2
        exact ⟨v, hv, by rw [he1, he2]⟩
  · rintro ⟨a, b, c⟩
    refine ⟨?_, ?_, ?_⟩
    · have h' : ((us.map (fun u => u.2.1.map f)).map wrap).Nodup := by
        rw [List.nodup_iff_pairwise_ne] at a ⊢
        rw [List.pairwise_map]
        exact a.imp (fun hne he => hne (winj _ _ he))
      rw [List.map_map] at h' ⊢
      exact h'
    · intro h hh
      simp only [List.map_map, List.mem_map, Function.comp] at hh
      obtain ⟨u, huu, rfl⟩ := hh
      obtain ⟨v, hv, he⟩ := b u huu
      exact ⟨v.1.map f, List.mem_map.mpr ⟨v, hv, by rw [he]⟩⟩
    · intro h hh s s' h1 h2
      simp only [List.map_map, List.mem_map, Function.comp] at hh
      obtain ⟨u, huu, rfl⟩ := hh
      rw [hft] at h1
      apply c u huu s s' h1
      rw [List.mem_map] at h2 ⊢
      obtain ⟨v, hv, he⟩ := h2
      injection he with he1 he2
      exact ⟨v, hv, by rw [winj _ _ he1, he2]⟩

/-- C46 fails as stated: a last line without a newline at its end is dropped, so its utterance is never aligned and nothing is reported. -/
theorem last_line_dropped : ∃ (hypFile refFile : List Nat) (hyp ref : List (List Nat)), Lines.IsLines hypFile hyp ∧ Lines.IsLines refFile ref ∧
    hyp = [[120, 40, 97, 41]] ∧ alignTrans .ascii id .sp id hyp ref = .ok [] :=
  ⟨[120, 40, 97, 41], [121, 40, 97, 41, 10], _, _, .last (by simp) (by decide), .cons (l := [121, 40, 97, 41]) (by decide) .nil, rfl, by decide⟩

/-- Two utterances `x (a)`, `z (b)` against references in the other order. -/
example : alignTrans .ascii id .sp id [[120, 40, 97, 41, 10], [59, 59, 10], [122, 40, 98, 41, 10]] [[118, 40, 98, 41, 10], [121, 40, 97, 41, 10]] =
    .ok [⟨[40, 97, 41], [40, 97, 41], [121], [120]⟩, ⟨[40, 98, 41], [40, 98, 41], [118], [122]⟩] := by decide
/-- A missing reference stops the program. -/
example : alignTrans .ascii id .sp id [[120, 40, 97, 41, 10]] [[118, 40, 98, 41, 10]] = .exit := by decide

/-- **C77** (partial: see `missing_unnamed`) The identifiers named as missing are hypothesis identifiers whose reference was not found. -/
theorem missing_are_missing_partial (e : Enc) (sort : List (List Nat) → List (List Nat)) (hsort : Sorts e sort) (hids : List (List Nat))
    (refs : List (List Nat × List Nat)) (hv : ∀ x ∈ hids, Valid e x) (hr : ∀ r ∈ refs, Valid e r.1) (hnd : hids.Nodup) (st : St)
    (h : addRefs e (sort hids) ⟨List.replicate (sort hids).length none, 0, false⟩ refs = .ok st) :
    ∀ x ∈ missing (sort hids) st, x ∈ hids ∧ ∀ t, (x, t) ∉ refs := by
  obtain ⟨p1, p2⟩ := hsort hids hv
  obtain ⟨⟨st', s1, s2, _⟩, _, _⟩ := loadRecs_spec e sort hids refs p1 p2 hv hr
  rw [s1] at h
  injection h with h
  subst h
  intro x hx
  unfold missing at hx
  rw [List.mem_filterMap] at hx
  obtain ⟨i, _, hi⟩ := hx
  by_cases hc : st'.refset[i]? = some none
  · rw [if_pos hc] at hi
    have hm : x ∈ hids := p1.mem_iff.mp (List.mem_of_getElem? hi)
    refine ⟨hm, ?_⟩
    rcases lookup_cases e (sort hids) (fun y hy => hv y (p1.mem_iff.mp hy)) p2 x (hv x hm) with ⟨_, hno⟩ | ⟨j, hj, hj'⟩
    · exact absurd (List.mem_of_getElem? hi) hno
    · have hij : j = i := by
        have a := (List.getElem?_eq_some_iff.mp hj').1
        have b := (List.getElem?_eq_some_iff.mp hi).1
        rw [List.getElem?_eq_getElem a] at hj'
        rw [List.getElem?_eq_getElem b] at hi
        injection hj' with hj'
        injection hi with hi
        exact (List.getElem_inj (p1.nodup_iff.mpr hnd)).mp (hj'.trans hi.symm)
      subst hij
      rw [s2.here j x hi hj] at hc
      injection hc with hc
      exact firstText_none.mp hc
  · rw [if_neg hc] at hi; cases hi

/-- C77 fails as stated: a missing reference need not be named (`(b)` is missing here and the list is empty). -/
theorem missing_unnamed : ∃ st, addRefs .ascii [[40, 97, 41], [40, 98, 41]] ⟨[none, none], 0, false⟩ [([40, 97, 41], [120])] = .ok st ∧
    st.num ≠ 2 ∧ missing [[40, 97, 41], [40, 98, 41]] st = [] :=
  ⟨⟨[some [120], none], 1, false⟩, by decide, by decide, by decide⟩

example : ∃ st, addRefs .ascii [[40, 97, 41], [40, 98, 41]] ⟨[none, none], 0, false⟩ [([40, 98, 41], [120])] = .ok st ∧
    missing [[40, 97, 41], [40, 98, 41]] st = [[40, 97, 41]] := ⟨⟨[none, some [120]], 1, false⟩, by decide, by decide⟩

/-- The speaker an identifier names: up to the first `-`, or else the first `_`. -/
def Speaks (t : IdType) (id n : List Nat) : Prop :=
  match t with
  | .sp => n = id
  | .atis | .wsj => ∃ c rest, id = c :: (n ++ rest) ∧ (n.length = 3 ∨ (n.length < 3 ∧ rest = []))
  | .rm | .spuid | .swb => (∃ c rest, id = c :: (n ++ 45 :: rest) ∧ 45 ∉ c :: n) ∨
      (45 ∉ id ∧ ∃ c rest, id = c :: (n ++ 95 :: rest) ∧ 95 ∉ c :: n)

theorem find_split (x : Nat) : ∀ (p s : List Nat), x ∉ p → (p ++ x :: s).findIdx? (fun b => decide (b = x)) = some p.length
  | [], s, _ => by simp [List.findIdx?_cons]
  | b :: p, s, h => by
    have hb : b ≠ x := fun hb => h (by simp [hb])
    have hp : x ∉ p := fun hx => h (by simp [hx])
    rw [List.cons_append, List.findIdx?_cons]
    simp [hb, find_split x p s hp]

theorem find_absent (x : Nat) (s : List Nat) (h : x ∉ s) : s.findIdx? (fun b => decide (b = x)) = none := by
  rw [List.findIdx?_eq_none_iff]
  intro y hy
  simp only [decide_eq_false_iff_not]
  intro hh
  exact h (hh ▸ hy)

theorem extract_speaks (t : IdType) (id n : List Nat) (h : Speaks t id n) : extractSpeaker t id = .ok n := by
  have three : (∃ c rest, id = c :: (n ++ rest) ∧ (n.length = 3 ∨ (n.length < 3 ∧ rest = []))) →
      (if id = [] then Name.stale else Name.ok (id.tail.take 3)) = .ok n := by
    rintro ⟨c, rest, rfl, hc⟩
    rw [if_neg (by simp)]
    congr 1
    rw [List.tail_cons]
    rcases hc with hc | ⟨hc, rfl⟩
    · rw [← hc, List.take_left]
    · rw [List.append_nil]; exact List.take_of_length_le (by omega)
  have dash : ((∃ c rest, id = c :: (n ++ 45 :: rest) ∧ 45 ∉ c :: n) ∨ (45 ∉ id ∧ ∃ c rest, id = c :: (n ++ 95 :: rest) ∧ 95 ∉ c :: n)) →
      (match id.findIdx? (fun b => decide (b = 45)) with
        | some i => Name.ok (id.tail.take (i - 1))
        | none =>
          match id.findIdx? (fun b => decide (b = 95)) with
          | some i => .ok (id.tail.take (i - 1))
          | none => .failed) = .ok n := by
    rintro (⟨c, rest, rfl, hc⟩ | ⟨hno, c, rest, rfl, hc⟩)
    · have := find_split 45 (c :: n) rest hc
      rw [List.cons_append] at this
      rw [this]
      simp
    · have := find_split 95 (c :: n) rest hc
      rw [List.cons_append] at this
      rw [find_absent 45 _ hno, this]
      simp
  cases t with
  | sp => unfold extractSpeaker; rw [show n = id from h]
  | atis => exact three h
  | wsj => exact three h
  | rm => exact dash h
  | spuid => exact dash h
  | swb => exact dash h

/-- **C76** (partial: see `previous_speaker`) An utterance whose identifier names a speaker is counted for that speaker. -/
theorem own_speaker_partial (e : Enc) (t : IdType) (fold : List Nat → List Nat) (ids : List (List Nat)) (refs : List (Option (List Nat)))
    (prev : List Nat) (ls : List (List Nat)) (js : List Job) (h : jobs e t fold ids refs prev ls = .ok js) :
    ∀ j ∈ js, ∀ n, Speaks t j.id n → j.speaker = n := by
  obtain ⟨h1, h2⟩ := jobs_spec e t fold ids refs ls prev js h
  intro j hj n hn
  obtain ⟨k, hk⟩ := List.getElem?_of_mem hj
  have hl : k < ls.length := by rw [← h1]; exact (List.getElem?_eq_some_iff.mp hk).1
  obtain ⟨id, i, _, _, _, _, hs⟩ := h2 k _ j (List.getElem?_eq_getElem hl) hk
  exact hs n (extract_speaks t j.id n hn)

/-- C76 fails as stated: an identifier without `-` and `_` is reported, and the utterance is then counted for the speaker of the one
before it (`(c)` for speaker `a` here). -/
theorem previous_speaker : alignTrans .ascii id .spuid id [[120, 40, 97, 45, 49, 41, 10], [122, 40, 99, 41, 10]]
      [[121, 40, 97, 45, 49, 41, 10], [118, 40, 99, 41, 10]] =
    .ok [⟨[97], [40, 97, 45, 49, 41], [121], [120]⟩, ⟨[97], [40, 99, 41], [118], [122]⟩] := by decide

example : Speaks .spuid [40, 97, 98, 45, 49, 41] [97, 98] := Or.inl ⟨40, [49, 41], rfl, by decide⟩
example : Speaks .wsj [40, 97, 98, 99, 49, 41] [97, 98, 99] := ⟨40, [49, 41], rfl, Or.inl rfl⟩

end Verif.Refs
