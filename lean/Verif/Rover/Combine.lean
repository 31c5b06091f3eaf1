import Verif.Net.Align
import Verif.Rover.Edit
/-!
# Combining a chain network with a further word sequence
-/
set_option autoImplicit false
namespace Verif.Rover
open Verif.Net
variable {W : Type}

/-- How a word sequence is merged into slots that hold `k` entries each: a word joins a slot, a slot gets a null entry, or
a word gets a new slot of its own filled up with nulls. -/
inductive Merge {α : Type} (null : α) (k : Nat) : List (List α) → List α → List (List α) → Prop where
  | nil : Merge null k [] [] []
  | both {s : List α} {w : α} {ss : List (List α)} {ws : List α} {rs : List (List α)} :
      Merge null k ss ws rs → Merge null k (s :: ss) (w :: ws) ((s ++ [w]) :: rs)
  | left {s : List α} {ss : List (List α)} {ws : List α} {rs : List (List α)} :
      Merge null k ss ws rs → Merge null k (s :: ss) ws ((s ++ [null]) :: rs)
  | right {w : α} {ss : List (List α)} {ws : List α} {rs : List (List α)} :
      Merge null k ss ws rs → Merge null k ss (w :: ws) ((w :: List.replicate k null) :: rs)

/-- The words on bundles. -/
def wordsOf (d : Nat → Option W) (As : List (List Nat)) : List (List (Option W)) := As.map (List.map d)

theorem wordsOf_congr {d d' : Nat → Option W} {As : List (List Nat)} (h : ∀ A ∈ As, ∀ a ∈ A, d' a = d a) :
    wordsOf d' As = wordsOf d As := by
  unfold wordsOf
  apply List.map_congr_left
  intro A hA
  exact List.map_congr_left (h A hA)

/-- Arc number `a` lies in bundle number `i`. -/
def Pos (l : List Nat) (As : List (List Nat)) (a i : Nat) : Prop :=
  ∃ x A, l[a]? = some x ∧ As[i]? = some A ∧ x ∈ A

theorem Lin.bundle {n : Net W} {ps : List (Nat × List Nat)} {i : Nat} {A : List Nat} (h : (ps.map Prod.snd)[i]? = some A) :
    ∃ pre v post, ps = pre ++ (v, A) :: post ∧ pre.length = i := by
  rw [List.getElem?_map] at h
  cases hp : ps[i]? with
  | none => rw [hp] at h; cases h
  | some p =>
    rw [hp] at h
    injection h with h
    obtain ⟨hi, e⟩ := List.getElem?_eq_some_iff.1 hp
    refine ⟨ps.take i, p.1, ps.drop (i + 1), ?_, by rw [List.length_take]; omega⟩
    rw [← h]
    show ps = _ ++ p :: _
    rw [← e, List.getElem_cons_drop, List.take_append_drop]

theorem Lin.unique {n : Net W} {ps : List (Nat × List Nat)} (h : Lin n ps) {i j x : Nat} {A B : List Nat}
    (hA : (ps.map Prod.snd)[i]? = some A) (hB : (ps.map Prod.snd)[j]? = some B) (h1 : x ∈ A) (h2 : x ∈ B) : i = j := by
  have key : ∀ {i : Nat} {A : List Nat}, (ps.map Prod.snd)[i]? = some A → x ∈ A →
      (ps.map Prod.fst)[i]? = some (n.dst x) := by
    intro i A hA h1
    obtain ⟨pre, v, post, e, el⟩ := Lin.bundle (n := n) hA
    subst e
    rw [(h.at.2.2.2.2 x h1).2.1, List.map_append, List.getElem?_append_right (by simp; omega)]
    simp [el]
  have k1 := key hA h1
  have k2 := key hB h2
  have hnd := (List.nodup_cons.1 h.nodup).2
  obtain ⟨i1, e1⟩ := List.getElem?_eq_some_iff.1 k1
  obtain ⟨i2, e2⟩ := List.getElem?_eq_some_iff.1 k2
  exact (List.getElem_inj hnd).1 (e1.trans e2.symm)

theorem pos_pred {n : Net W} {ps : List (Nat × List Nat)} {l : List Nat} (h : Lin n ps) (hn : Numbering n l)
    {a q i : Nat} (hp : Pos l (ps.map Prod.snd) a i) (hq : q ∈ (viewOf n l).preds a) :
    ∃ j, i = j + 1 ∧ Pos l (ps.map Prod.snd) q j := by
  obtain ⟨x, A, hx, hA, hm⟩ := hp
  have hal : a < l.length := (List.getElem?_eq_some_iff.1 hx).1
  rw [preds_eq h.wf hn hal] at hq
  obtain ⟨p, hp, e⟩ := List.mem_map.1 hq
  have hxa : arcAt l a = x := by unfold arcAt; rw [hx]; rfl
  rw [hxa] at hp
  obtain ⟨pre, v, post, e1, e2⟩ := Lin.bundle (n := n) hA
  rcases List.eq_nil_or_concat pre with e3 | ⟨pre', r, e3⟩
  · subst e3; subst e1
    rw [(h.at.2.2.2.2 x hm).1] at hp
    have hp : p ∈ n.inn n.start := hp
    rw [h.start_inn] at hp; cases hp
  · rw [List.concat_eq_append] at e3
    subst e3
    refine ⟨pre'.length, by simp at e2; omega, ?_⟩
    subst e1
    rw [(h.at.2.2.2.2 x hm).1, last_append] at hp
    have hp : p ∈ n.inn r.1 := hp
    have h' : Lin n (pre' ++ (r.1, r.2) :: ((v, A) :: post)) := by simpa using h
    rw [h'.at.2.1] at hp
    refine ⟨p, r.2, ?_, ?_, hp⟩
    · rw [← e]
      apply at_idxOf
      rw [hn.live]
      exact ⟨_, by rw [h'.at.1]; exact hp⟩
    · rw [List.append_assoc, List.map_append, List.getElem?_append_right (by simp)]
      simp

theorem Lin.start_out {n : Net W} {ps : List (Nat × List Nat)} {h : Nat} {As : List (List Nat)} (hl : Lin n ps)
    (he : ps.map Prod.snd = [h] :: As) : n.out n.start = [h] := by
  cases ps with
  | nil => cases he
  | cons p ps =>
    rw [List.map_cons] at he
    injection he with e1 e2
    rw [← e1]
    exact (Lin.at (pre := []) (v := p.1) (A := p.2) hl).1

theorem pos_zero {n : Net W} {ps : List (Nat × List Nat)} {l : List Nat} {h i : Nat} {As : List (List Nat)}
    (hl : Lin n ps) (hn : Numbering n l) (he : ps.map Prod.snd = [h] :: As) (hp : Pos l (ps.map Prod.snd) 0 i) : i = 0 := by
  obtain ⟨x, A, hx, hA, hm⟩ := hp
  rw [first_zero hl.wf hn (hl.start_out he)] at hx
  injection hx with hx
  subst hx
  exact hl.unique hA (B := [h]) (by rw [he]; rfl) hm (by simp)

theorem pos_end {n : Net W} {ps : List (Nat × List Nat)} {l : List Nat} {a : Nat} (hl : Lin n ps) (hn : Numbering n l)
    (ha : a ∈ endIds n l) : Pos l (ps.map Prod.snd) a (ps.length - 1) := by
  unfold endIds at ha
  rw [hl.stop] at ha
  obtain ⟨p, hp, e⟩ := List.mem_map.1 ha
  rcases List.eq_nil_or_concat ps with e2 | ⟨pre', r, e2⟩
  · exact absurd e2 hl.ne
  · rw [List.concat_eq_append] at e2
    have e2 : ps = pre' ++ (r.1, r.2) :: [] := e2
    subst e2
    rw [last_append] at hp
    have hp : p ∈ n.inn r.1 := hp
    rw [hl.at.2.1] at hp
    refine ⟨p, r.2, ?_, ?_, hp⟩
    · rw [← e]
      apply at_idxOf
      rw [hn.live]
      exact ⟨_, by rw [hl.at.1]; exact hp⟩
    · simp

/-- The flags of the nodes of a chain agree. -/
def Even (s : FNet W) : Prop := ∀ v, s.net.inn v ≠ [] → s.fl.flag2 v = s.fl.flag2 s.net.start

theorem even_uniform {s : FNet W} {ps : List (Nat × List Nat)} (h : Lin s.net ps) (he : Even s) : s.fl.Uniform s.net := by
  intro u hu
  rcases (h.wf.reach_iff u).1 hu with e | e
  · rw [e]
  · exact he u e

/-- Bookkeeping carried through the trace back. -/
structure Inv (na : Net W) (As : List (List Nat)) (s : FNet W) (ps : List (Nat × List Nat)) : Prop where
  lin : Lin s.net ps
  eq : ps.map Prod.snd = As
  old : ∀ x, x < na.nArcs → s.net.data x = na.data x
  le : na.nArcs ≤ s.net.nArcs
  even : Even s
  cnt : s.net.nArcs = (As.map List.length).sum

theorem even_of {n' : Net W} {s : FNet W} (hs : n'.start = s.net.start) (h : ∀ v, n'.inn v ≠ [] → s.net.inn v ≠ [])
    (he : Even s) : Even ⟨n', s.fl⟩ := by
  intro v hv
  show s.fl.flag2 v = s.fl.flag2 n'.start
  rw [hs]; exact he v (h v hv)

section
variable {null : W} {k : Nat} {na nb : Net W} {la lb : List Nat} {As : List (List Nat)} {d : Option W}

/-- Adding one arc to a bundle. -/
theorem inv_between {P Q : List (List Nat)} {A : List Nat} {x : Nat} {s : FNet W} {ps : List (Nat × List Nat)} {d : Option W}
    (h : Inv na (P ++ A :: Q) s ps) (hx : x ∈ A) :
    ∃ ps', Inv na (P ++ (A ++ [s.net.nArcs]) :: Q) ⟨s.net.insertBetween (s.net.src x) (s.net.dst x) d, s.fl⟩ ps' := by
  obtain ⟨ps', h1, h2, h3⟩ := edit_between d h.lin h.eq hx
  refine ⟨ps', h1, h2, ?_, ?_, even_of rfl h3 h.even, ?_⟩
  · intro y hy
    show upd _ _ _ y = _
    unfold upd
    rw [if_neg (by have := h.le; omega)]
    exact h.old y hy
  · show _ ≤ _ + 1; have := h.le; omega
  · show _ + 1 = _
    rw [h.cnt]; simp; omega

theorem inv_before {P Q : List (List Nat)} {A : List Nat} {x : Nat} {s : FNet W} {ps : List (Nat × List Nat)} {w : W}
    (null : W) (k : Nat) (h : Inv na (P ++ A :: Q) s ps) (hx : x ∈ A) :
    ∃ s' ps', Inv na (P ++ A :: (s.net.nArcs :: List.range' (s.net.nArcs + 1) k) :: Q) s' ps' ∧
      (∀ c, (((s.net.insertBefore (s.net.dst x) (some w)).out ((s.net.insertBefore (s.net.dst x) (some w)).dst x)).find?
        (fun z => z = s.net.nArcs)) = some c → s' = ⟨addNulls null ((s.net.insertBefore (s.net.dst x) (some w)).src c)
          ((s.net.insertBefore (s.net.dst x) (some w)).dst c) k (s.net.insertBefore (s.net.dst x) (some w)),
            s.fl.grow s.net⟩) ∧
      (∃ c, (((s.net.insertBefore (s.net.dst x) (some w)).out ((s.net.insertBefore (s.net.dst x) (some w)).dst x)).find?
        (fun z => z = s.net.nArcs)) = some c) ∧
      s'.net.data s.net.nArcs = some w ∧ (∀ a ∈ List.range' (s.net.nArcs + 1) k, s'.net.data a = some null) ∧
      ∀ a, a < s.net.nArcs → s'.net.data a = s.net.data a := by
  obtain ⟨ps1, h1, h2, h3, h4⟩ := edit_before (some w) h.lin h.eq hx
  have hfind : (((s.net.insertBefore (s.net.dst x) (some w)).out
      ((s.net.insertBefore (s.net.dst x) (some w)).dst x)).find? (fun z => z = s.net.nArcs)) = some s.net.nArcs := by
    rw [h3]; simp
  have h2' : ps1.map Prod.snd = (P ++ [A]) ++ [s.net.nArcs] :: Q := by rw [h2]; simp
  obtain ⟨ps2, g1, g2, g3, g4, g5, g6⟩ := addNulls_ok null k h1 h2' (x := s.net.nArcs) (by simp)
  have hc : (s.net.insertBefore (s.net.dst x) (some w)).nArcs = s.net.nArcs + 1 := rfl
  rw [hc] at g2 g3 g6
  have hbd : ∀ a, (s.net.insertBefore (s.net.dst x) (some w)).data a = if a = s.net.nArcs then some w else s.net.data a :=
    before_data _
  refine ⟨⟨_, s.fl.grow s.net⟩, ps2, ⟨g1, by rw [g2]; simp, ?_, ?_, ?_, ?_⟩, ?_, ⟨_, hfind⟩, ?_, ?_, ?_⟩
  · intro y hy
    have := h.le
    show (addNulls _ _ _ _ _).data y = _
    rw [g6, if_neg (by omega), hbd, if_neg (by omega)]
    exact h.old y hy
  · show _ ≤ (addNulls _ _ _ _ _).nArcs
    rw [g3]; have := h.le; omega
  · intro v hv
    have hv1 := g5 v hv
    show upd _ _ _ _ = upd _ _ _ (addNulls _ _ _ _ _).start
    rw [g4]
    have hs : s.net.start < s.net.nNodes := h.lin.lt _ (by simp [nodes])
    have hs2 : (s.net.insertBefore (s.net.dst x) (some w)).start = s.net.start := rfl
    rw [hs2]
    unfold upd
    rw [if_neg (show ¬ s.net.start = s.net.nNodes by omega)]
    by_cases e : v = s.net.nNodes
    · rw [if_pos e]
    · rw [if_neg e]
      rcases h4 v hv1 with e' | e'
      · exact absurd e' e
      · exact h.even v e'
  · show (addNulls _ _ _ _ _).nArcs = _
    rw [g3, h.cnt]; simp; omega
  · intro c hc'
    rw [hfind] at hc'
    injection hc' with hc'
    rw [← hc']
  · show (addNulls _ _ _ _ _).data _ = _
    rw [g6, if_neg (by omega), hbd, if_pos rfl]
  · intro a ha
    show (addNulls _ _ _ _ _).data _ = _
    rw [List.mem_range'_1] at ha
    rw [g6, if_pos ha]
  · intro a ha
    show (addNulls _ _ _ _ _).data _ = _
    rw [g6, if_neg (by omega), hbd, if_neg (by omega)]

end

/-- The trace back merges the words of the second network into the slots of the first. -/
theorem editLoop_ok (F : Funcs W) (null : W) (k : Nat) {na nb : Net W} {psA psB : List (Nat × List Nat)} {la lb : List Nat}
    {h hb : Nat} {SA SB : List (List Nat)} {ws : List W} {t : Table} {m : Int}
    (lA : Lin na psA) (lB : Lin nb psB) (hnA : Numbering na la) (hnB : Numbering nb lb)
    (eA : psA.map Prod.snd = [h] :: SA) (eB : psB.map Prod.snd = [hb] :: SB)
    (hws : wordsOf nb.data SB = ws.map fun w => [some w])
    (hl : ∀ a b, a < la.length → b < lb.length → Local F (viewOf na la) (viewOf nb lb) t m a b) :
    ∀ (fuel a b i j : Nat) (s : FNet W) (ps : List (Nat × List Nat)) (post : List (List Nat)),
      a + b ≤ fuel → Pos la (psA.map Prod.snd) a i → Pos lb (psB.map Prod.snd) b j →
      Inv na (([h] :: SA).take (i + 1) ++ post) s ps →
      Merge (some null) k (wordsOf na.data (SA.drop i)) ((ws.drop j).map some) (wordsOf s.net.data post) →
      ∃ s' ps' R, editLoop null k nb la lb t fuel a b s = some s' ∧ Inv na ([h] :: R) s' ps' ∧
        Merge (some null) k (wordsOf na.data SA) (ws.map some) (wordsOf s'.net.data R) := by
  have okA := view_ok lA.wf hnA (lA.start_out eA)
  have okB := view_ok lB.wf hnB (lB.start_out eB)
  have hle : ∀ {s : FNet W} {ps : List (Nat × List Nat)} {As : List (List Nat)}, Inv na As s ps →
      ∀ A ∈ As, ∀ a ∈ A, a < s.net.nArcs := by
    intro s ps As hI A hA a ha
    rw [← hI.eq] at hA
    obtain ⟨p, hp, e⟩ := List.mem_map.1 hA
    exact hI.lin.arcs_lt p hp a (by rw [e]; exact ha)
  have hbword : ∀ (b j : Nat), Pos lb (psB.map Prod.snd) b (j + 1) →
      ∃ y w, lb[b]? = some y ∧ nb.data y = some w ∧ ws.drop j = w :: ws.drop (j + 1) := by
    intro b j hp
    obtain ⟨y, B, hy, hB, hm⟩ := hp
    rw [eB] at hB
    have hB : SB[j]? = some B := hB
    have hw : (wordsOf nb.data SB)[j]? = some (B.map nb.data) := by
      unfold wordsOf; rw [List.getElem?_map, hB]; rfl
    rw [hws, List.getElem?_map] at hw
    cases hwj : ws[j]? with
    | none => rw [hwj] at hw; cases hw
    | some w =>
      rw [hwj] at hw
      injection hw with hw
      have hmm : nb.data y ∈ B.map nb.data := List.mem_map_of_mem hm
      rw [← hw] at hmm
      refine ⟨y, w, hy, by simpa using hmm, ?_⟩
      obtain ⟨hj, e⟩ := List.getElem?_eq_some_iff.1 hwj
      rw [← e]
      exact List.drop_eq_getElem_cons hj
  have hsplit : ∀ (a i : Nat), Pos la (psA.map Prod.snd) a i → ∃ x A, la[a]? = some x ∧ x ∈ A ∧
      ([h] :: SA).take (i + 1) = ([h] :: SA).take i ++ [A] ∧ (∀ i', i = i' + 1 → SA.drop i' = A :: SA.drop i) ∧
      (∀ c ∈ A, c < na.nArcs) := by
    intro a i hp
    obtain ⟨x, A, hx, hA, hm⟩ := hp
    refine ⟨x, A, hx, hm, ?_, ?_, ?_⟩
    · rw [eA] at hA
      rw [List.take_add_one, hA]; rfl
    · intro i' e
      subst e
      rw [eA] at hA
      have hA : SA[i']? = some A := hA
      obtain ⟨hj, e⟩ := List.getElem?_eq_some_iff.1 hA
      rw [← e]
      exact List.drop_eq_getElem_cons hj
    · intro c hc
      have hmA := List.mem_of_getElem? hA
      obtain ⟨p, hp, e⟩ := List.mem_map.1 hmA
      exact lA.arcs_lt p hp c (by rw [e]; exact hc)
  have hzero : ∀ (i j : Nat), Pos la (psA.map Prod.snd) 0 i → Pos lb (psB.map Prod.snd) 0 j → i = 0 ∧ j = 0 :=
    fun i j h1 h2 => ⟨pos_zero lA hnA eA h1, pos_zero lB hnB eB h2⟩
  intro fuel
  induction fuel with
  | zero =>
    intro a b i j s ps post hf hpa hpb hI hM
    have e1 : a = 0 := by omega
    have e2 : b = 0 := by omega
    subst e1; subst e2
    obtain ⟨e3, e4⟩ := hzero i j hpa hpb
    subst e3; subst e4
    exact ⟨s, ps, post, by simp [editLoop], hI, hM⟩
  | succ fuel ih =>
    intro a b i j s ps post hf hpa hpb hI hM
    unfold editLoop
    by_cases hpos : a > 0 ∨ b > 0
    · rw [if_pos hpos]
      obtain ⟨x, A, hx, hxA, htk, hdr, hAlt⟩ := hsplit a i hpa
      have hal : a < la.length := (List.getElem?_eq_some_iff.1 hx).1
      have hbl : b < lb.length := by
        obtain ⟨y, B, hy, _⟩ := hpb
        exact (List.getElem?_eq_some_iff.1 hy).1
      rw [htk, List.append_assoc] at hI
      have hI : Inv na (([h] :: SA).take i ++ A :: post) s ps := hI
      have hpostlt : ∀ C ∈ post, ∀ c ∈ C, c < s.net.nArcs := fun C hC => hle hI C (by simp [hC])
      have hAd : A.map s.net.data = A.map na.data := List.map_congr_left fun c hc => hI.old c (hAlt c hc)
      rcases (hl a b hal hbl).step hpos with ⟨g1, g2, g3, g4⟩ | ⟨g1, g2, g3, g4⟩ | ⟨g1, g2, g3, g4, g5⟩
      · -- insertion
        have hlt := okB.lt _ _ g3
        obtain ⟨j', ej, hpb'⟩ := pos_pred lB hnB hpb g3
        subst ej
        obtain ⟨y, w, hy, hyd, hwd⟩ := hbword b j' hpb
        obtain ⟨s', ps', hI', hs1, ⟨c, hc⟩, hd1, hd2, hd3⟩ := inv_before (w := w) null k hI hxA
        have hed : editStep null k nb la lb (t a b) a b s = some s' := by
          unfold editStep
          rw [hx, hy]
          simp only
          rw [if_pos g1.symm, hyd]
          simp only
          rw [hc]
          simp only
          rw [hs1 c hc]
        rw [hed]
        simp only
        rw [g1]
        have hwpost : wordsOf s'.net.data post = wordsOf s.net.data post :=
          wordsOf_congr fun C hC c' hc' => hd3 c' (hpostlt C hC c' hc')
        apply ih a _ i j' s' ps' ((s.net.nArcs :: List.range' (s.net.nArcs + 1) k) :: post) (by omega) hpa hpb'
        · rw [htk, List.append_assoc]; exact hI'
        · have e : wordsOf s'.net.data ((s.net.nArcs :: List.range' (s.net.nArcs + 1) k) :: post) =
              (some w :: List.replicate k (some null)) :: wordsOf s.net.data post := by
            rw [← hwpost]
            unfold wordsOf
            rw [List.map_cons, List.map_cons, hd1]
            congr 2
            have : (List.range' (s.net.nArcs + 1) k).map s'.net.data =
                (List.range' (s.net.nArcs + 1) k).map fun _ => some null := List.map_congr_left hd2
            rw [this, List.map_const', List.length_range']
          rw [e, hwd, List.map_cons]
          exact .right hM
      · -- deletion
        have hlt := okA.lt _ _ g3
        obtain ⟨i', ei, hpa'⟩ := pos_pred lA hnA hpa g3
        subst ei
        obtain ⟨y, B, hy, _⟩ := id hpb
        obtain ⟨ps', hI'⟩ := inv_between (d := some null) hI hxA
        have hed : editStep null k nb la lb (t a b) a b s =
            some ⟨s.net.insertBetween (s.net.src x) (s.net.dst x) (some null), s.fl⟩ := by
          unfold editStep
          rw [hx, hy]
          simp only
          rw [if_neg (by omega), if_pos g1.symm]
        rw [hed]
        simp only
        rw [g1]
        have hdn : ∀ c, c < s.net.nArcs →
            (s.net.insertBetween (s.net.src x) (s.net.dst x) (some null)).data c = s.net.data c := by
          intro c hc; show upd _ _ _ c = _; unfold upd; rw [if_neg (by omega)]
        apply ih _ b i' j ⟨s.net.insertBetween (s.net.src x) (s.net.dst x) (some null), s.fl⟩ ps'
          ((A ++ [s.net.nArcs]) :: post) (by omega) hpa' hpb hI'
        have e : wordsOf (s.net.insertBetween (s.net.src x) (s.net.dst x) (some null)).data ((A ++ [s.net.nArcs]) :: post) =
            (A.map na.data ++ [some null]) :: wordsOf s.net.data post := by
          have e1 : wordsOf (s.net.insertBetween (s.net.src x) (s.net.dst x) (some null)).data post =
              wordsOf s.net.data post := wordsOf_congr fun C hC c' hc' => hdn c' (hpostlt C hC c' hc')
          rw [← e1]
          unfold wordsOf
          rw [List.map_cons, List.map_append, ← hAd]
          congr 2
          · exact List.map_congr_left fun c hc => hdn c (by have := hAlt c hc; have := hI.le; omega)
          · show [upd _ _ _ _] = _
            simp [upd]
        show Merge _ _ _ _ (wordsOf (s.net.insertBetween (s.net.src x) (s.net.dst x) (some null)).data _)
        rw [e, hdr i' rfl]
        exact .left hM
      · -- substitution
        have hlt := okA.lt _ _ g3
        have hlt2 := okB.lt _ _ g4
        obtain ⟨i', ei, hpa'⟩ := pos_pred lA hnA hpa g3
        obtain ⟨j', ej, hpb'⟩ := pos_pred lB hnB hpb g4
        subst ei; subst ej
        obtain ⟨y, w, hy, hyd, hwd⟩ := hbword b j' hpb
        obtain ⟨ps', hI'⟩ := inv_between (d := some w) hI hxA
        have hed : editStep null k nb la lb (t a b) a b s =
            some ⟨s.net.insertBetween (s.net.src x) (s.net.dst x) (some w), s.fl⟩ := by
          unfold editStep
          rw [hx, hy]
          simp only
          rw [if_neg (by omega), if_neg (by omega), hyd]
        rw [hed]
        simp only
        have hdn : ∀ c, c < s.net.nArcs →
            (s.net.insertBetween (s.net.src x) (s.net.dst x) (some w)).data c = s.net.data c := by
          intro c hc; show upd _ _ _ c = _; unfold upd; rw [if_neg (by omega)]
        apply ih _ _ i' j' ⟨s.net.insertBetween (s.net.src x) (s.net.dst x) (some w), s.fl⟩ ps'
          ((A ++ [s.net.nArcs]) :: post) (by omega) hpa' hpb' hI'
        have e : wordsOf (s.net.insertBetween (s.net.src x) (s.net.dst x) (some w)).data ((A ++ [s.net.nArcs]) :: post) =
            (A.map na.data ++ [some w]) :: wordsOf s.net.data post := by
          have e1 : wordsOf (s.net.insertBetween (s.net.src x) (s.net.dst x) (some w)).data post =
              wordsOf s.net.data post := wordsOf_congr fun C hC c' hc' => hdn c' (hpostlt C hC c' hc')
          rw [← e1]
          unfold wordsOf
          rw [List.map_cons, List.map_append, ← hAd]
          congr 2
          · exact List.map_congr_left fun c hc => hdn c (by have := hAlt c hc; have := hI.le; omega)
          · show [upd _ _ _ _] = _
            simp [upd]
        show Merge _ _ _ _ (wordsOf (s.net.insertBetween (s.net.src x) (s.net.dst x) (some w)).data _)
        rw [e, hdr i' rfl, hwd, List.map_cons]
        exact .both hM
    · rw [if_neg hpos]
      have e1 : a = 0 := by omega
      have e2 : b = 0 := by omega
      subst e1; subst e2
      obtain ⟨e3, e4⟩ := hzero i j hpa hpb
      subst e3; subst e4
      exact ⟨s, ps, post, rfl, hI, hM⟩

/-- A chain network with its null head and the words of its slots. -/
structure Slots (s : FNet W) (ps : List (Nat × List Nat)) (h : Nat) (SA : List (List Nat)) : Prop where
  lin : Lin s.net ps
  eq : ps.map Prod.snd = [h] :: SA
  even : Even s
  cnt : s.net.nArcs = (([h] :: SA).map List.length).sum

theorem combine_ok (F : Funcs W) (null : W) (t0 : Table) (k : Nat) {s b : FNet W} {ps pb : List (Nat × List Nat)}
    {h hb : Nat} {SA SB : List (List Nat)} {ws : List W} {m : Int} {N : Nat}
    (hA : Slots s ps h SA) (hB : Slots b pb hb SB) (hws : wordsOf b.net.data SB = ws.map fun w => [some w])
    (hsa : s.net.nArcs ≤ 65534) (hsb : b.net.nArcs ≤ 65534) (hm : F.Below m N) (hN : s.net.nArcs + b.net.nArcs ≤ N + 2) :
    ∃ s' ps' R, combine F null t0 k s b = some s' ∧ Slots s' ps' h R ∧ s'.net.data h = s.net.data h ∧
      Merge (some null) k (wordsOf s.net.data SA) (ws.map some) (wordsOf s'.net.data R) := by
  have wfA := hA.lin.wf
  have wfB := hB.lin.wf
  obtain ⟨sa, ea, hna⟩ := inorder_numbering wfA s.fl (even_uniform hA.lin hA.even)
  obtain ⟨sb, eb, hnb⟩ := inorder_numbering wfB b.fl (even_uniform hB.lin hB.even)
  obtain ⟨sa', ea', _, _, _, _, _, hfl⟩ := inorder_spec wfA s.fl (even_uniform hA.lin hA.even)
  rw [ea] at ea'
  injection ea' with ea'
  subst ea'
  have la1 := numbering_len wfA hna
  have lb1 := numbering_len wfB hnb
  have hha := hA.lin.start_out hA.eq
  have hhb := hB.lin.start_out hB.eq
  have okA := view_ok wfA hna hha
  have okB := view_ok wfB hnb hhb
  obtain ⟨t, et, hf⟩ := fill_ok F s.net b.net sa.arcs sb.arcs t0 okA.pos okB.pos
    (fun b hb => ⟨_, predIds_ok wfA hna (arcAt_some hb)⟩) (preds_lt wfA hna)
    (fun b hb => ⟨_, predIds_ok wfB hnb (arcAt_some hb)⟩) (preds_lt wfB hnb)
  have hlen : (viewOf s.net sa.arcs).len = sa.arcs.length := rfl
  have hlen2 : (viewOf b.net sb.arcs).len = sb.arcs.length := rfl
  have hl : ∀ a b', a < sa.arcs.length → b' < sb.arcs.length →
      Local F (viewOf s.net sa.arcs) (viewOf b.net sb.arcs) t m a b' := fun a b' ha hb =>
    local_all F _ _ t m okA okB hf (by omega) (by omega) N hm (by omega) (a + b' + 1) a b' (by omega) ha hb
  obtain ⟨fa1, fa2, fa3⟩ := ends_found wfA hna hA.lin.stop
  obtain ⟨fb1, fb2, fb3⟩ := ends_found wfB hnb hB.lin.stop
  have hpne : ((endIds s.net sa.arcs).flatMap fun i => (endIds b.net sb.arcs).map fun j => (i, j)) ≠ [] := by
    obtain ⟨i, hi⟩ := List.exists_mem_of_ne_nil _ fa2
    obtain ⟨j, hj⟩ := List.exists_mem_of_ne_nil _ fb2
    exact List.ne_nil_of_mem (mem_endPairs.2 (⟨hi, hj⟩ : (i, j).1 ∈ _ ∧ (i, j).2 ∈ _))
  obtain ⟨⟨a, b'⟩, hab, hmin, hle⟩ := minOver_spec (fun p : Nat × Nat => (t p.1 p.2).d) bigEnd _ hpne (by
    intro p hp
    obtain ⟨h1, h2⟩ := mem_endPairs.1 hp
    have k1 := fa3 _ h1
    have k2 := fb3 _ h2
    have hb := (hl p.1 p.2 k1 k2).bound
    have hmono : m * ((p.1 + p.2 : Nat) : Int) ≤ m * ((N : Nat) : Int) :=
      Int.mul_le_mul_of_nonneg_left (by have : p.1 + p.2 ≤ N := by omega
                                        exact_mod_cast this) hm.1
    have := hm.2.2
    show (t p.1 p.2).d < bigEnd
    omega)
  obtain ⟨hia, hib⟩ := mem_endPairs.1 hab
  simp only at hia hib
  have hpa := pos_end hA.lin hna hia
  have hpb := pos_end hB.lin hnb hib
  have hlA : ps.length = SA.length + 1 := by have := congrArg List.length hA.eq; simpa using this
  have hlB : pb.length = SB.length + 1 := by have := congrArg List.length hB.eq; simpa using this
  have hlW : SB.length = ws.length := by have := congrArg List.length hws; simpa [wordsOf] using this
  have hI : Inv s.net (([h] :: SA).take (ps.length - 1 + 1) ++ []) ⟨s.net, sa.fl⟩ ps := by
    have e : ([h] :: SA).take (ps.length - 1 + 1) ++ [] = [h] :: SA := by
      rw [List.append_nil, List.take_of_length_le (by simp; omega)]
    rw [e]
    refine ⟨hA.lin, hA.eq, fun _ _ => rfl, Nat.le_refl _, ?_, hA.cnt⟩
    intro v hv
    show sa.fl.flag2 v = sa.fl.flag2 s.net.start
    rw [hfl v ((wfA.reach_iff v).2 (Or.inr hv)), hfl s.net.start .start]
  obtain ⟨s', ps', R, h1, h2, h3⟩ := editLoop_ok F null k hA.lin hB.lin hna hnb hA.eq hB.eq hws hl (a + b') a b'
    (ps.length - 1) (pb.length - 1) ⟨s.net, sa.fl⟩ ps [] (Nat.le_refl _) hpa hpb hI (by
      rw [List.drop_of_length_le (by omega), List.drop_of_length_le (by omega)]
      exact .nil)
  refine ⟨s', ps', R, ?_, ⟨h2.lin, h2.eq, h2.even, h2.cnt⟩, h2.old h ?_, h3⟩
  · unfold combine
    rw [ea, eb]
    simp only
    rw [if_neg (by omega), et]
    simp only
    unfold createAligned
    rw [hA.lin.stop, hB.lin.stop]
    simp only
    rw [fa1, fb1]
    simp only [hmin]
    exact h1
  · have := hA.lin.arcs_lt
    have hmem : [h] ∈ ps.map Prod.snd := by rw [hA.eq]; simp
    obtain ⟨p, hp, e⟩ := List.mem_map.1 hmem
    exact this p hp h (by rw [e]; simp)

/-! ### several systems -/

theorem linear_lin (ws : List W) (hne : ws ≠ []) : ∃ ps, Lin (linear ws) ps ∧
    wordsOf (linear ws).data (ps.map Prod.snd) = ws.map (fun w => [some w]) ∧ (linear ws).nArcs = ws.length ∧
      ps.length = ws.length := by
  have key : ∀ (k : Nat) (ws : List W), ws.length = k → ws ≠ [] → ∃ ps, Lin (linear ws) ps ∧
      wordsOf (linear ws).data (ps.map Prod.snd) = ws.map (fun w => [some w]) ∧ (linear ws).nArcs = ws.length ∧
      ps.length = ws.length := by
    intro k
    induction k with
    | zero => intro ws h hne; exact absurd (List.length_eq_zero_iff.1 h) hne
    | succ k ih =>
      intro ws hk hne
      rcases List.eq_nil_or_concat ws with e | ⟨ws', w, e⟩
      · exact absurd e hne
      · rw [List.concat_eq_append] at e
        subst e
        rw [linear_snoc]
        by_cases hn : ws' = []
        · subst hn
          refine ⟨[(1, [0])], Lin.first (some w), ?_, rfl, rfl⟩
          simp [wordsOf, linear, Net.addTail, Net.init, Net.insertAfter, upd]
        · obtain ⟨ps, h1, h2, h3, h4⟩ := ih ws' (by simpa using hk) hn
          rcases List.eq_nil_or_concat ps with e | ⟨pre, p, e⟩
          · exact absurd e h1.ne
          · rw [List.concat_eq_append] at e
            have e : ps = pre ++ (p.1, p.2) :: [] := e
            subst e
            have hst : (linear ws').stop = some p.1 := by rw [h1.stop, last_append]; rfl
            have ht : (linear ws').addTail (some w) = (linear ws').insertBefore p.1 (some w) := by
              unfold Net.addTail; rw [hst]
            rw [ht]
            refine ⟨_, h1.before (some w), ?_, ?_, ?_⟩
            · rw [List.map_append (l₁ := ws'), ← h2]
              have hlt := h1.arcs_lt
              simp only [wordsOf, List.map_append, List.map_cons, List.map_nil, List.append_assoc]
              have hc : ∀ A ∈ (pre ++ [(p.1, p.2)]).map Prod.snd, ∀ a ∈ A,
                  ((linear ws').insertBefore p.1 (some w)).data a = (linear ws').data a := by
                intro A hA a ha
                obtain ⟨q, hq, e⟩ := List.mem_map.1 hA
                have := hlt q hq a (by rw [e]; exact ha)
                rw [before_data, if_neg (by omega)]
              have := wordsOf_congr hc
              simp only [wordsOf, List.map_append, List.map_cons, List.map_nil] at this
              have hx : ((linear ws').insertBefore p.1 (some w)).data (linear ws').nArcs = some w := by
                rw [before_data, if_pos rfl]
              rw [hx]
              rw [← List.append_assoc, ← this]
              simp
            · show (linear ws').nArcs + 1 = _
              rw [h3]; simp
            · have := h4; simp at this ⊢; omega
  exact key ws.length ws rfl hne

/-- The flags of freshly built networks all are clear. -/
def freshFlags : Flags := ⟨fun _ => 0, fun _ => false⟩

/-- A system's network before the combination. -/
def sysNet (ws : List W) : FNet W := ⟨linear ws, freshFlags⟩

theorem fresh_head (ws : List W) : Even (sysNet ws).addHead := by
  intro v hv
  show upd (fun _ => false) _ _ v = upd (fun _ => false) _ _ _
  unfold upd
  split <;> split <;> rfl

theorem sys_slots (ws : List W) : ∃ ps h SA, Slots (sysNet ws).addHead ps h SA ∧
    wordsOf (sysNet ws).addHead.net.data SA = ws.map (fun w => [some w]) ∧ (sysNet ws).addHead.net.nArcs = ws.length + 1 ∧
    (sysNet ws).addHead.net.data h = none := by
  by_cases hne : ws = []
  · subst hne
    refine ⟨[(1, [0])], 0, [], ⟨Lin.first none, rfl, fresh_head [], rfl⟩, rfl, rfl, ?_⟩
    simp [sysNet, FNet.addHead, linear, Net.addHead, Net.init, Net.insertAfter, upd]
  · obtain ⟨ps, h1, h2, h3, h4⟩ := linear_lin ws hne
    refine ⟨_, (linear ws).nArcs, ps.map Prod.snd, ⟨h1.head none, rfl, fresh_head ws, ?_⟩, ?_, ?_, ?_⟩
    · show (linear ws).nArcs + 1 = _
      have hl : ∀ (As : List (List Nat)) (vs : List W), wordsOf (linear ws).data As = vs.map (fun w => [some w]) →
          (As.map List.length).sum = vs.length := by
        intro As
        induction As with
        | nil => intro vs h; cases vs with | nil => rfl | cons v vs => cases h
        | cons A As ih =>
          intro vs h
          cases vs with
          | nil => cases h
          | cons v vs =>
            unfold wordsOf at h
            rw [List.map_cons, List.map_cons] at h
            injection h with e1 e2
            have := ih vs e2
            have hl := congrArg List.length e1
            simp at hl
            simp [hl, this]; omega
      have := hl _ _ h2
      rw [List.map_cons, List.sum_cons, this, h3]
      simp; omega
    · rw [← h2]
      apply wordsOf_congr
      intro A hA a ha
      obtain ⟨p, hp, e⟩ := List.mem_map.1 hA
      have := h1.arcs_lt p hp a (by rw [e]; exact ha)
      show ((linear ws).addHead none).data a = _
      rw [head_data, if_neg (by omega)]
    · show (linear ws).nArcs + 1 = _
      rw [h3]
    · show ((linear ws).addHead none).data _ = none
      rw [head_data, if_pos rfl]

end Verif.Rover
