import Verif.CharNet.Step
/-!
# The loop over the arcs of a node
-/
set_option autoImplicit false
namespace Verif.CharNet
open Verif.Net Verif.NetBuild
variable {W : Type}

/-- The word on the arc stands for itself. -/
def Stable (E : W → List W) (n : Net W) (a : Nat) : Prop := ∃ y, n.data a = some y ∧ E y = [y]

/-- What has changed from `b0` to `b` while the arcs of node `v` were visited. -/
structure Ext (E : W → List W) (s v : Nat) (b0 b : CNet W) : Prop where
  start : b.net.start = b0.net.start
  nodes : b0.net.nNodes ≤ b.net.nNodes
  narcs : b0.net.nArcs ≤ b.net.nArcs
  out : ∀ u, u < b0.net.nNodes → u ≠ v → b.net.out u = b0.net.out u
  arcs : ∀ c, c < b0.net.nArcs → b.net.dst c = b0.net.dst c ∧ b.net.data c = b0.net.data c
  fresh : ∀ u, ¬ u < b0.net.nNodes → ∀ c ∈ b.net.out u, Stable E b.net c
  visOld : ∀ u, u < b0.net.nNodes → b.vis u = b0.vis u
  visNew : ∀ u, ¬ u < b0.net.nNodes → b.net.inn u ≠ [] → b.vis u = b0.vis b0.net.start
  innOld : ∀ u, u < b0.net.nNodes → b.net.inn u ≠ [] → b0.net.inn u ≠ []
  lang : ∀ ws, Sp b.net (img E b.net) b0.net.start ws s ↔ Sp b0.net (img E b0.net) b0.net.start ws s

theorem Ext.refl {E : W → List W} {G : W → Prop} {s : Nat} (v : Nat) {b : CNet W} (h : Fine G b.net s) : Ext E s v b b := by
  obtain ⟨r, hw⟩ := h.wf
  refine ⟨rfl, Nat.le_refl _, Nat.le_refl _, fun _ _ _ => rfl, fun _ _ => ⟨rfl, rfl⟩, ?_, fun _ _ => rfl, ?_, fun _ _ h => h, fun _ => Iff.rfl⟩
  · intro u hu c hc
    exact absurd (hw.out_ok _ _ hc).2.2.2.1 hu
  · intro u hu hi
    exact absurd (inn_node hw hi).1 hu

/-- Is the word on the arc optional? -/
def isOpt (opt : W → Bool) (n : Net W) (a : Nat) : Bool :=
  match n.data a with
  | some w => opt w
  | none => false

/-- The number of optional words on the arcs. -/
def optCount (opt : W → Bool) (n : Net W) (l : List Nat) : Nat := (l.filter (isOpt opt n)).length

/-- The work an arc causes. -/
def wt (sub : W → Option (Option (Net W))) (opt : W → Bool) (n : Net W) (a : Nat) : Nat :=
  match n.data a with
  | some w => if opt w then 0 else match sub w with
    | some none => 1
    | _ => 2
  | none => 0

/-- The measure that decreases if there is at most one optional word. -/
def meas (sub : W → Option (Option (Net W))) (opt : W → Bool) (n : Net W) (l : List Nat) : Nat :=
  2 * (l.map (wt sub opt n)).sum + (match l with
    | [] => 0
    | a :: _ => if isOpt opt n a then 1 else 0)

theorem meas_le (sub : W → Option (Option (Net W))) (opt : W → Bool) (n : Net W) (l : List Nat) : meas sub opt n l ≤ 4 * l.length + 1 := by
  have h1 : ∀ a, wt sub opt n a ≤ 2 := by
    intro a
    unfold wt
    split
    · split
      · omega
      · split <;> omega
    · omega
  have h2 : (l.map (wt sub opt n)).sum ≤ 2 * l.length := by
    induction l with
    | nil => simp
    | cons a l ih => rw [List.map_cons, List.sum_cons, List.length_cons]; have := h1 a; omega
  unfold meas
  split
  · omega
  · split <;> simp only [List.length_cons] at * <;> omega

theorem nextAfter_split {D R : List Nat} {p : Nat} (h : (D ++ p :: R).Nodup) : nextAfter p (D ++ p :: R) = R.head? := by
  have hp : ∀ d ∈ D, (d ≠ p) := by
    intro d hd e
    rw [List.nodup_append] at h
    exact h.2.2 d hd p (List.mem_cons_self ..) e
  unfold nextAfter
  rw [List.dropWhile_append_of_pos (by intro d hd; simpa using hp d hd)]
  simp

theorem filter_split {D R : List Nat} {p : Nat} (h : (D ++ p :: R).Nodup) : (D ++ p :: R).filter (· ≠ p) = D ++ R := by
  rw [List.nodup_append] at h
  rw [List.filter_append, List.filter_cons_of_neg (by simp)]
  congr 1
  · rw [List.filter_eq_self]
    intro d hd
    simpa using h.2.2 d hd p (List.mem_cons_self ..)
  · rw [List.filter_eq_self]
    intro d hd
    have := (List.nodup_cons.1 h.2.1).1
    simp only [ne_eq, decide_eq_true_eq]
    intro e; exact this (e ▸ hd)

theorem data_congr_count {opt : W → Bool} {n n' : Net W} {l : List Nat} (h : ∀ a ∈ l, n'.data a = n.data a) :
    optCount opt n' l = optCount opt n l := by
  unfold optCount
  congr 1
  apply List.filter_congr
  intro a ha
  unfold isOpt
  rw [h a ha]

theorem data_congr_sum {sub : W → Option (Option (Net W))} {opt : W → Bool} {n n' : Net W} {l : List Nat} (h : ∀ a ∈ l, n'.data a = n.data a) :
    (l.map (wt sub opt n')).sum = (l.map (wt sub opt n)).sum := by
  congr 1
  apply List.map_congr_left
  intro a ha
  unfold wt
  rw [h a ha]

theorem optCount_cons (opt : W → Bool) (n : Net W) (a : Nat) (l : List Nat) :
    optCount opt n (a :: l) = (if isOpt opt n a then 1 else 0) + optCount opt n l := by
  unfold optCount
  by_cases h : isOpt opt n a = true
  · rw [List.filter_cons_of_pos h, if_pos h, List.length_cons]; omega
  · rw [List.filter_cons_of_neg h, if_neg h]; omega

theorem optCount_append (opt : W → Bool) (n : Net W) (l k : List Nat) :
    optCount opt n (l ++ k) = optCount opt n l + optCount opt n k := by
  unfold optCount
  rw [List.filter_append, List.length_append]

theorem arc_loop {sub : W → Option (Option (Net W))} {G : W → Prop} {opt : W → Bool} {E : W → List W} (hsub : SubOk sub G opt E)
    {s v : Nat} {b0 : CNet W} (hv : v < b0.net.nNodes) (h0 : b0.net.start < b0.net.nNodes) : ∀ (fuel : Nat) (b : CNet W) (D : List Nat) (p : Nat) (R : List Nat),
    Fine G b.net s → Ext E s v b0 b → b.net.out v = D ++ p :: R → (∀ a ∈ D, Stable E b.net a) →
    (arcLoop sub v fuel b (some p) = .hang ∨ ∃ b', arcLoop sub v fuel b (some p) = .ok b' ∧ Fine G b'.net s ∧ Ext E s v b0 b' ∧
      (∀ a ∈ b'.net.out v, Stable E b'.net a) ∧ optCount opt b.net (p :: R) ≤ 1) ∧
    (optCount opt b.net (p :: R) ≤ 1 → meas sub opt b.net (p :: R) < fuel → arcLoop sub v fuel b (some p) ≠ .hang) := by
  intro fuel
  induction fuel with
  | zero =>
    intro b D p R _ _ _ _
    exact ⟨Or.inl rfl, fun _ h => by omega⟩
  | succ fuel ih =>
    intro b D p R hb hx hout hD
    obtain ⟨r, hw⟩ := hb.wf
    have hp : p ∈ b.net.out v := by rw [hout]; simp
    have hnd : (D ++ p :: R).Nodup := hout ▸ hw.out_nodup v
    obtain ⟨w, hd, hg⟩ := hb.words v p hp
    have hnext : nextAfter p (b.net.out v) = R.head? := by rw [hout]; exact nextAfter_split hnd
    rcases hsub w hg with ⟨h1, h2, h3⟩ | ⟨m, t, c0, h1, hm⟩
    · -- the word stays
      have e : arcLoop sub v (fuel + 1) b (some p) = arcLoop sub v fuel b R.head? := by
        have hr : replaceArc sub b p = some b := by
          unfold replaceArc
          simp only [hd, h1]
        show (match replaceArc sub b p with
          | none => Res.crash
          | some b' => arcLoop sub v fuel b' (nextAfter p (b.net.out v))) = _
        rw [hr, hnext]
      have hop : isOpt opt b.net p = false := by unfold isOpt; rw [hd]; exact h2
      have hoc : optCount opt b.net (p :: R) = optCount opt b.net R := by
        rw [optCount_cons, hop]; simp
      have hst : Stable E b.net p := ⟨w, hd, h3⟩
      have hD' : ∀ a ∈ D ++ [p], Stable E b.net a := by
        intro a ha
        rcases List.mem_append.1 ha with ha | ha
        · exact hD a ha
        · rw [List.mem_singleton.1 ha]; exact hst
      rw [e]
      cases R with
      | nil =>
        have e2 : arcLoop sub v fuel b ([] : List Nat).head? = .ok b := by
          cases fuel <;> rfl
        rw [e2]
        refine ⟨Or.inr ⟨b, rfl, hb, hx, ?_, ?_⟩, fun _ _ => by simp⟩
        · rw [hout]; exact hD'
        · rw [hoc]; simp [optCount]
      | cons q R =>
        obtain ⟨k1, k2⟩ := ih b (D ++ [p]) q R hb hx (by rw [hout]; simp) hD'
        rw [hoc]
        refine ⟨k1, fun ho hf => k2 ho ?_⟩
        have hwt : wt sub opt b.net p = 1 := by
          unfold wt
          simp only [hd, h2, h1]
          rfl
        unfold meas at hf ⊢
        rw [List.map_cons, List.sum_cons, hwt] at hf
        simp only [hop] at hf
        simp only
        split <;> simp only [Bool.false_eq_true, if_false] at hf <;> omega
    · -- the word is replaced
      obtain ⟨b', r1, r2, r3, r4, r5, r6, r7, r8, ⟨y, y1, y2, y3, y4, y5⟩, r10, r11, r12, r13, r14⟩ := replace_made hb hp hd h1 hm
      have e : arcLoop sub v (fuel + 1) b (some p) = arcLoop sub v fuel b' R.head? := by
        show (match replaceArc sub b p with
          | none => Res.crash
          | some b' => arcLoop sub v fuel b' (nextAfter p (b.net.out v))) = _
        rw [r1, hnext]
      have hx' : Ext E s v b0 b' := by
        refine ⟨r3.trans hx.start, by rw [r4]; exact Nat.le_trans hx.nodes (Nat.le_add_right _ _),
          by rw [r5]; exact Nat.le_trans hx.narcs (Nat.le_add_right _ _), ?_, ?_, ?_, ?_, ?_, ?_, ?_⟩
        · intro u hu huv
          rw [r7 u (Nat.lt_of_lt_of_le hu hx.nodes) huv, hx.out u hu huv]
        · intro c hc
          obtain ⟨a1, a2⟩ := r8 c (Nat.lt_of_lt_of_le hc hx.narcs)
          obtain ⟨a3, a4⟩ := hx.arcs c hc
          exact ⟨a1.trans a3, a2.trans a4⟩
        · intro u hu c hc
          by_cases hub : u < b.net.nNodes
          · have huv : u ≠ v := fun e => hu (e ▸ hv)
            rw [r7 u hub huv] at hc
            obtain ⟨z, z1, z2⟩ := hx.fresh u hu c hc
            exact ⟨z, by rw [(r8 c (hw.out_ok _ _ hc).1).2]; exact z1, z2⟩
          · exact r10 u hub c hc
        · intro u hu
          rw [r11 u (Nat.lt_of_lt_of_le hu hx.nodes), hx.visOld u hu]
        · intro u hu hi
          by_cases hub : u < b.net.nNodes
          · rw [r11 u hub]
            exact hx.visNew u hu (r13 u hub hi)
          · rw [r12 u hub hi, hx.start, hx.visOld _ h0]
        · intro u hu hi
          exact hx.innOld u hu (r13 u (Nat.lt_of_lt_of_le hu hx.nodes) hi)
        · intro ws
          have := r14 ws
          rw [hx.start] at this
          exact this.trans (hx.lang ws)
      have hnew : Stable E b'.net (b.net.nArcs + c0) := ⟨y, y1, y3⟩
      have hlt : ∀ a ∈ D ++ p :: R, a < b.net.nArcs := fun a ha => (hw.out_ok v a (by rw [hout]; exact ha)).1
      have hD' : ∀ a ∈ D, Stable E b'.net a := by
        intro a ha
        obtain ⟨z, z1, z2⟩ := hD a ha
        exact ⟨z, by rw [(r8 a (hlt a (by simp [ha]))).2]; exact z1, z2⟩
      have hout' : b'.net.out v = D ++ (R ++ [b.net.nArcs + c0]) := by
        rw [r6, hout, filter_split hnd]; simp
      have hRd : ∀ a ∈ R, b'.net.data a = b.net.data a := fun a ha => (r8 a (hlt a (by simp [ha]))).2
      have hon : isOpt opt b'.net (b.net.nArcs + c0) = opt w := by unfold isOpt; rw [y1]; exact y4
      have hop : isOpt opt b.net p = opt w := by unfold isOpt; rw [hd]
      have hoc : optCount opt b'.net (R ++ [b.net.nArcs + c0]) = optCount opt b.net (p :: R) := by
        rw [optCount_append, data_congr_count hRd, optCount_cons, optCount_cons, hon, hop]
        simp [optCount]; omega
      rw [e]
      cases R with
      | nil =>
        have e2 : arcLoop sub v fuel b' ([] : List Nat).head? = .ok b' := by
          cases fuel <;> rfl
        rw [e2]
        refine ⟨Or.inr ⟨b', rfl, r2, hx', ?_, ?_⟩, fun _ _ => by simp⟩
        · rw [hout']
          intro a ha
          rcases List.mem_append.1 ha with ha | ha
          · exact hD' a ha
          · rw [List.mem_singleton.1 ha]; exact hnew
        · rw [optCount_cons]
          simp [optCount]
          split <;> omega
      | cons q R =>
        obtain ⟨k1, k2⟩ := ih b' D q (R ++ [b.net.nArcs + c0]) r2 hx' (by rw [hout']; simp) hD'
        have hoc' : optCount opt b'.net (q :: (R ++ [b.net.nArcs + c0])) = optCount opt b.net (p :: q :: R) := by
          rw [← hoc]; rfl
        rw [hoc'] at k1 k2
        refine ⟨k1, fun ho hf => k2 ho ?_⟩
        have hsum : ((q :: (R ++ [b.net.nArcs + c0])).map (wt sub opt b'.net)).sum =
            ((q :: R).map (wt sub opt b.net)).sum + wt sub opt b'.net (b.net.nArcs + c0) := by
          rw [← List.cons_append, List.map_append, List.sum_append, data_congr_sum hRd]
          simp
        have hq : isOpt opt b'.net q = isOpt opt b.net q := by
          unfold isOpt; rw [hRd q (by simp)]
        unfold meas at hf ⊢
        rw [hsum]
        simp only [hq]
        simp only [hop] at hf
        rw [List.map_cons, List.sum_cons] at hf
        by_cases ho1 : opt w = true
        · have w1 : wt sub opt b'.net (b.net.nArcs + c0) = 0 := by
            unfold wt; simp only [y1]; rw [if_pos (by rw [y4]; exact ho1)]
          have hq0 : isOpt opt b.net q = false := by
            cases hqq : isOpt opt b.net q with
            | false => rfl
            | true =>
              rw [optCount_cons, optCount_cons, hop, ho1, hqq] at ho
              simp at ho
              omega
          rw [hq0, w1]
          rw [ho1] at hf
          simp at hf ⊢
          omega
        · have ho2 : opt w = false := by simpa using ho1
          have w1 : wt sub opt b'.net (b.net.nArcs + c0) = 1 := by
            have hoy : opt y = false := y4.trans ho2
            unfold wt; simp only [y1, hoy, y5 hoy]; rfl
          have w2 : wt sub opt b.net p = 2 := by
            unfold wt; simp only [hd, ho2, h1]; rfl
          rw [w1]
          rw [w2, ho2] at hf
          simp at hf ⊢
          split <;> omega

end Verif.CharNet
