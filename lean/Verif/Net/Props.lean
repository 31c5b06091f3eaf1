import Verif.Net.Align
import Verif.Net.Build
/-!
# Properties of sclite word networks and their alignment
-/
set_option autoImplicit false
namespace Verif.Net
variable {W : Type}

/-! ### C22 -/

/-- C22: the in-order traversal of a well-formed network ends; it visits exactly the nodes that can be reached, each once
and only after every node with an arc to it; it hands over every arc exactly once; and it leaves the visited marks as
uniform as it found them, so that the network can be traversed again. -/
theorem traversal_topological (n : Net W) (rank : Nat → Nat) (hw : n.WF rank) (fl : Flags) (hu : fl.Uniform n) :
    ∃ s, inorderTraverse n fl = some s ∧
      s.nodes.Nodup ∧ (∀ u, u ∈ s.nodes ↔ n.Reach u) ∧
      (∀ A u B, s.nodes = A ++ u :: B → ∀ v a, a ∈ n.out v → n.dst a = u → v ∈ A) ∧
      s.arcs.Nodup ∧ (∀ a, a ∈ s.arcs ↔ ∃ v, a ∈ n.out v) ∧
      s.fl.Uniform n := by
  obtain ⟨s, e1, e2, e3, e4, e5, e6, e7⟩ := inorder_spec hw fl hu
  obtain ⟨s', e1', hn⟩ := inorder_numbering hw fl hu
  rw [e1] at e1'
  injection e1' with e
  subst e
  refine ⟨s, e1, e2, e3, ?_, e5, hn.live, ?_⟩
  · intro A u B hAB v a ha hd
    have hin := hw.live_inn ⟨v, ha⟩
    rw [hd] at hin
    have := e6 A u B hAB a hin
    rw [(hw.out_ok v a ha).2.1] at this
    exact this
  · intro u hr
    rw [e7 u hr, e7 _ .start]

/-- A depth-first traversal ends, visits exactly the reachable nodes once each, hands over every arc exactly once, and
leaves the marks uniform. -/
theorem depth_traversal_complete (n : Net W) (rank : Nat → Nat) (hw : n.WF rank) (fl : Flags) (hu : fl.Uniform n) :
    ∃ s, depthTraverse n fl = some s ∧ s.nodes.Nodup ∧ (∀ u, u ∈ s.nodes ↔ n.Reach u) ∧
      s.arcs.Nodup ∧ (∀ a, a ∈ s.arcs ↔ ∃ v, a ∈ n.out v) ∧ s.fl.Uniform n := by
  obtain ⟨s, e1, e2, e3, e4, _, e6⟩ := depth_run hw (fun f _ => f) (fun _ _ => rfl) (fun _ _ => True)
    (fun _ _ _ _ => trivial) fl hu trivial
  refine ⟨s, e1, e2, e3, ?_, ?_, ?_⟩
  · rw [e4]
    clear e1 e3 e4 e6
    generalize s.nodes = l at e2
    induction l with
    | nil => exact List.nodup_nil
    | cons v l ih =>
      rw [List.flatMap_cons, List.nodup_append]
      refine ⟨hw.out_nodup v, ih (List.nodup_cons.1 e2).2, ?_⟩
      intro a ha b hb e
      obtain ⟨u, hu', hbu⟩ := List.mem_flatMap.1 hb
      have h1 := (hw.out_ok _ _ ha).2.1
      have h2 := (hw.out_ok _ _ hbu).2.1
      rw [← e, h1] at h2
      exact (List.nodup_cons.1 e2).1 (h2 ▸ hu')
  · intro a
    rw [e4]
    constructor
    · intro h
      obtain ⟨v, _, hv⟩ := List.mem_flatMap.1 h
      exact ⟨v, hv⟩
    · intro h
      have ho := hw.live_out h
      refine List.mem_flatMap.2 ⟨n.src a, ?_, ho⟩
      rw [e3, hw.reach_iff]
      by_cases hs : n.src a = n.start
      · exact Or.inl hs
      · exact Or.inr (hw.source _ (List.ne_nil_of_mem ho) hs)
  · intro u hr
    rw [e6 u hr, e6 _ .start]

example : ∃ rank, (linear [1, 2, 3]).WF rank := (linear_ok [1, 2, 3]).1

example : (inorderTraverse (linear [1, 2, 3]) ⟨fun _ => 0, fun _ => false⟩).map (fun s => (s.nodes, s.arcs)) =
    some ([0, 2, 3, 1], [0, 1, 2]) := by decide

/-! ### C20, C21, C23, C59 -/

/-- C20: aligning two networks finds the cheapest alignment of any word sequence of one with any word sequence of the
other.  Stated for networks and costs within the built-in limits; whatever the table contained before, and also with
negative costs. -/
theorem network_alignment_optimal (F : Funcs W) (na nb : Net W) (ra rb : Nat → Nat) (fa fb : Flags) (t0 : Table)
    (incl : Bool) (m : Int) (hwa : na.WF ra) (hwb : nb.WF rb) (hda : na.Words) (hdb : nb.Words)
    (hua : fa.Uniform na) (hub : fb.Uniform nb) (hsa : na.nArcs < 65534) (hsb : nb.nArcs < 65534)
    (hm : F.Below m (na.nArcs + nb.nArcs)) :
    ∃ la lb r, dpalign F na nb fa fb t0 incl = some (la, lb, r) ∧
      (∃ s, Aligns na nb s ∧ costOf F s = r.cost) ∧ ∀ s, Aligns na nb s → r.cost ≤ costOf F s := by
  obtain ⟨la, lb, r, h1, s, h2, h3, h4, _⟩ := dpalign_spec F na nb ra rb fa fb t0 incl m hwa hwb hda hdb hua hub hsa hsb hm
  exact ⟨la, lb, r, h1, ⟨s, h2, h3⟩, h4⟩

/-- C21, C23: the path returned is the report of one cheapest alignment: step by step, nothing lost, added or
reordered. -/
theorem network_path_reports_optimum (F : Funcs W) (na nb : Net W) (ra rb : Nat → Nat) (fa fb : Flags) (t0 : Table)
    (incl : Bool) (m : Int) (hwa : na.WF ra) (hwb : nb.WF rb) (hda : na.Words) (hdb : nb.Words)
    (hua : fa.Uniform na) (hub : fb.Uniform nb) (hsa : na.nArcs < 65534) (hsb : nb.nArcs < 65534)
    (hm : F.Below m (na.nArcs + nb.nArcs)) :
    ∃ la lb r s, dpalign F na nb fa fb t0 incl = some (la, lb, r) ∧ Aligns na nb s ∧
      (∀ s', Aligns na nb s' → costOf F s ≤ costOf F s') ∧ r.path = s.flatMap (reported F incl) := by
  obtain ⟨la, lb, r, h1, s, h2, h3, h4, h5, _⟩ :=
    dpalign_spec F na nb ra rb fa fb t0 incl m hwa hwb hda hdb hua hub hsa hsb hm
  exact ⟨la, lb, r, s, h1, h2, fun s' hs' => by rw [h3]; exact h4 s' hs', h5⟩

/-- C59: the path has exactly the length that was allocated for it. -/
theorem path_fills_allocation (F : Funcs W) (na nb : Net W) (ra rb : Nat → Nat) (fa fb : Flags) (t0 : Table)
    (incl : Bool) (m : Int) (hwa : na.WF ra) (hwb : nb.WF rb) (hda : na.Words) (hdb : nb.Words)
    (hua : fa.Uniform na) (hub : fb.Uniform nb) (hsa : na.nArcs < 65534) (hsb : nb.nArcs < 65534)
    (hm : F.Below m (na.nArcs + nb.nArcs)) :
    ∃ la lb r, dpalign F na nb fa fb t0 incl = some (la, lb, r) ∧ r.alloc = r.path.length := by
  obtain ⟨la, lb, r, h1, s, _, _, _, _, h6⟩ :=
    dpalign_spec F na nb ra rb fa fb t0 incl m hwa hwb hda hdb hua hub hsa hsb hm
  exact ⟨la, lb, r, h1, h6⟩

/-- The standard word costs stay within the limits for all networks that are small enough. -/
theorem wwd_below (F : Funcs W) (hd : F.dist = wwd F.isNull F.optDel F.equal) (na nb : Nat) (hsa : na < 65534)
    (hsb : nb < 65534) : F.Below 4000 (na + nb) := by
  refine ⟨by decide, ?_, ?_⟩
  · intro x
    rw [hd]
    unfold wwd
    cases x <;> simp only <;> (try split) <;> (try split) <;> omega
  · have : bigEnd = 999999900 := rfl
    omega

/-- `wwd` is the documented standard price. -/
theorem wwd_price (F : Funcs W) (hd : F.dist = wwd F.isNull F.optDel F.equal) (st : Step W) (c : Int) :
    Price F st c ↔ st.cost F = c := by
  constructor
  · intro h
    cases h <;> simp_all [Step.cost, wwd]
    all_goals
      rename_i h1 h2
      intro h3
      rcases h1 with h1 | h1 <;> simp_all
  · intro h
    subst h
    cases st with
    | sub x y =>
      simp only [Step.cost, hd, wwd]
      cases hx : F.isNull x <;> cases hy : F.isNull y <;> cases hq : F.equal x y <;> simp <;>
        first
        | exact .nulls hx hy
        | exact .corr (by simp [hx, hy]) hq
        | exact .sub (by simp [hx, hy]) hq
    | del x =>
      simp only [Step.cost, hd, wwd]
      cases hx : F.isNull x <;> cases hq : F.optDel x <;> simp <;>
        first
        | exact .del_null hx
        | exact .del_opt hx hq
        | exact .del hx hq
    | ins x =>
      simp only [Step.cost, hd, wwd]
      cases hx : F.isNull x <;> cases hq : F.optDel x <;> simp <;>
        first
        | exact .ins_null hx
        | exact .ins_opt hx hq
        | exact .ins hx hq

theorem wwd_total (F : Funcs W) (hd : F.dist = wwd F.isNull F.optDel F.equal) (s : List (Step W)) (c : Int) :
    Total F s c ↔ costOf F s = c := by
  induction s generalizing c with
  | nil => exact ⟨fun h => by cases h; rfl, fun h => by subst h; exact .nil⟩
  | cons st s ih =>
    have e : costOf F (st :: s) = st.cost F + costOf F s := by simp [costOf]
    rw [e]
    constructor
    · intro h
      cases h with
      | cons h1 h2 => rw [(wwd_price F hd _ _).1 h1, (ih _).1 h2]
    · intro h
      subst h
      exact .cons ((wwd_price F hd _ _).2 rfl) ((ih _).2 rfl)

/-- C20 for plain word sequences and the standard costs: a reference and a hypothesis of fewer than 65534 words each are
aligned at the minimum of 3 per inserted or deleted and 4 per substituted word (2 for optionally deletable words, next to
nothing for null words). -/
theorem plain_alignment_optimal (F : Funcs W) (hd : F.dist = wwd F.isNull F.optDel F.equal) (ref hyp : List W)
    (fa fb : Flags) (t0 : Table) (incl : Bool) (hua : fa.Uniform (linear ref)) (hub : fb.Uniform (linear hyp))
    (hr : ref.length < 65534) (hh : hyp.length < 65534) :
    ∃ la lb r s, dpalign F (linear ref) (linear hyp) fa fb t0 incl = some (la, lb, r) ∧
      lefts s = ref ∧ rights s = hyp ∧ Total F s r.cost ∧ r.path = s.flatMap (reported F incl) ∧
      ∀ s' c, lefts s' = ref → rights s' = hyp → Total F s' c → r.cost ≤ c := by
  obtain ⟨⟨ra, a1⟩, a2, a3, a4⟩ := linear_ok ref
  obtain ⟨⟨rb, b1⟩, b2, b3, b4⟩ := linear_ok hyp
  obtain ⟨la, lb, r, h1, s, h2, h3, h4, h5, _⟩ := dpalign_spec F _ _ ra rb fa fb t0 incl 4000 a1 b1 a2 b2 hua hub
    (by omega) (by omega) (wwd_below F hd _ _ (by omega) (by omega))
  exact ⟨la, lb, r, s, h1, (a3 _).1 h2.1, (b3 _).1 h2.2, (wwd_total F hd _ _).2 h3, h5,
    fun s' c e1 e2 e3 => (wwd_total F hd _ _).1 e3 ▸ h4 s' ⟨(a3 _).2 e1, (b3 _).2 e2⟩⟩

/-- Words for the examples: text and whether it is optionally deletable. -/
def exFuncs : Funcs (Nat × Bool) :=
  ⟨wwd (fun w => w.1 == 0) Prod.snd (fun x y => x.1 == y.1), fun w => w.1 == 0, Prod.snd, fun x y => x.1 == y.1, (99, false)⟩

example : exFuncs.dist = wwd exFuncs.isNull exFuncs.optDel exFuncs.equal := rfl

example : (dpalign exFuncs (linear [(1, false), (2, false), (3, true)]) (linear [(1, false), (4, false)])
    ⟨fun _ => 0, fun _ => false⟩ ⟨fun _ => 0, fun _ => false⟩ (fun _ _ => ⟨7, 7, 7⟩) false).map
      (fun r => (r.2.2.cost, r.2.2.path.map Entry.eval, r.2.2.alloc)) =
    some (6000, [.corr, .sub, .corr], 3) := by decide

/-- C23: deleting an optionally deletable reference word, or inserting an optionally deletable hypothesis word, is never
reported as an error; paired words are reported correct exactly if they are equal. -/
theorem reported_verdicts (F : Funcs W) (incl : Bool) (s : List (Step W)) (e : Entry W)
    (h : e ∈ s.flatMap (reported F incl)) :
    (e.eval = .del → ∃ x, e.a = some x ∧ e.b = none ∧ F.optDel x = false ∧ Step.del x ∈ s) ∧
    (e.eval = .ins → ∃ y, e.a = none ∧ e.b = some y ∧ F.optDel y = false ∧ Step.ins y ∈ s) ∧
    (e.eval = .sub → ∃ x y, e.a = some x ∧ e.b = some y ∧ F.equal x y = false ∧ Step.sub x y ∈ s) ∧
    (e.eval = .corr → (∃ x y, e.a = some x ∧ e.b = some y ∧ F.equal x y = true ∧ Step.sub x y ∈ s) ∨
      (∃ x, e.a = some x ∧ e.b = some F.empty ∧ F.optDel x = true ∧ Step.del x ∈ s) ∨
      (∃ y, e.a = some F.empty ∧ e.b = some y ∧ F.optDel y = true ∧ Step.ins y ∈ s)) := by
  obtain ⟨st, hs, he⟩ := List.mem_flatMap.1 h
  cases st with
  | sub x y =>
    unfold reported at he
    simp only at he
    split at he
    · cases he
    · have := List.mem_singleton.1 he
      subst this
      cases hq : F.equal x y with
      | true => simp only [if_true]; exact ⟨nofun, nofun, nofun, fun _ => Or.inl ⟨x, y, rfl, rfl, hq, hs⟩⟩
      | false =>
        rw [if_neg (by simp)]
        exact ⟨nofun, nofun, fun _ => ⟨x, y, rfl, rfl, hq, hs⟩, nofun⟩
  | del x =>
    unfold reported at he
    simp only at he
    split at he
    · cases he
    · cases hq : F.optDel x with
      | true =>
        rw [if_pos hq] at he
        have := List.mem_singleton.1 he
        subst this
        exact ⟨nofun, nofun, nofun, fun _ => Or.inr (Or.inl ⟨x, rfl, rfl, hq, hs⟩)⟩
      | false =>
        rw [if_neg (by simp [hq])] at he
        have := List.mem_singleton.1 he
        subst this
        exact ⟨fun _ => ⟨x, rfl, rfl, hq, hs⟩, nofun, nofun, nofun⟩
  | ins y =>
    unfold reported at he
    simp only at he
    split at he
    · cases he
    · cases hq : F.optDel y with
      | true =>
        rw [if_pos hq] at he
        have := List.mem_singleton.1 he
        subst this
        exact ⟨nofun, nofun, nofun, fun _ => Or.inr (Or.inr ⟨y, rfl, rfl, hq, hs⟩)⟩
      | false =>
        rw [if_neg (by simp [hq])] at he
        have := List.mem_singleton.1 he
        subst this
        exact ⟨nofun, fun _ => ⟨y, rfl, rfl, hq, hs⟩, nofun, nofun⟩

theorem lefts_append (s t : List (Step W)) : lefts (s ++ t) = lefts s ++ lefts t := by simp [lefts]
theorem rights_append (s t : List (Step W)) : rights (s ++ t) = rights s ++ rights t := by simp [rights]
theorem costOf_append (F : Funcs W) (s t : List (Step W)) : costOf F (s ++ t) = costOf F s + costOf F t := by
  simp [costOf]

/-- C23: with the standard costs a cheapest alignment never pairs a null word with another word. -/
theorem optimum_separates_nulls (F : Funcs W) (hd : F.dist = wwd F.isNull F.optDel F.equal)
    (heq : ∀ x y, F.equal x y = true → F.isNull x = F.isNull y)
    (na nb : Net W) (s : List (Step W)) (ha : Aligns na nb s)
    (hopt : ∀ s', Aligns na nb s' → costOf F s ≤ costOf F s') (x y : W) (hm : Step.sub x y ∈ s) :
    F.isNull x = false ∧ F.isNull y = false := by
  obtain ⟨s1, s2, e⟩ := List.append_of_mem hm
  subst e
  have hal : Aligns na nb (s1 ++ [Step.del x, Step.ins y] ++ s2) := by
    obtain ⟨h1, h2⟩ := ha
    refine ⟨?_, ?_⟩
    · have : lefts (s1 ++ [Step.del x, Step.ins y] ++ s2) = lefts (s1 ++ Step.sub x y :: s2) := by
        simp [lefts]
      rw [this]; exact h1
    · have : rights (s1 ++ [Step.del x, Step.ins y] ++ s2) = rights (s1 ++ Step.sub x y :: s2) := by
        simp [rights]
      rw [this]; exact h2
  have hle := hopt _ hal
  have e1 : costOf F (s1 ++ Step.sub x y :: s2) = costOf F s1 + F.dist (some x) (some y) + costOf F s2 := by
    simp [costOf, Step.cost, Int.add_assoc]
  have e2 : costOf F (s1 ++ [Step.del x, Step.ins y] ++ s2) =
      costOf F s1 + (F.dist (some x) none + F.dist none (some y)) + costOf F s2 := by
    simp [costOf, Step.cost, Int.add_assoc]
  rw [e1, e2, hd] at hle
  unfold wwd at hle
  simp only at hle
  cases hx : F.isNull x with
  | true =>
    cases hy : F.isNull y with
    | true => simp [hx, hy] at hle
    | false =>
      have hne : F.equal x y = false := by
        cases hq : F.equal x y with
        | false => rfl
        | true => have := heq x y hq; rw [hx, hy] at this; cases this
      simp [hx, hy, hne] at hle
      split at hle <;> omega
  | false =>
    cases hy : F.isNull y with
    | true =>
      have hne : F.equal x y = false := by
        cases hq : F.equal x y with
        | false => rfl
        | true => have := heq x y hq; rw [hx, hy] at this; cases this
      simp [hx, hy, hne] at hle
      split at hle <;> omega
    | false => exact ⟨rfl, rfl⟩

/-- C23: with the standard costs, and nulls not asked for, no null word appears anywhere in the reported path: skipping an
optional part of the reference is never counted, neither as an error nor as a correct word. -/
theorem nulls_not_reported (F : Funcs W) (hd : F.dist = wwd F.isNull F.optDel F.equal)
    (heq : ∀ x y, F.equal x y = true → F.isNull x = F.isNull y) (hemp : F.isNull F.empty = false)
    (na nb : Net W) (ra rb : Nat → Nat) (fa fb : Flags) (t0 : Table)
    (hwa : na.WF ra) (hwb : nb.WF rb) (hda : na.Words) (hdb : nb.Words)
    (hua : fa.Uniform na) (hub : fb.Uniform nb) (hsa : na.nArcs < 65534) (hsb : nb.nArcs < 65534) :
    ∃ la lb r, dpalign F na nb fa fb t0 false = some (la, lb, r) ∧
      ∀ e ∈ r.path, ∀ w, (e.a = some w ∨ e.b = some w) → F.isNull w = false := by
  obtain ⟨la, lb, r, s, h1, h2, h3, h4⟩ := network_path_reports_optimum F na nb ra rb fa fb t0 false 4000 hwa hwb hda hdb
    hua hub hsa hsb (wwd_below F hd _ _ hsa hsb)
  refine ⟨la, lb, r, h1, ?_⟩
  intro e he w hw
  rw [h4] at he
  obtain ⟨st, hs, he⟩ := List.mem_flatMap.1 he
  cases st with
  | sub x y =>
    obtain ⟨k1, k2⟩ := optimum_separates_nulls F hd heq na nb s h2 h3 x y hs
    unfold reported at he
    simp only at he
    split at he
    · cases he
    · have := List.mem_singleton.1 he
      subst this
      rcases hw with hw | hw
      · simp only [Option.some.injEq] at hw; subst hw; exact k1
      · simp only [Option.some.injEq] at hw; subst hw; exact k2
  | del x =>
    unfold reported at he
    simp only at he
    split at he
    · cases he
    · rename_i hc
      have k1 : F.isNull x = false := by
        cases hx : F.isNull x with
        | false => rfl
        | true => exact absurd (by simp [hx]) hc
      split at he
      · have := List.mem_singleton.1 he
        subst this
        rcases hw with hw | hw
        · simp only [Option.some.injEq] at hw; subst hw; exact k1
        · simp only [Option.some.injEq] at hw; subst hw; exact hemp
      · have := List.mem_singleton.1 he
        subst this
        rcases hw with hw | hw
        · simp only [Option.some.injEq] at hw; subst hw; exact k1
        · cases hw
  | ins x =>
    unfold reported at he
    simp only at he
    split at he
    · cases he
    · rename_i hc
      have k1 : F.isNull x = false := by
        cases hx : F.isNull x with
        | false => rfl
        | true => exact absurd (by simp [hx]) hc
      split at he
      · have := List.mem_singleton.1 he
        subst this
        rcases hw with hw | hw
        · simp only [Option.some.injEq] at hw; subst hw; exact hemp
        · simp only [Option.some.injEq] at hw; subst hw; exact k1
      · have := List.mem_singleton.1 he
        subst this
        rcases hw with hw | hw
        · cases hw
        · simp only [Option.some.injEq] at hw; subst hw; exact k1

example : (∀ x y, exFuncs.equal x y = true → exFuncs.isNull x = exFuncs.isNull y) ∧
    exFuncs.isNull exFuncs.empty = false := by
  refine ⟨?_, rfl⟩
  intro x y h
  have : x.1 = y.1 := by simpa [exFuncs] using h
  simp [exFuncs, this]

end Verif.Net
