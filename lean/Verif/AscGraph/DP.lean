import Verif.AscGraph.Model
/-! Memoised shortest path over an acyclic predecessor relation: lemmas about `calcCost`,
`bestPrevLoop`. -/
set_option autoImplicit false
namespace Verif.AscGraph

variable (prevs : Coord → List Coord) (trans : Coord → Coord → Int)

/-- Costs of the ways back to a coordinate without predecessors. -/
inductive PathCost : Coord → Int → Prop
  | base (c : Coord) : prevs c = [] → PathCost c 0
  | step (c p : Coord) (v : Int) : p ∈ prevs c → PathCost p v → PathCost c (v + trans c p)

/-- Minimum of `PathCost`. -/
def MinCost (c : Coord) (v : Int) : Prop :=
  PathCost prevs trans c v ∧ ∀ w, PathCost prevs trans c w → v ≤ w

theorem MinCost.unique {c : Coord} {v w : Int} (h : MinCost prevs trans c v)
    (h' : MinCost prevs trans c w) : v = w :=
  Int.le_antisymm (h.2 _ h'.1) (h'.2 _ h.1)

/-- Conditions under which the recursion is well founded and costs are non-negative on `D`. -/
structure DPOK (D : Coord → Prop) (rank : Coord → Nat) : Prop where
  closed : ∀ c p, D c → p ∈ prevs c → D p
  dec : ∀ c p, D c → p ∈ prevs c → rank p < rank c
  nonneg : ∀ c p, D c → p ∈ prevs c → 0 ≤ trans c p

variable {prevs trans}

theorem PathCost.nonneg {D rank} (ok : DPOK prevs trans D rank) {c v}
    (h : PathCost prevs trans c v) : D c → 0 ≤ v := by
  induction h with
  | base c _ => intro _; exact Int.le_refl _
  | step c p v hp _ ih =>
    intro hd
    have := ih (ok.closed c p hd hp)
    have := ok.nonneg c p hd hp
    omega

/-- Table invariant. -/
structure TableOK (prevs : Coord → List Coord) (trans : Coord → Coord → Int) (D : Coord → Prop)
    (m : Table) : Prop where
  dom : ∀ c, m c ≠ -1 → D c
  min : ∀ c, m c ≠ -1 → MinCost prevs trans c (m c)
  closed : ∀ c, m c ≠ -1 → ∀ p ∈ prevs c, m p ≠ -1

/-- `m'` extends `m`. -/
def Extends (m m' : Table) : Prop := ∀ c, m c ≠ -1 → m' c = m c

theorem Extends.refl (m : Table) : Extends m m := fun _ _ => rfl

theorem Extends.trans' {a b c : Table} (h : Extends a b) (h' : Extends b c) : Extends a c :=
  fun x hx => by rw [h' x (by rw [h x hx]; exact hx), h x hx]

theorem tableOK_put {D rank} (ok : DPOK prevs trans D rank) {m : Table}
    (h : TableOK prevs trans D m) {c v} (hd : D c) (hv : MinCost prevs trans c v)
    (hp : ∀ p ∈ prevs c, m p ≠ -1) :
    TableOK prevs trans D (m.put c v) ∧ (m c = -1 → Extends m (m.put c v)) ∧
      m.put c v c = v ∧ m.put c v c ≠ -1 ∧ (∀ p, m p ≠ -1 → m.put c v p ≠ -1) := by
  have hv0 : 0 ≤ v := hv.1.nonneg ok hd
  have hkeep : ∀ p, m p ≠ -1 → m.put c v p ≠ -1 := by
    intro p hp
    unfold Table.put
    split
    · omega
    · exact hp
  refine ⟨⟨?_, ?_, ?_⟩, ?_, ?_, ?_, hkeep⟩
  · intro c' hc'
    unfold Table.put at hc'
    split at hc'
    · rename_i e; subst e; exact hd
    · exact h.dom c' hc'
  · intro c' hc'
    unfold Table.put at hc' ⊢
    split at hc'
    · rename_i e; subst e; simpa using hv
    · rename_i e; simp only [e, if_false]; exact h.min c' hc'
  · intro c' hc' p hpp
    unfold Table.put at hc'
    split at hc'
    · rename_i e; subst e; exact hkeep p (hp p hpp)
    · exact hkeep p (h.closed c' hc' p hpp)
  · intro hm c' hc'
    unfold Table.put
    split
    · rename_i e; subst e; exact absurd hm hc'
    · rfl
  · simp [Table.put]
  · simp [Table.put]; omega

/-- State of the loop over predecessors. -/
def LoopInv (prevs : Coord → List Coord) (trans : Coord → Coord → Int) (c : Coord)
    (done : List Coord) (mc : Int) : Prop :=
  (done = [] ∧ mc = -1) ∨
  ((∃ p ∈ done, ∃ w, MinCost prevs trans p w ∧ mc = w + trans c p) ∧
    ∀ p ∈ done, ∀ w, MinCost prevs trans p w → mc ≤ w + trans c p)

theorem minCost_of_loopInv {c : Coord} {mc : Int}
    (hne : prevs c ≠ []) (hmin : ∀ p ∈ prevs c, ∃ w, MinCost prevs trans p w)
    (h : LoopInv prevs trans c (prevs c) mc) : MinCost prevs trans c mc := by
  rcases h with ⟨h, _⟩ | ⟨⟨p, hp, w, hw, e⟩, hall⟩
  · exact absurd h hne
  · refine ⟨e ▸ .step c p w hp hw.1, ?_⟩
    intro w' hw'
    cases hw' with
    | base _ h => exact absurd h hne
    | step _ q v hq hv =>
      obtain ⟨u, hu⟩ := hmin q hq
      have h1 := hall q hq u hu
      have h2 := hu.2 v hv
      omega

theorem calcLoop_spec {D rank} (ok : DPOK prevs trans D rank) (fuel : Nat)
    (ih : ∀ m c, rank c < fuel → D c → TableOK prevs trans D m →
      ∃ v m', calcCost prevs trans fuel m c = some (v, m') ∧ TableOK prevs trans D m' ∧
        Extends m m' ∧ MinCost prevs trans c v ∧ (∀ p ∈ prevs c, m' p ≠ -1))
    (c : Coord) (hc : D c) (hr : rank c < fuel + 1) :
    ∀ (todo done : List Coord) (m : Table) (mc : Int), done ++ todo = prevs c →
      TableOK prevs trans D m → LoopInv prevs trans c done mc → (∀ p ∈ done, m p ≠ -1) →
      ∃ v m', calcLoop prevs trans fuel m c mc todo = some (v, m') ∧ TableOK prevs trans D m' ∧
        Extends m m' ∧ LoopInv prevs trans c (prevs c) v ∧ (∀ p ∈ prevs c, m' p ≠ -1)
  | [], done, m, mc, he, hm, hl, hd => by
    simp at he
    subst he
    exact ⟨mc, m, by rw [calcLoop], hm, Extends.refl m, hl, hd⟩
  | p :: todo, done, m, mc, he, hm, hl, hd => by
    have hp : p ∈ prevs c := by rw [← he]; simp
    have hDp := ok.closed c p hc hp
    have hrp := ok.dec c p hc hp
    -- the value used for p and the table after it
    have key : ∃ cost m1, calcLoop prevs trans fuel m c mc (p :: todo) =
        calcLoop prevs trans fuel m1 c (if mc = uncalculated then cost + trans c p
          else if cost + trans c p < mc then cost + trans c p else mc) todo ∧ TableOK prevs trans D m1 ∧ Extends m m1 ∧
        MinCost prevs trans p cost ∧ m1 p ≠ -1 := by
      by_cases hmp : m p = uncalculated
      · obtain ⟨v, m', h1, h2, h3, h4, h5⟩ := ih m p (by omega) hDp hm
        obtain ⟨k1, k2, k3, k4, _⟩ := tableOK_put ok h2 hDp h4 h5
        refine ⟨v, _, by rw [calcLoop]; simp only [if_pos hmp, h1], k1, ?_, h4, k4⟩
        by_cases hm'p : m' p = -1
        · exact h3.trans' (k2 hm'p)
        · -- the recursive call had already filled p: same value
          have : m' p = v := MinCost.unique _ _ (h2.min p hm'p) h4
          intro x hx
          unfold Table.put
          split
          · rename_i e; subst e; exact absurd hmp hx
          · exact h3 x hx
      · exact ⟨m p, m, by rw [calcLoop]; simp only [if_neg hmp], hm, Extends.refl m, hm.min p hmp, hmp⟩
    obtain ⟨cost, m1, e1, hm1, hext, hmin, hne⟩ := key
    rw [e1]
    have hc0 := hmin.1.nonneg ok hDp
    have ht0 := ok.nonneg c p hc hp
    have hl' : LoopInv prevs trans c (done ++ [p])
        (if mc = uncalculated then cost + trans c p
          else if cost + trans c p < mc then cost + trans c p else mc) := by
      rcases hl with ⟨hd0, hmc⟩ | ⟨⟨q, hq, w, hw, e⟩, hall⟩
      · subst hd0; subst hmc
        right
        refine ⟨⟨p, by simp, cost, hmin, by simp [uncalculated]⟩, ?_⟩
        intro q hq w hw
        simp at hq; subst hq
        rw [MinCost.unique _ _ hw hmin]
        simp [uncalculated]
      · right
        have hq' : q ∈ prevs c := by rw [← he]; simp [hq]
        have hmc0 : 0 ≤ mc := by
          have := hw.1.nonneg ok (ok.closed c q hc hq')
          have := ok.nonneg c q hc hq'
          omega
        rw [if_neg (by unfold uncalculated; omega)]
        by_cases hlt : cost + trans c p < mc
        · rw [if_pos hlt]
          refine ⟨⟨p, by simp, cost, hmin, rfl⟩, ?_⟩
          intro r hr w' hw'
          rcases List.mem_append.1 hr with hr | hr
          · have := hall r hr w' hw'; omega
          · simp at hr; subst hr; rw [MinCost.unique _ _ hw' hmin]; omega
        · rw [if_neg hlt]
          refine ⟨⟨q, by simp [hq], w, hw, e⟩, ?_⟩
          intro r hr w' hw'
          rcases List.mem_append.1 hr with hr | hr
          · exact hall r hr w' hw'
          · simp at hr; subst hr; rw [MinCost.unique _ _ hw' hmin]; omega
    obtain ⟨v, m', h1, h2, h3, h4, h5⟩ := calcLoop_spec ok fuel ih c hc hr todo (done ++ [p]) m1 _
      (by simpa using he) hm1 hl' (by
        intro q hq
        rcases List.mem_append.1 hq with hq | hq
        · rw [hext q (hd q hq)]; exact hd q hq
        · simp at hq; subst hq; exact hne)
    exact ⟨v, m', h1, h2, hext.trans' h3, h4, h5⟩

theorem calcCost_spec {D rank} (ok : DPOK prevs trans D rank) : ∀ fuel m c, rank c < fuel → D c →
    TableOK prevs trans D m →
    ∃ v m', calcCost prevs trans fuel m c = some (v, m') ∧ TableOK prevs trans D m' ∧
      Extends m m' ∧ MinCost prevs trans c v ∧ (∀ p ∈ prevs c, m' p ≠ -1)
  | 0, _, _, h, _, _ => by omega
  | fuel + 1, m, c, hr, hc, hm => by
    rw [calcCost]
    cases hp : prevs c with
    | nil =>
      refine ⟨0, m, rfl, hm, Extends.refl m, ⟨.base c hp, ?_⟩, by simp⟩
      intro w hw
      exact hw.nonneg ok hc
    | cons p ps =>
      simp only
      obtain ⟨v, m', h1, h2, h3, h4, h5⟩ := calcLoop_spec ok fuel (calcCost_spec ok fuel) c hc hr
        (prevs c) [] m uncalculated (by simp) hm (Or.inl ⟨rfl, rfl⟩) (by simp)
      rw [hp] at h1 h5
      refine ⟨v, m', h1, h2, h3, ?_, h5⟩
      rw [← hp] at h5
      exact minCost_of_loopInv (by simp [hp]) (fun p hp' => ⟨_, h2.min p (h5 p hp')⟩) h4

/-- The traceback step picks a predecessor on a cheapest way. -/
theorem bestPrevLoop_spec (m : Table) (c : Coord) (hnn : ∀ p ∈ prevs c, 0 ≤ m p + trans c p) :
    ∀ (todo done : List Coord) (best : Int) (bp : Option Coord) (two : Bool),
      done ++ todo = prevs c →
      ((done = [] ∧ best = -1 ∧ bp = none) ∨
        ∃ p ∈ done, bp = some p ∧ best = m p + trans c p ∧ ∀ q ∈ done, best ≤ m q + trans c q) →
      (prevs c = [] ∧ bestPrevLoop m trans c best bp two todo = none) ∨
      ∃ p ∈ prevs c, bestPrevLoop m trans c best bp two todo = some p ∧
        ∀ q ∈ prevs c, m p + trans c p ≤ m q + trans c q
  | [], done, best, bp, two, he, hi => by
    simp at he
    subst he
    rw [bestPrevLoop]
    rcases hi with ⟨h1, _, h3⟩ | ⟨p, hp, h1, h2, h3⟩
    · exact Or.inl ⟨h1, h3⟩
    · exact Or.inr ⟨p, hp, h1, fun q hq => h2 ▸ h3 q hq⟩
  | p :: todo, done, best, bp, two, he, hi => by
    have hp : p ∈ prevs c := by rw [← he]; simp
    have hp0 := hnn p hp
    have step : ∀ (best' : Int) (bp' : Option Coord) (two' : Bool),
        (∃ r ∈ done ++ [p], bp' = some r ∧ best' = m r + trans c r ∧
          ∀ q ∈ done ++ [p], best' ≤ m q + trans c q) →
        (prevs c = [] ∧ bestPrevLoop m trans c best' bp' two' todo = none) ∨
        ∃ r ∈ prevs c, bestPrevLoop m trans c best' bp' two' todo = some r ∧
          ∀ q ∈ prevs c, m r + trans c r ≤ m q + trans c q := fun best' bp' two' hs =>
      bestPrevLoop_spec m c hnn todo (done ++ [p]) best' bp' two' (by simpa using he) (Or.inr hs)
    have takeP : (∀ q ∈ done, m p + trans c p ≤ m q + trans c q) →
        ∃ r ∈ done ++ [p], some p = some r ∧ m p + trans c p = m r + trans c r ∧
          ∀ q ∈ done ++ [p], m p + trans c p ≤ m q + trans c q := by
      intro hall
      refine ⟨p, by simp, rfl, rfl, ?_⟩
      intro q hq
      rcases List.mem_append.1 hq with hq | hq
      · exact hall q hq
      · simp at hq; subst hq; exact Int.le_refl _
    rw [bestPrevLoop]
    rcases hi with ⟨h1, h2, h3⟩ | ⟨r, hr, h1, h2, h3⟩
    · subst h1; subst h2
      rw [if_pos rfl]
      exact step _ _ _ (takeP (by simp))
    · have hr' : r ∈ prevs c := by rw [← he]; simp [hr]
      have hr0 := hnn r hr'
      rw [if_neg (by omega)]
      have keep : m p + trans c p ≥ best → ∃ r' ∈ done ++ [p], bp = some r' ∧
          best = m r' + trans c r' ∧ ∀ q ∈ done ++ [p], best ≤ m q + trans c q := by
        intro hge
        refine ⟨r, by simp [hr], h1, h2, ?_⟩
        intro q hq
        rcases List.mem_append.1 hq with hq | hq
        · exact h3 q hq
        · simp at hq; subst hq; exact hge
      split
      · exact step _ _ _ (takeP (fun q hq => by have := h3 q hq; omega))
      · split
        · rename_i hlt heq
          split
          · exact step _ _ _ (takeP (fun q hq => by have := h3 q hq; omega))
          · exact step _ _ _ (keep (by omega))
        · exact step _ _ _ (keep (by omega))

end Verif.AscGraph
