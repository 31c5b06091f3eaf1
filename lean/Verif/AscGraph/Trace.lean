import Verif.AscGraph.Columns
/-! From cheapest paths in the table to alignments and back. -/
set_option autoImplicit false
namespace Verif.AscGraph

/-- `cols` reads every stream from its start up to the token named by `c` and costs `v`. -/
structure Good (g : G) (cols : List Column) (c : Coord) (v : Int) : Prop where
  legal : ∀ col ∈ cols, LegalColumn g.cfg.indexRef g.dim col
  walks : ∀ (i : Nat) (s : Stream), g.streams[i]? = some s → Walk s 0 (proj i cols) (c.getD i 0)
  cost : alignmentCost g cols = v

theorem Walk.snoc {s : Stream} {p : Nat} {l : List Nat} {e i : Nat} (h : Walk s p l e)
    (he : Edge s e i) : Walk s p (l ++ [i]) i := by
  induction h with
  | nil p => exact .cons p i [] i he (.nil i)
  | cons p j l e' hj _ ih => exact .cons p j _ i hj (ih he)

theorem Walk.unsnoc {s : Stream} {i : Nat} : ∀ {l : List Nat} {p e : Nat}, Walk s p (l ++ [i]) e →
    e = i ∧ ∃ q, Walk s p l q ∧ Edge s q i
  | [], p, e, h => by
    cases h with
    | cons _ _ _ _ hj hw =>
      cases hw with
      | nil => exact ⟨rfl, p, .nil p, hj⟩
  | j :: l, p, e, h => by
    cases h with
    | cons _ _ _ _ hj hw =>
      obtain ⟨h1, q, h2, h3⟩ := Walk.unsnoc hw
      exact ⟨h1, q, .cons p j l q hj h2, h3⟩

theorem Walk.end_unique {s : Stream} {p e e' : Nat} {l : List Nat} (h : Walk s p l e)
    (h' : Walk s p l e') : e = e' := by
  induction h with
  | nil p => cases h'; rfl
  | cons p i l e _ _ ih => cases h' with | cons _ _ _ _ _ h2 => exact ih h2

theorem Walk.range {s : Stream} {e : Nat} {l : List Nat} : ∀ {p : Nat}, Walk s p l e → p ≤ s.toks.length →
    e ≤ s.toks.length := by
  induction l with
  | nil => intro p h hp; cases h; exact hp
  | cons i l ih => intro p h _; cases h with | cons _ _ _ _ he hw => exact ih hw he.1.2

theorem Walk.ne_zero {s : Stream} {i : Nat} {l : List Nat} {p e : Nat} (h : Walk s p (i :: l) e) :
    e ≠ 0 := by
  induction l generalizing p i with
  | nil => cases h with | cons _ _ _ _ he hw => cases hw; have := he.1.1; omega
  | cons j l ih => cases h with | cons _ _ _ _ _ hw => exact ih hw

theorem proj_append (i : Nat) (a b : List Column) : proj i (a ++ b) = proj i a ++ proj i b := by
  unfold proj; exact List.filterMap_append

theorem proj_snoc (i : Nat) (a : List Column) (col : Column) :
    proj i (a ++ [col]) = proj i a ++ (match col.getD i none with | none => [] | some k => [k]) := by
  rw [proj_append]
  unfold proj
  cases h : col.getD i none <;> simp only [List.filterMap_cons, h, List.filterMap_nil]

theorem alignmentCost_snoc (g : G) (a : List Column) (col : Column) :
    alignmentCost g (a ++ [col]) = alignmentCost g a + colCost g col := by
  simp [alignmentCost]

theorem good_nil (g : G) (c : Coord) (h : isEnding c = true) : Good g [] c 0 where
  legal := by simp
  walks i s _ := by
    rw [isEnding_iff.1 h i]
    exact .nil 0
  cost := rfl

theorem good_snoc {g : G} {rank : Nat → Nat → Nat} (hw : g.WF rank) {c p : Coord} (hd : Dom g c)
    (hs : Step g c p) {cols : List Column} {v : Int} (h : Good g cols p v) :
    Good g (cols ++ [columnOf c p]) c (v + transCost g c p) where
  legal col hc := by
    rcases List.mem_append.1 hc with hc | hc
    · exact h.legal col hc
    · rw [List.mem_singleton] at hc; subst hc; exact step_legal hw hd hs
  walks i s hsi := by
    obtain ⟨hl, he, _⟩ := step_pointwise hw hd hs
    rw [proj_snoc, columnOf_getD c p i hl]
    by_cases e : c.getD i 0 = p.getD i 0
    · rw [if_pos e, e]; simpa using h.walks i s hsi
    · rw [if_neg e]; exact (h.walks i s hsi).snoc (he i s hsi e)
  cost := by rw [alignmentCost_snoc, h.cost, step_cost hw hd hs]

theorem good_of_pathCost {g : G} {rank : Nat → Nat → Nat} (hw : g.WF rank) {c : Coord} {v : Int}
    (h : PathCost (prevCoords g) (transCost g) c v) : Dom g c → ∃ cols, Good g cols c v := by
  induction h with
  | base c hp =>
    intro hd
    refine ⟨[], good_nil g c ?_⟩
    cases he : isEnding c with
    | true => rfl
    | false =>
      obtain ⟨p, hm⟩ := no_dead_end hw hd he
      rw [hp] at hm; simp at hm
  | step c p v hp _ ih =>
    intro hd
    have hs := ((mem_prevCoords g hw.1 c p).1 hp).2
    obtain ⟨cols, hg⟩ := ih (step_dom hw hd hs)
    exact ⟨_, good_snoc hw hd hs hg⟩

/-- Every move allowed by `validate` in a run of columns (pruning and word optimisation accept it). -/
def coordOf (g : G) (cols : List Column) : Coord :=
  (List.range g.dim).map (fun i => (proj i cols).getLastD 0)

theorem coordOf_getD (g : G) (cols : List Column) (i : Nat) (hi : i < g.dim) :
    (coordOf g cols).getD i 0 = (proj i cols).getLastD 0 := by
  unfold coordOf
  simp [List.getD_eq_getElem?_getD, hi]

theorem coordOf_length (g : G) (cols : List Column) : (coordOf g cols).length = g.dim := by
  simp [coordOf]

theorem Walk.last {s : Stream} {l : List Nat} {e : Nat} (h : Walk s 0 l e) : l.getLastD 0 = e := by
  rcases List.eq_nil_or_concat l with rfl | ⟨l', i, rfl⟩
  · cases h; rfl
  · obtain ⟨h1, _⟩ := Walk.unsnoc (List.concat_eq_append ▸ h)
    rw [h1]; simp

/-- Legal columns whose projections can be read from the start. -/
def Prefix (g : G) (cols : List Column) : Prop :=
  (∀ col ∈ cols, LegalColumn g.cfg.indexRef g.dim col) ∧
  ∀ (i : Nat) (s : Stream), g.streams[i]? = some s → ∃ e, Walk s 0 (proj i cols) e

theorem Prefix.dom {g : G} {cols : List Column} (h : Prefix g cols) : Dom g (coordOf g cols) := by
  refine ⟨coordOf_length g cols, ?_⟩
  intro i s hs
  have hi : i < g.dim := (List.getElem?_eq_some_iff.1 hs).1
  rw [coordOf_getD g cols i hi]
  obtain ⟨e, he⟩ := h.2 i s hs
  rw [he.last]
  exact he.range (Nat.zero_le _)

theorem Prefix.init {g : G} {cols : List Column} {col : Column} (h : Prefix g (cols ++ [col])) :
    Prefix g cols := by
  refine ⟨fun c hc => h.1 c (by simp [hc]), ?_⟩
  intro i s hs
  obtain ⟨e, he⟩ := h.2 i s hs
  rw [proj_snoc] at he
  cases hk : col.getD i none with
  | none => rw [hk] at he; exact ⟨e, by simpa using he⟩
  | some k =>
    rw [hk] at he
    obtain ⟨_, q, hq, _⟩ := Walk.unsnoc he
    exact ⟨q, hq⟩

theorem coordOf_snoc_getD (g : G) (cols : List Column) (col : Column) (i : Nat) (hi : i < g.dim) :
    (coordOf g (cols ++ [col])).getD i 0 =
      match col.getD i none with | none => (coordOf g cols).getD i 0 | some k => k := by
  rw [coordOf_getD g _ i hi, coordOf_getD g _ i hi, proj_snoc]
  cases col.getD i none <;> simp

theorem coord_ext {c p : Coord} (hl : c.length = p.length) (h : ∀ i < c.length, c.getD i 0 = p.getD i 0) :
    c = p := by
  apply List.ext_getElem hl
  intro i h1 h2
  have := h i h1
  simpa [List.getD_eq_getElem?_getD, h1, h2] using this

theorem mem_occupied {col : Column} {i : Nat} : i ∈ occupied col ↔ ∃ k, col.getD i none = some k := by
  unfold occupied
  rw [List.mem_filter, List.mem_range, Option.isSome_iff_exists]
  constructor
  · exact fun h => h.2
  · rintro ⟨k, hk⟩
    refine ⟨?_, k, hk⟩
    rcases Nat.lt_or_ge i col.length with h | h
    · exact h
    · simp [List.getD_eq_getElem?_getD, List.getElem?_eq_none h] at hk

theorem prefix_step {g : G} {rank : Nat → Nat → Nat} (hw : g.WF rank) {cols : List Column} {col : Column}
    (h : Prefix g (cols ++ [col])) :
    Step g (coordOf g (cols ++ [col])) (coordOf g cols) ∧
      columnOf (coordOf g (cols ++ [col])) (coordOf g cols) = col := by
  have hir := hw.1
  have hd := h.dom
  have hp := h.init
  have hlegal := h.1 col (by simp)
  -- an occupied stream moves along an edge
  have hocc : ∀ i k, i < g.dim → col.getD i none = some k →
      (coordOf g (cols ++ [col])).getD i 0 = k ∧ k ≠ 0 ∧
      (coordOf g cols).getD i 0 ∈ g.prevIdx i k ∧ (coordOf g cols).getD i 0 ≠ k := by
    intro i k hi hk
    obtain ⟨s, hs⟩ := stream_of_lt g hi
    have e1 : (coordOf g (cols ++ [col])).getD i 0 = k := by
      rw [coordOf_snoc_getD g cols col i hi, hk]
    obtain ⟨e, he⟩ := h.2 i s hs
    rw [proj_snoc, hk] at he
    obtain ⟨_, q, hq, hedge⟩ := Walk.unsnoc he
    have e2 : (coordOf g cols).getD i 0 = q := by rw [coordOf_getD g cols i hi, hq.last]
    refine ⟨e1, by have := hedge.1.1; omega, ?_, ?_⟩
    · rw [prevIdx_eq hs, e2]
      exact (mem_prevIndexes (hw.2 i s hs) hedge.1.1 hedge.1.2).2 hedge
    · rw [e2]; exact (edge_facts (hw.2 i s hs) hedge).2.1
  have hun : ∀ i, i < g.dim → col.getD i none = none →
      (coordOf g (cols ++ [col])).getD i 0 = (coordOf g cols).getD i 0 := by
    intro i hi hk
    rw [coordOf_snoc_getD g cols col i hi, hk]
  have hl : (coordOf g cols).length = (coordOf g (cols ++ [col])).length := by
    rw [coordOf_length, coordOf_length]
  refine ⟨?_, ?_⟩
  · obtain ⟨hlen, ⟨i, ho⟩ | ⟨j, i, ho, hj, hri⟩⟩ := hlegal
    · have hi : i < g.dim := by
        have : i ∈ occupied col := by rw [ho]; simp
        have := (List.mem_filter.1 this).1
        rw [List.mem_range] at this; omega
      obtain ⟨k, hk⟩ := mem_occupied.1 (by rw [ho]; simp : i ∈ occupied col)
      obtain ⟨a, b, c, d⟩ := hocc i k hi hk
      have e : coordOf g cols = (coordOf g (cols ++ [col])).set i ((coordOf g cols).getD i 0) := by
        apply coord_ext (by simp [coordOf_length])
        intro x hx
        rw [coordOf_length] at hx
        rw [getD_set, coordOf_length]
        by_cases ex : i = x
        · subst ex; rw [if_pos ⟨rfl, hi⟩]
        · rw [if_neg (fun h => ex h.1)]
          symm; apply hun x hx
          cases hx' : col.getD x none with
          | none => rfl
          | some k' =>
            have := mem_occupied.2 ⟨k', hx'⟩
            rw [ho, List.mem_singleton] at this
            exact absurd this.symm ex
      rw [e]
      exact .single i _ hi (by rw [a]; exact b) (by rw [a]; exact c)
    · have hi : i < g.dim := by
        have : i ∈ occupied col := by rw [ho]; simp
        have := (List.mem_filter.1 this).1
        rw [List.mem_range] at this; omega
      obtain ⟨k, hk⟩ := mem_occupied.1 (by rw [ho]; simp : i ∈ occupied col)
      obtain ⟨k', hk'⟩ := mem_occupied.1 (by rw [ho]; simp : j ∈ occupied col)
      obtain ⟨a, b, c, d⟩ := hocc i k hi hk
      obtain ⟨a', b', c', d'⟩ := hocc j k' (by omega) hk'
      have e : coordOf g cols = ((coordOf g (cols ++ [col])).set i ((coordOf g cols).getD i 0)).set j
          ((coordOf g cols).getD j 0) := by
        apply coord_ext (by simp [coordOf_length])
        intro x hx
        rw [coordOf_length] at hx
        rw [getD_set, getD_set, List.length_set, coordOf_length]
        by_cases ex : j = x
        · subst ex; rw [if_pos ⟨rfl, hx⟩]
        · rw [if_neg (fun h : j = x ∧ _ => ex h.1)]
          by_cases ex' : i = x
          · subst ex'; rw [if_pos ⟨rfl, hi⟩]
          · rw [if_neg (fun h : i = x ∧ _ => ex' h.1)]
            symm; apply hun x hx
            cases hx' : col.getD x none with
            | none => rfl
            | some k' =>
              have := mem_occupied.2 ⟨k', hx'⟩
              rw [ho] at this
              simp at this
              rcases this with h | h
              · exact absurd h.symm ex
              · exact absurd h.symm ex'
      rw [e]
      exact .pair j i _ _ hj hri hi (by rw [a']; exact b') (by rw [a]; exact b) (by rw [a']; exact c')
        (by rw [a]; exact c)
  · apply List.ext_getElem
    · rw [columnOf_length _ _ hl, coordOf_length, hlegal.1]
    · intro i h1 h2
      have hi : i < g.dim := by rw [hlegal.1] at h2; exact h2
      have hc := columnOf_getD (coordOf g (cols ++ [col])) (coordOf g cols) i hl
      have e1 : (columnOf (coordOf g (cols ++ [col])) (coordOf g cols)).getD i none =
          (columnOf (coordOf g (cols ++ [col])) (coordOf g cols))[i] := by
        simp [List.getD_eq_getElem?_getD, h1]
      have e2 : col.getD i none = col[i] := by simp [List.getD_eq_getElem?_getD, h2]
      rw [← e1, ← e2, hc]
      cases hk : col.getD i none with
      | none => rw [if_pos (hun i hi hk)]
      | some k =>
        obtain ⟨a, _, _, d⟩ := hocc i k hi hk
        rw [a, if_neg (fun e => d e.symm)]

/-- Every step of the columns is accepted by the pruning and word-optimisation tests. -/
inductive Accepted (g : G) : List Column → Prop
  | nil : Accepted g []
  | snoc (cols : List Column) (col : Column) : Accepted g cols →
      validate g (coordOf g (cols ++ [col])) (coordOf g cols) = true → Accepted g (cols ++ [col])

theorem pathCost_of_prefix {g : G} {rank : Nat → Nat → Nat} (hw : g.WF rank) {cols : List Column}
    (ha : Accepted g cols) : Prefix g cols →
    PathCost (prevCoords g) (transCost g) (coordOf g cols) (alignmentCost g cols) := by
  induction ha with
  | nil =>
    intro _
    apply PathCost.base
    have : isEnding (coordOf g []) = true := by
      rw [isEnding_iff]
      intro i
      rcases Nat.lt_or_ge i g.dim with hi | hi
      · rw [coordOf_getD g _ i hi]; rfl
      · have := coordOf_length g []
        simp [List.getD_eq_getElem?_getD, List.getElem?_eq_none (by omega : (coordOf g []).length ≤ i)]
    unfold prevCoords
    rw [if_pos this]
  | snoc cols col _ hv ih =>
    intro hp
    obtain ⟨hs, hc⟩ := prefix_step hw hp
    have hcost := step_cost hw hp.dom hs
    rw [hc] at hcost
    rw [alignmentCost_snoc, ← hcost]
    exact .step _ _ _ ((mem_prevCoords g hw.1 _ _).2 ⟨hv, hs⟩) (ih hp.init)

theorem accepted_of_off {g : G} (h1 : g.cfg.prune = false) (h2 : g.cfg.word = false)
    (cols : List Column) : Accepted g cols := by
  have : ∀ n (cols : List Column), cols.length = n → Accepted g cols := by
    intro n
    induction n with
    | zero => intro cols h; rw [List.length_eq_zero_iff.1 h]; exact .nil
    | succ n ih =>
      intro cols h
      rcases List.eq_nil_or_concat cols with rfl | ⟨l, c, rfl⟩
      · simp at h
      · rw [List.concat_eq_append]
        refine .snoc l c (ih l (by simpa using h)) ?_
        unfold validate
        rw [if_pos (by simp [h1, h2])]
  exact this _ cols rfl

/-! ### starting coordinates -/

/-- Pointwise membership. -/
def PickedFrom : List (List Nat) → Coord → Prop
  | [], [] => True
  | xs :: rest, k :: ks => k ∈ xs ∧ PickedFrom rest ks
  | _, _ => False

theorem mem_choices : ∀ (ls : List (List Nat)) (c : Coord), c ∈ choices ls ↔ PickedFrom ls c
  | [], [] => by simp [choices, PickedFrom]
  | [], _ :: _ => by simp [choices, PickedFrom]
  | xs :: rest, [] => by simp [choices, PickedFrom]
  | xs :: rest, k :: ks => by
    simp only [choices, List.mem_flatMap, List.mem_map, PickedFrom]
    rw [← mem_choices rest ks]
    constructor
    · rintro ⟨x, hx, t, ht, he⟩
      injection he with e1 e2
      subst e1; subst e2
      exact ⟨hx, ht⟩
    · rintro ⟨h1, h2⟩
      exact ⟨k, h1, ks, h2, rfl⟩

theorem pickedFrom_iff : ∀ (ls : List (List Nat)) (c : Coord), PickedFrom ls c ↔
    c.length = ls.length ∧ ∀ (i : Nat) (xs : List Nat), ls[i]? = some xs → c.getD i 0 ∈ xs
  | [], [] => by simp [PickedFrom]
  | [], _ :: _ => by simp [PickedFrom]
  | _ :: _, [] => by simp [PickedFrom]
  | xs :: rest, k :: ks => by
    rw [PickedFrom, pickedFrom_iff rest ks]
    constructor
    · rintro ⟨h1, h2, h3⟩
      refine ⟨by simp [h2], ?_⟩
      intro i ys hi
      cases i with
      | zero => simp at hi; subst hi; simpa using h1
      | succ i => simp at hi; simpa using h3 i ys hi
    · rintro ⟨h1, h2⟩
      refine ⟨by simpa using h2 0 xs (by simp), by simpa using h1, ?_⟩
      intro i ys hi
      simpa using h2 (i + 1) ys (by simpa using hi)

theorem mem_startingCoords (g : G) (c : Coord) : c ∈ startingCoords g ↔
    c.length = g.dim ∧ ∀ (i : Nat) (s : Stream), g.streams[i]? = some s →
      (c.getD i 0 ∈ s.lasts ∨ (s.lasts = [] ∧ c.getD i 0 = 0)) := by
  unfold startingCoords
  rw [mem_choices, pickedFrom_iff, List.length_map]
  unfold G.dim
  apply and_congr_right
  intro _
  constructor
  · intro h i s hs
    have := h i (if s.lasts = [] then [0] else s.lasts) (by simp [hs])
    split at this
    · rename_i e; exact Or.inr ⟨e, by simpa using this⟩
    · exact Or.inl this
  · intro h i xs hxs
    rw [List.getElem?_map] at hxs
    obtain ⟨s, hs, rfl⟩ := Option.map_eq_some_iff.1 hxs
    rcases h i s hs with h | ⟨h1, h2⟩
    · rw [if_neg (by intro e; rw [e] at h; simp at h)]; exact h
    · rw [if_pos h1, h2]; simp

theorem choices_ne_nil : ∀ (ls : List (List Nat)), (∀ xs ∈ ls, xs ≠ []) → choices ls ≠ []
  | [], _ => by simp [choices]
  | xs :: rest, h => by
    have h1 := choices_ne_nil rest (fun ys hy => h ys (by simp [hy]))
    have h2 := h xs (by simp)
    intro e
    rw [choices, List.flatMap_eq_nil_iff] at e
    cases xs with
    | nil => exact h2 rfl
    | cons x xs =>
      have := e x (by simp)
      rw [List.map_eq_nil_iff] at this
      exact h1 this

theorem startingCoords_ne_nil (g : G) : startingCoords g ≠ [] := by
  apply choices_ne_nil
  intro xs hx
  obtain ⟨s, _, rfl⟩ := List.mem_map.1 hx
  split
  · simp
  · assumption

theorem start_dom {g : G} {rank : Nat → Nat → Nat} (hw : g.WF rank) {c : Coord}
    (h : c ∈ startingCoords g) : Dom g c := by
  obtain ⟨h1, h2⟩ := (mem_startingCoords g c).1 h
  refine ⟨h1, fun i s hs => ?_⟩
  rcases h2 i s hs with h | ⟨_, h⟩
  · exact ((hw.2 i s hs).lasts_range _ h).2
  · omega

/-! ### filling the table, choosing the best start, tracing back -/

theorem fillGraph_spec {g : G} {rank : Nat → Nat → Nat} (hw : g.WF rank) (hc : g.CostsOK) (fuel : Nat) :
    ∀ (cs : List Coord) (m : Table), (∀ c ∈ cs, Dom g c ∧ rankFrom rank 0 c < fuel) →
      TableOK (prevCoords g) (transCost g) (Dom g) m →
      ∃ m', fillGraph g fuel m cs = some m' ∧ TableOK (prevCoords g) (transCost g) (Dom g) m' ∧
        Extends m m' ∧ ∀ c ∈ cs, m' c ≠ -1
  | [], m, _, hm => ⟨m, by rw [fillGraph], hm, Extends.refl m, by simp⟩
  | c :: cs, m, h, hm => by
    rw [fillGraph]
    have ok := dpok hw hc
    obtain ⟨hd, hr⟩ := h c (by simp)
    by_cases e : m c = uncalculated
    · rw [if_pos e]
      obtain ⟨v, m1, h1, h2, h3, h4, h5⟩ := calcCost_spec ok fuel m c hr hd hm
      rw [h1]
      obtain ⟨k1, k2, k3, k4, k5⟩ := tableOK_put ok h2 hd h4 h5
      obtain ⟨m', a1, a2, a3, a4⟩ := fillGraph_spec hw hc fuel cs (m1.put c v)
        (fun x hx => h x (by simp [hx])) k1
      refine ⟨m', a1, a2, ?_, ?_⟩
      · intro x hx
        have hx1 : m1 x = m x := h3 x hx
        have hxc : x ≠ c := fun e' => by subst e'; exact hx e
        have : m1.put c v x = m x := by unfold Table.put; rw [if_neg hxc, hx1]
        rw [a3 x (by rw [this]; exact hx), this]
      · intro x hx
        rcases List.mem_cons.1 hx with rfl | hx
        · rw [a3 x k4]; exact k4
        · exact a4 x hx
    · rw [if_neg e]
      obtain ⟨m', a1, a2, a3, a4⟩ := fillGraph_spec hw hc fuel cs m (fun x hx => h x (by simp [hx])) hm
      refine ⟨m', a1, a2, a3, ?_⟩
      intro x hx
      rcases List.mem_cons.1 hx with rfl | hx
      · rw [a3 x e]; exact e
      · exact a4 x hx

theorem best_spec (m : Table) : ∀ (cs done : List Coord) (best : Int) (cur : Option Coord),
    (∀ c ∈ done ++ cs, 0 ≤ m c) →
    ((done = [] ∧ best = -1 ∧ cur = none) ∨
      ∃ c ∈ done, cur = some c ∧ best = m c ∧ ∀ q ∈ done, best ≤ m q) →
    (done ++ cs = []) ∨ ∃ c ∈ done ++ cs, bestStart m best cur cs = some c ∧ bestCost m best cs = m c ∧
      ∀ q ∈ done ++ cs, m c ≤ m q
  | [], done, best, cur, _, hi => by
    rcases hi with ⟨h, _, _⟩ | ⟨c, hc, h1, h2, h3⟩
    · exact Or.inl (by simp [h])
    · right
      refine ⟨c, by simp [hc], by rw [bestStart]; exact h1, by rw [bestCost]; exact h2, ?_⟩
      intro q hq
      rw [← h2]; exact h3 q (by simpa using hq)
  | c :: cs, done, best, cur, hnn, hi => by
    have hc0 := hnn c (by simp)
    have e : (done ++ [c]) ++ cs = done ++ c :: cs := by simp
    rw [bestStart, bestCost, ← e]
    rcases hi with ⟨h1, h2, h3⟩ | ⟨r, hr, h1, h2, h3⟩
    · rw [if_pos h2, if_pos h2]
      apply best_spec m cs (done ++ [c]) _ _ (by rw [e]; exact hnn)
      right
      exact ⟨c, by simp, rfl, rfl, by subst h1; simp⟩
    · have hr0 := hnn r (by simp [hr])
      have hb : ¬ best = -1 := by omega
      rw [if_neg hb, if_neg hb]
      by_cases hlt : m c < best
      · rw [if_pos hlt, if_pos hlt]
        apply best_spec m cs (done ++ [c]) _ _ (by rw [e]; exact hnn)
        right
        refine ⟨c, by simp, rfl, rfl, ?_⟩
        intro q hq
        rcases List.mem_append.1 hq with hq | hq
        · have := h3 q hq; omega
        · rw [List.mem_singleton] at hq; subst hq; exact Int.le_refl _
      · rw [if_neg hlt, if_neg hlt]
        apply best_spec m cs (done ++ [c]) _ _ (by rw [e]; exact hnn)
        right
        refine ⟨r, by simp [hr], h1, h2, ?_⟩
        intro q hq
        rcases List.mem_append.1 hq with hq | hq
        · exact h3 q hq
        · rw [List.mem_singleton] at hq; subst hq; omega

theorem table_ge {g : G} {m : Table}
    (hm : TableOK (prevCoords g) (transCost g) (Dom g) m) {c p : Coord} (hcm : m c ≠ -1)
    (hp : p ∈ prevCoords g c) : m c ≤ m p + transCost g c p :=
  (hm.min c hcm).2 _ (.step c p _ hp (hm.min p (hm.closed c hcm p hp)).1)

theorem traceLoop_spec {g : G} {rank : Nat → Nat → Nat} (hw : g.WF rank) (hc : g.CostsOK) {m : Table}
    (hm : TableOK (prevCoords g) (transCost g) (Dom g) m) :
    ∀ (fuel : Nat) (c : Coord) (acc : List Column), rankFrom rank 0 c < fuel → m c ≠ -1 →
      ∃ rest, traceLoop g m fuel c acc = some (acc ++ rest) ∧ Good g rest.reverse c (m c)
  | 0, _, _, h, _ => by omega
  | fuel + 1, c, acc, hr, hcm => by
    have ok := dpok hw hc
    have hd := hm.dom c hcm
    rw [traceLoop]
    cases he : isEnding c with
    | true =>
      have hbp : bestPrev g m c = none := by unfold bestPrev; rw [if_pos he]
      rw [hbp]
      refine ⟨[], by simp, ?_⟩
      have hp : prevCoords g c = [] := by unfold prevCoords; rw [if_pos he]
      have h0 : m c = 0 := MinCost.unique _ _ (hm.min c hcm)
        ⟨.base c hp, fun w hw' => hw'.nonneg ok hd⟩
      rw [h0]
      exact good_nil g c he
    | false =>
      have hnn : ∀ p ∈ prevCoords g c, 0 ≤ m p + transCost g c p := by
        intro p hp
        have h1 := (hm.min p (hm.closed c hcm p hp)).1.nonneg ok (ok.closed c p hd hp)
        have h2 := ok.nonneg c p hd hp
        omega
      have hbp : bestPrev g m c = bestPrevLoop m (transCost g) c (-1) none false (prevCoords g c) := by
        unfold bestPrev; rw [if_neg (by simp [he])]
      rcases bestPrevLoop_spec (prevs := prevCoords g) m c hnn (prevCoords g c) [] (-1) none false
        (by simp) (Or.inl ⟨rfl, rfl, rfl⟩) with ⟨h, _⟩ | ⟨p, hp, hpb, hmin⟩
      · obtain ⟨p, hp⟩ := no_dead_end hw hd he
        rw [h] at hp; simp at hp
      · rw [hbp, hpb]
        have hs := ((mem_prevCoords g hw.1 c p).1 hp).2
        have hpm := hm.closed c hcm p hp
        obtain ⟨rest, h1, h2⟩ := traceLoop_spec hw hc hm fuel p (acc ++ [columnOf c p])
          (by have := ok.dec c p hd hp; omega) hpm
        refine ⟨columnOf c p :: rest, by simp only [h1]; simp, ?_⟩
        rw [List.reverse_cons]
        have hg := good_snoc hw hd hs h2
        have hcost : m c = m p + transCost g c p := by
          apply Int.le_antisymm (table_ge hm hcm hp)
          have hmc := (hm.min c hcm).1
          cases hmc' : prevCoords g c with
          | nil => rw [hmc'] at hp; simp at hp
          | cons _ _ =>
            generalize hv : m c = v at hmc
            cases hmc with
            | base _ h => rw [hmc'] at h; simp at h
            | step _ q w hq hqw =>
              have h3 := hmin q hq
              have h4 := (hm.min q (hm.closed c hcm q hq)).2 w hqw
              omega
        rw [hcost]; exact hg

theorem good_complete {g : G} {cols : List Column} {c : Coord} {v : Int} (h : Good g cols c v)
    (hc : c ∈ startingCoords g) : IsAlignment g cols ∧ alignmentCost g cols = v := by
  refine ⟨⟨h.legal, fun i s hs => ⟨_, h.walks i s hs, ?_⟩⟩, h.cost⟩
  rcases ((mem_startingCoords g c).1 hc).2 i s hs with h1 | ⟨h1, h2⟩
  · exact Or.inl h1
  · refine Or.inr ⟨h1, ?_⟩
    have hwk := h.walks i s hs
    rw [h2] at hwk
    cases hp : proj i cols with
    | nil => rfl
    | cons a l => rw [hp] at hwk; exact absurd rfl hwk.ne_zero

theorem alignment_start {g : G} {cols : List Column} (h : IsAlignment g cols) :
    Prefix g cols ∧ coordOf g cols ∈ startingCoords g := by
  refine ⟨⟨h.1, fun i s hs => ?_⟩, (mem_startingCoords g _).2 ⟨coordOf_length g cols, fun i s hs => ?_⟩⟩
  · obtain ⟨e, he, _⟩ := h.2 i s hs; exact ⟨e, he⟩
  · obtain ⟨e, he, hl⟩ := h.2 i s hs
    have hi : i < g.dim := (List.getElem?_eq_some_iff.1 hs).1
    rw [coordOf_getD g cols i hi, he.last]
    rcases hl with hl | ⟨h1, h2⟩
    · exact Or.inl hl
    · rw [h2] at he; cases he; exact Or.inr ⟨h1, rfl⟩

end Verif.AscGraph
