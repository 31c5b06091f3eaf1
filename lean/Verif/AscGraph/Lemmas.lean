import Verif.AscGraph.Spec
import Verif.AscGraph.DP
/-! Lemmas connecting coordinates, columns and token graphs. -/
set_option autoImplicit false
namespace Verif.AscGraph

/-! ### previous indexes -/

theorem loop_acc (s : Stream) (i : Nat) : ∀ (fs : List Nat) (z : Bool) (acc : List Nat) (p : Nat),
    p ∈ acc → p ∈ prevIndexesLoop s i fs z acc
  | [], _, _, _, h => by rw [prevIndexesLoop]; exact h
  | f :: fs, z, acc, p, h => by
    rw [prevIndexesLoop]
    split
    · exact loop_acc s i fs _ _ p (by simp [h])
    · split
      · exact loop_acc s i fs _ _ p (by simp [h])
      · exact loop_acc s i fs _ _ p (by simp [h])

theorem loop_zero (s : Stream) (i : Nat) : ∀ (fs : List Nat) (acc : List Nat), i ∈ fs →
    0 ∈ prevIndexesLoop s i fs false acc
  | [], _, h => by simp at h
  | f :: fs, acc, h => by
    rw [prevIndexesLoop]
    by_cases e : f = i
    · rw [if_pos ⟨e, rfl⟩]
      exact loop_acc s i fs _ _ 0 (by simp)
    · rw [if_neg (fun h => e h.1)]
      have hi : i ∈ fs := by
        rcases List.mem_cons.1 h with h | h
        · exact absurd h.symm e
        · exact h
      split
      · exact loop_zero s i fs _ hi
      · exact loop_zero s i fs _ hi

theorem loop_precs (s : Stream) (i p : Nat) (hp : p ∈ s.precs i) : ∀ (fs : List Nat) (z : Bool)
    (acc : List Nat), (∃ f ∈ fs, f ≠ i) → p ∈ prevIndexesLoop s i fs z acc
  | [], _, _, h => by obtain ⟨f, h, _⟩ := h; simp at h
  | f :: fs, z, acc, h => by
    rw [prevIndexesLoop]
    split
    · rename_i hc
      obtain ⟨g, hg, hne⟩ := h
      rcases List.mem_cons.1 hg with rfl | hg
      · exact absurd hc.1 hne
      · exact loop_precs s i p hp fs _ _ ⟨g, hg, hne⟩
    · split
      · rename_i hn; rw [hn] at hp; simp at hp
      · rename_i q qs hn
        apply loop_acc
        rw [hn] at hp
        apply List.mem_append_left
        exact List.mem_reverse.2 hp

theorem loop_only (s : Stream) (i : Nat) : ∀ (fs : List Nat) (z : Bool) (acc : List Nat) (p : Nat),
    p ∈ prevIndexesLoop s i fs z acc →
    p ∈ acc ∨ (p = 0 ∧ (i ∈ fs ∨ s.precs i = [])) ∨ p ∈ s.precs i
  | [], _, _, _, h => by rw [prevIndexesLoop] at h; exact Or.inl h
  | f :: fs, z, acc, p, h => by
    have lift : (p = 0 ∧ (i ∈ fs ∨ s.precs i = [])) → (p = 0 ∧ (i ∈ f :: fs ∨ s.precs i = [])) :=
      fun ⟨a, b⟩ => ⟨a, b.imp (fun h => by simp [h]) id⟩
    rw [prevIndexesLoop] at h
    split at h
    · rename_i hc
      rcases loop_only s i fs _ _ p h with h | h | h
      · rcases List.mem_cons.1 h with h | h
        · exact Or.inr (Or.inl ⟨h, Or.inl (by simp [hc.1])⟩)
        · exact Or.inl h
      · exact Or.inr (Or.inl (lift h))
      · exact Or.inr (Or.inr h)
    · split at h
      · rename_i hn
        rcases loop_only s i fs _ _ p h with h | h | h
        · rcases List.mem_cons.1 h with h | h
          · exact Or.inr (Or.inl ⟨h, Or.inr hn⟩)
          · exact Or.inl h
        · exact Or.inr (Or.inl (lift h))
        · exact Or.inr (Or.inr h)
      · rename_i q qs hn
        rcases loop_only s i fs _ _ p h with h | h | h
        · rcases List.mem_append.1 h with h | h
          · exact Or.inr (Or.inr (by rw [hn]; exact List.mem_reverse.1 h))
          · exact Or.inl h
        · exact Or.inr (Or.inl (lift h))
        · exact Or.inr (Or.inr h)

theorem Stream.WF.source {s : Stream} {rank : Nat → Nat} (h : s.WF rank) : ∀ (n i : Nat), rank i ≤ n →
    1 ≤ i → i ≤ s.toks.length → i ∈ s.firsts ∧ s.precs i = [] ∨ ∃ f ∈ s.firsts, rank f < rank i
  | n, i, hn, h1, h2 => by
    cases hp : s.precs i with
    | nil => exact Or.inl ⟨h.sources i h1 h2 hp, rfl⟩
    | cons p ps =>
      right
      have hpm : p ∈ s.precs i := by rw [hp]; simp
      have hr := h.acyclic i h1 h2 p hpm
      obtain ⟨q1, q2⟩ := h.precs_range i h1 h2 p hpm
      cases n with
      | zero => omega
      | succ n =>
        rcases Stream.WF.source h n p (by omega) q1 q2 with ⟨hf, _⟩ | ⟨f, hf, hlt⟩
        · exact ⟨p, hf, hr⟩
        · exact ⟨f, hf, by omega⟩

/-- Under well-formedness, the previous indexes of a token are exactly its legal predecessors. -/
theorem mem_prevIndexes {s : Stream} {rank : Nat → Nat} (h : s.WF rank) {i p : Nat} (h1 : 1 ≤ i)
    (h2 : i ≤ s.toks.length) : p ∈ prevIndexes s i ↔ Edge s p i := by
  unfold prevIndexes
  rw [if_neg (by omega)]
  constructor
  · intro hp
    refine ⟨⟨h1, h2⟩, ?_⟩
    rcases loop_only s i _ _ _ p hp with hp | ⟨h0, hf⟩ | hp
    · simp at hp
    · rcases hf with hf | hf
      · exact Or.inl ⟨h0, hf⟩
      · exact Or.inl ⟨h0, h.sources i h1 h2 hf⟩
    · exact Or.inr hp
  · rintro ⟨_, ⟨h0, hf⟩ | hp⟩
    · subst h0; exact loop_zero s i _ _ hf
    · apply loop_precs s i p hp
      rcases h.source (rank i) i (Nat.le_refl _) h1 h2 with ⟨_, hn⟩ | ⟨f, hf, hlt⟩
      · rw [hn] at hp; simp at hp
      · exact ⟨f, hf, fun e => by subst e; omega⟩

theorem prevIndexes_ne_nil {s : Stream} {rank : Nat → Nat} (h : s.WF rank) {i : Nat} (h1 : 1 ≤ i)
    (h2 : i ≤ s.toks.length) : ∃ p, p ∈ prevIndexes s i := by
  cases hp : s.precs i with
  | nil => exact ⟨0, (mem_prevIndexes h h1 h2).2 ⟨⟨h1, h2⟩, Or.inl ⟨rfl, h.sources i h1 h2 hp⟩⟩⟩
  | cons p ps => exact ⟨p, (mem_prevIndexes h h1 h2).2 ⟨⟨h1, h2⟩, Or.inr (by rw [hp]; simp)⟩⟩

/-! ### domain and rank of coordinates -/

/-- Rank of an index, 0 for the start. -/
def rk (rank : Nat → Nat → Nat) (i k : Nat) : Nat := if k = 0 then 0 else rank i k + 1

/-- Sum of the ranks. -/
def rankFrom (rank : Nat → Nat → Nat) : Nat → Coord → Nat
  | _, [] => 0
  | i, k :: ks => rk rank i k + rankFrom rank (i + 1) ks

theorem rankFrom_set (rank : Nat → Nat → Nat) : ∀ (c : Coord) (i0 i l : Nat), i < c.length →
    rankFrom rank i0 (c.set i l) + rk rank (i0 + i) (c.getD i 0) =
      rankFrom rank i0 c + rk rank (i0 + i) l
  | [], _, _, _, h => by simp at h
  | k :: ks, i0, 0, l, _ => by simp [rankFrom]; omega
  | k :: ks, i0, i + 1, l, h => by
    have := rankFrom_set rank ks (i0 + 1) i l (by simpa using h)
    simp only [List.set_cons_succ, rankFrom, List.getD_cons_succ]
    have e : i0 + (i + 1) = i0 + 1 + i := by omega
    rw [e]; omega

theorem stream_of_lt (g : G) {i : Nat} (h : i < g.dim) : ∃ s, g.streams[i]? = some s :=
  ⟨g.streams[i], List.getElem?_eq_getElem h⟩

theorem prevIdx_eq {g : G} {i : Nat} {s : Stream} (h : g.streams[i]? = some s) (k : Nat) :
    g.prevIdx i k = prevIndexes s k := by
  unfold G.prevIdx; rw [h]

/-- A legal predecessor index: smaller rank, in range, different. -/
theorem edge_facts {s : Stream} {rank : Nat → Nat} (h : s.WF rank) {p i : Nat} (e : Edge s p i) :
    p ≤ s.toks.length ∧ p ≠ i ∧ (p = 0 ∨ rank p < rank i) := by
  obtain ⟨⟨h1, h2⟩, ⟨h0, _⟩ | hp⟩ := e
  · exact ⟨by omega, by omega, Or.inl h0⟩
  · have := h.acyclic i h1 h2 p hp
    obtain ⟨_, q⟩ := h.precs_range i h1 h2 p hp
    exact ⟨q, fun e => by subst e; omega, Or.inr this⟩

/-! ### predecessors of a coordinate -/

/-- Predecessors without looking at pruning. -/
inductive Step (g : G) (c : Coord) : Coord → Prop
  | single (i l : Nat) : i < g.dim → c.getD i 0 ≠ 0 → l ∈ g.prevIdx i (c.getD i 0) →
      Step g c (c.set i l)
  | pair (j i m l : Nat) : j < g.cfg.indexRef → g.cfg.indexRef ≤ i → i < g.dim →
      c.getD j 0 ≠ 0 → c.getD i 0 ≠ 0 → m ∈ g.prevIdx j (c.getD j 0) → l ∈ g.prevIdx i (c.getD i 0) →
      Step g c ((c.set i l).set j m)

theorem isEnding_iff {c : Coord} : isEnding c = true ↔ ∀ i, c.getD i 0 = 0 := by
  unfold isEnding
  rw [List.all_eq_true]
  constructor
  · intro h i
    rcases Nat.lt_or_ge i c.length with hi | hi
    · have := h c[i] (List.getElem_mem hi)
      simp only [beq_iff_eq] at this
      simp [List.getD_eq_getElem?_getD, List.getElem?_eq_getElem hi, this]
    · simp [List.getD_eq_getElem?_getD, List.getElem?_eq_none hi]
  · intro h x hx
    obtain ⟨i, hi, rfl⟩ := List.getElem_of_mem hx
    have := h i
    simp [List.getD_eq_getElem?_getD, List.getElem?_eq_getElem hi] at this
    simp [this]

theorem mem_prevCoords (g : G) (hir : g.cfg.indexRef ≤ g.dim) (c p : Coord) :
    p ∈ prevCoords g c ↔ validate g c p = true ∧ Step g c p := by
  unfold prevCoords
  split
  · rename_i he
    rw [isEnding_iff] at he
    constructor
    · intro h; simp at h
    · rintro ⟨_, hs⟩
      cases hs with
      | single i l _ h0 _ => exact absurd (he i) h0
      | pair j i m l _ _ _ h0 _ _ _ => exact absurd (he j) h0
  · simp only [List.mem_reverse, List.mem_append, List.mem_flatMap, List.mem_filter, List.mem_range,
      decide_eq_true_eq]
    constructor
    · rintro (⟨i, ⟨hi, hri⟩, hp⟩ | ⟨i, hi, hp⟩)
      · split at hp
        · simp at hp
        · rename_i hk
          simp only [List.mem_flatMap, List.mem_append] at hp
          obtain ⟨l, hl, hp | hp⟩ := hp
          · split at hp
            · rename_i hv
              simp at hp; subst hp
              exact ⟨hv, .single i l hi hk hl⟩
            · simp at hp
          · unfold pairMoves at hp
            simp only [List.mem_flatMap, List.mem_range] at hp
            obtain ⟨j, hj, hp⟩ := hp
            split at hp
            · simp at hp
            · rename_i hkj
              simp only [List.mem_filter, List.mem_map] at hp
              obtain ⟨⟨m, hm, rfl⟩, hv⟩ := hp
              exact ⟨hv, .pair j i m l hj hri hi hkj hk hm hl⟩
      · unfold singleMoves at hp
        simp only at hp
        split at hp
        · simp at hp
        · rename_i hk
          simp only [List.mem_filter, List.mem_map] at hp
          obtain ⟨⟨l, hl, rfl⟩, hv⟩ := hp
          exact ⟨hv, .single i l (by omega) hk hl⟩
    · rintro ⟨hv, hs⟩
      cases hs with
      | single i l hi hk hl =>
        by_cases hri : g.cfg.indexRef ≤ i
        · left
          refine ⟨i, ⟨hi, hri⟩, ?_⟩
          rw [if_neg hk]
          simp only [List.mem_flatMap, List.mem_append]
          exact ⟨l, hl, Or.inl (by rw [if_pos hv]; simp)⟩
        · right
          refine ⟨i, by omega, ?_⟩
          unfold singleMoves
          simp only
          rw [if_neg hk]
          simp only [List.mem_filter, List.mem_map]
          exact ⟨⟨l, hl, rfl⟩, hv⟩
      | pair j i m l hj hri hi hkj hk hm hl =>
        left
        refine ⟨i, ⟨hi, hri⟩, ?_⟩
        rw [if_neg hk]
        simp only [List.mem_flatMap, List.mem_append]
        refine ⟨l, hl, Or.inr ?_⟩
        unfold pairMoves
        simp only [List.mem_flatMap, List.mem_range]
        refine ⟨j, hj, ?_⟩
        rw [if_neg hkj]
        simp only [List.mem_filter, List.mem_map]
        exact ⟨⟨m, hm, rfl⟩, hv⟩

theorem getD_set (c : Coord) (i j l : Nat) :
    (c.set i l).getD j 0 = if i = j ∧ i < c.length then l else c.getD j 0 := by
  simp only [List.getD_eq_getElem?_getD, List.getElem?_set]
  by_cases e : i = j
  · subst e
    by_cases h : i < c.length
    · simp [h]
    · simp [h]
  · simp [e]

/-- What a step does, pointwise: `p` and `c` differ exactly at the moved streams, along legal edges. -/
theorem step_pointwise {g : G} {rank : Nat → Nat → Nat} (hw : g.WF rank) {c p : Coord} (hd : Dom g c)
    (hs : Step g c p) :
    p.length = c.length ∧
    (∀ (i : Nat) (s : Stream), g.streams[i]? = some s →
      c.getD i 0 ≠ p.getD i 0 → Edge s (p.getD i 0) (c.getD i 0)) ∧
    ((∃ i, i < g.dim ∧ ∀ k, c.getD k 0 ≠ p.getD k 0 ↔ k = i) ∨
      ∃ j i, j < g.cfg.indexRef ∧ g.cfg.indexRef ≤ i ∧ i < g.dim ∧
        ∀ k, c.getD k 0 ≠ p.getD k 0 ↔ (k = j ∨ k = i)) := by
  have edge : ∀ i l, i < g.dim → c.getD i 0 ≠ 0 → l ∈ g.prevIdx i (c.getD i 0) →
      ∀ s, g.streams[i]? = some s → Edge s l (c.getD i 0) := by
    intro i l hi h0 hl s hs
    rw [prevIdx_eq hs] at hl
    exact (mem_prevIndexes (hw.2 i s hs) (by omega) (hd.2 i s hs)).1 hl
  have ne : ∀ i l, i < g.dim → c.getD i 0 ≠ 0 → l ∈ g.prevIdx i (c.getD i 0) → l ≠ c.getD i 0 := by
    intro i l hi h0 hl
    obtain ⟨s, hs⟩ := stream_of_lt g hi
    exact (edge_facts (hw.2 i s hs) (edge i l hi h0 hl s hs)).2.1
  have hir := hw.1
  have hlen := hd.1
  cases hs with
  | single i l hi h0 hl =>
    have hne := ne i l hi h0 hl
    refine ⟨by simp, ?_, Or.inl ⟨i, hi, ?_⟩⟩
    · intro k s hs hk
      rw [getD_set] at hk ⊢
      by_cases e : i = k
      · subst e
        rw [if_pos ⟨rfl, by omega⟩]
        exact edge i l hi h0 hl s hs
      · rw [if_neg (fun h => e h.1)] at hk; exact absurd rfl hk
    · intro k
      rw [getD_set]
      by_cases e : i = k
      · subst e
        rw [if_pos ⟨rfl, by omega⟩]
        exact ⟨fun _ => rfl, fun _ => hne.symm⟩
      · rw [if_neg (fun h => e h.1)]
        exact ⟨fun h => absurd rfl h, fun h => absurd h.symm e⟩
  | pair j i m l hj hri hi h0j h0 hm hl =>
    have hji : j ≠ i := by omega
    have hnei := ne i l hi h0 hl
    have hnej := ne j m (by omega) h0j hm
    have val : ∀ k, ((c.set i l).set j m).getD k 0 =
        if k = j then m else if k = i then l else c.getD k 0 := by
      intro k
      have hjl : j < c.length := by omega
      have hil : i < c.length := by omega
      rw [getD_set, getD_set, List.length_set]
      simp only [hjl, hil, and_true, eq_comm (a := k)]
    refine ⟨by simp, ?_, Or.inr ⟨j, i, hj, hri, hi, ?_⟩⟩
    · intro k s hs hk
      rw [val] at hk ⊢
      by_cases e : k = j
      · subst e; rw [if_pos rfl]; exact edge k m (by omega) h0j hm s hs
      · rw [if_neg e] at hk ⊢
        by_cases e' : k = i
        · subst e'; rw [if_pos rfl]; exact edge k l hi h0 hl s hs
        · rw [if_neg e'] at hk; exact absurd rfl hk
    · intro k
      rw [val]
      by_cases e : k = j
      · subst e; rw [if_pos rfl]; exact ⟨fun _ => Or.inl rfl, fun _ => hnej.symm⟩
      · rw [if_neg e]
        by_cases e' : k = i
        · subst e'; rw [if_pos rfl]; exact ⟨fun _ => Or.inr rfl, fun _ => hnei.symm⟩
        · rw [if_neg e']
          exact ⟨fun h => absurd rfl h, fun h => by rcases h with h | h <;> contradiction⟩

theorem rk_lt {s : Stream} {rank : Nat → Nat → Nat} {i p k : Nat} (h : s.WF (rank i)) (e : Edge s p k) :
    rk rank i p < rk rank i k := by
  obtain ⟨_, _, h3⟩ := edge_facts h e
  have hk : k ≠ 0 := by have := e.1.1; omega
  unfold rk
  rw [if_neg hk]
  rcases h3 with h3 | h3
  · rw [if_pos h3]; omega
  · split <;> omega

theorem step_dom {g : G} {rank : Nat → Nat → Nat} (hw : g.WF rank) {c p : Coord} (hd : Dom g c)
    (hs : Step g c p) : Dom g p := by
  obtain ⟨hl, he, _⟩ := step_pointwise hw hd hs
  refine ⟨by rw [hl]; exact hd.1, ?_⟩
  intro i s hsi
  by_cases e : c.getD i 0 = p.getD i 0
  · rw [← e]; exact hd.2 i s hsi
  · exact (edge_facts (hw.2 i s hsi) (he i s hsi e)).1

theorem step_rank {g : G} {rank : Nat → Nat → Nat} (hw : g.WF rank) {c p : Coord} (hd : Dom g c)
    (hs : Step g c p) : rankFrom rank 0 p < rankFrom rank 0 c := by
  have key : ∀ i l, i < g.dim → c.getD i 0 ≠ 0 → l ∈ g.prevIdx i (c.getD i 0) →
      rk rank i l < rk rank i (c.getD i 0) := by
    intro i l hi h0 hl
    obtain ⟨s, hs⟩ := stream_of_lt g hi
    rw [prevIdx_eq hs] at hl
    exact rk_lt (hw.2 i s hs) ((mem_prevIndexes (hw.2 i s hs) (by omega) (hd.2 i s hs)).1 hl)
  have hlen := hd.1
  have hir := hw.1
  cases hs with
  | single i l hi h0 hl =>
    have h1 := key i l hi h0 hl
    have h2 := rankFrom_set rank c 0 i l (by omega)
    simp only [Nat.zero_add] at h2
    omega
  | pair j i m l hj hri hi h0j h0 hm hl =>
    have h1 := key i l hi h0 hl
    have h2 := rankFrom_set rank c 0 i l (by omega)
    have h3 := key j m (by omega) h0j hm
    have h4 := rankFrom_set rank (c.set i l) 0 j m (by simp; omega)
    rw [getD_set, if_neg (by omega)] at h4
    simp only [Nat.zero_add] at h2 h4
    omega

end Verif.AscGraph
