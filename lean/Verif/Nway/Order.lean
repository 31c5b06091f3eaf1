import Verif.Nway.Count
/-! The systems listed in another order. -/
set_option autoImplicit false
namespace Verif.Nway
open Verif.AscGraph

/-- The streams of `g` listed in the order `σ`. -/
def reorder (σ : List Nat) (g : G) : G := ⟨g.cfg, σ.map (fun i => g.streams.getD i ⟨[], fun _ => [], [], []⟩)⟩

/-- The entries of a column in the order `σ`. -/
def reorderCol (σ : List Nat) (col : Column) : Column := σ.map (fun i => col.getD i none)

theorem reorderCol_getD (σ : List Nat) (col : Column) {j : Nat} (h : j < σ.length) :
    (reorderCol σ col).getD j none = col.getD σ[j] none := by
  simp [reorderCol, List.getD_eq_getElem?_getD, h]

theorem reorder_stream {σ : List Nat} {g : G} (hσ : σ.Perm (List.range g.dim)) {j : Nat} (h : j < σ.length) :
    (reorder σ g).streams[j]? = g.streams[σ[j]]? := by
  have : σ[j] < g.dim := List.mem_range.1 (hσ.mem_iff.1 (List.getElem_mem h))
  unfold G.dim at this
  simp [reorder, List.getD_eq_getElem?_getD, h, this]

theorem reorder_dim {σ : List Nat} {g : G} (hσ : σ.Perm (List.range g.dim)) : (reorder σ g).dim = g.dim := by
  have := hσ.length_eq
  simp [reorder, G.dim] at *
  exact this

theorem reorder_tok {σ : List Nat} {g : G} (hσ : σ.Perm (List.range g.dim)) {j : Nat} (h : j < σ.length) (k : Nat) :
    (reorder σ g).tok j k = g.tok σ[j] k := by
  unfold G.tok
  rw [reorder_stream hσ h]

theorem filterMap_filter_isSome (g : G) (col : Column) : ∀ l : List Nat,
    (l.filter (fun i => (col.getD i none).isSome)).filterMap (fun i => g.tok i ((col.getD i none).getD 0)) =
      l.filterMap (fun i => (col.getD i none).bind (g.tok i))
  | [] => rfl
  | a :: l => by
    rw [List.filter_cons, List.filterMap_cons]
    cases h : col.getD a none with
    | none =>
      simp only [Option.isSome_none, Bool.false_eq_true, if_false, Option.bind_none]
      exact filterMap_filter_isSome g col l
    | some k =>
      simp only [Option.isSome_some, if_true, List.filterMap_cons, h, Option.getD_some, Option.bind_some]
      rw [filterMap_filter_isSome g col l]

theorem tokensOf_eq (g : G) (col : Column) :
    tokensOf g col = (List.range col.length).filterMap (fun i => (col.getD i none).bind (g.tok i)) :=
  filterMap_filter_isSome g col _

theorem range_filterMap {β : Type} (σ : List Nat) (F : Nat → Option β) :
    σ.filterMap F = (List.range σ.length).filterMap (fun j => (σ[j]?).bind F) := by
  induction σ with
  | nil => rfl
  | cons a σ ih =>
    rw [List.length_cons, List.range_succ_eq_map, List.filterMap_cons, List.filterMap_cons, List.filterMap_map, ih]
    rfl

theorem range_filterMap' {α : Type} (w : List α) : w = (List.range w.length).filterMap (fun j => w[j]?) := by
  induction w with
  | nil => rfl
  | cons a w ih =>
    rw [List.length_cons, List.range_succ_eq_map, List.filterMap_cons, List.filterMap_map]
    conv => lhs; rw [ih]
    rfl

theorem filterMap_ext {α β : Type} {f h : α → Option β} : ∀ l : List α, (∀ a ∈ l, f a = h a) → l.filterMap f = l.filterMap h
  | [], _ => rfl
  | a :: l, e => by
    rw [List.filterMap_cons, List.filterMap_cons, e a (by simp), filterMap_ext l (fun b hb => e b (by simp [hb]))]

theorem reorder_tokens {σ : List Nat} {g : G} (hσ : σ.Perm (List.range g.dim)) {col : Column} (hl : col.length = g.dim) :
    (tokensOf (reorder σ g) (reorderCol σ col)).Perm (tokensOf g col) := by
  rw [tokensOf_eq, tokensOf_eq, hl]
  have e : (List.range (reorderCol σ col).length).filterMap
      (fun i => ((reorderCol σ col).getD i none).bind ((reorder σ g).tok i)) =
      σ.filterMap (fun i => (col.getD i none).bind (g.tok i)) := by
    rw [range_filterMap σ]
    have hlen : (reorderCol σ col).length = σ.length := by simp [reorderCol]
    rw [hlen]
    apply filterMap_ext
    intro j hj
    have hj := List.mem_range.1 hj
    rw [reorderCol_getD σ col hj, List.getElem?_eq_getElem hj, Option.bind_some]
    congr 1
    funext k
    exact reorder_tok hσ hj k
  rw [e]
  exact hσ.filterMap _

theorem occupied_ne_nil {col : Column} : occupied col ≠ [] ↔ ∃ k, some k ∈ col := by
  constructor
  · intro h
    obtain ⟨i, hi⟩ : ∃ i, i ∈ occupied col := by
      cases ho : occupied col with
      | nil => exact absurd ho h
      | cons i l => exact ⟨i, by simp⟩
    obtain ⟨k, hk⟩ := mem_occupied.1 hi
    refine ⟨k, ?_⟩
    rw [List.getD_eq_getElem?_getD] at hk
    cases hg : col[i]? with
    | none => rw [hg] at hk; simp at hk
    | some x => rw [hg] at hk; simp at hk; subst hk; exact List.mem_of_getElem? hg
  · rintro ⟨k, hk⟩ e
    obtain ⟨i, hi, h⟩ := List.getElem_of_mem hk
    have : i ∈ occupied col := mem_occupied.2 ⟨k, by simp [List.getD_eq_getElem?_getD, hi, h]⟩
    rw [e] at this; simp at this

theorem proj_reorder {σ : List Nat} {j : Nat} (h : j < σ.length) (cols : List Column) :
    proj j (cols.map (reorderCol σ)) = proj σ[j] cols := by
  unfold proj
  rw [List.filterMap_map]
  apply filterMap_ext
  intro col _
  exact reorderCol_getD σ col h

theorem nway_reorder {σ : List Nat} {g : G} (hσ : σ.Perm (List.range g.dim)) {cols : List Column}
    (hl : ∀ col ∈ cols, col.length = g.dim) :
    IsNway (reorder σ g) (cols.map (reorderCol σ)) ↔ IsNway g cols := by
  have hlen := hσ.length_eq
  rw [List.length_range] at hlen
  have hocc : ∀ col ∈ cols, (occupied (reorderCol σ col) ≠ [] ↔ occupied col ≠ []) := by
    intro col hc
    rw [occupied_ne_nil, occupied_ne_nil]
    constructor
    · rintro ⟨k, hk⟩
      obtain ⟨i, hi, e⟩ := List.mem_map.1 hk
      refine ⟨k, ?_⟩
      rw [List.getD_eq_getElem?_getD] at e
      cases hg : col[i]? with
      | none => rw [hg] at e; simp at e
      | some x => rw [hg] at e; simp at e; subst e; exact List.mem_of_getElem? hg
    · rintro ⟨k, hk⟩
      obtain ⟨i, hi, h⟩ := List.getElem_of_mem hk
      refine ⟨k, List.mem_map.2 ⟨i, hσ.mem_iff.2 (List.mem_range.2 (by rw [← hl col hc]; exact hi)), ?_⟩⟩
      simp [List.getD_eq_getElem?_getD, hi, h]
  constructor
  · rintro ⟨h1, h2⟩
    refine ⟨fun col hc => ⟨hl col hc, (hocc col hc).1 (h1 _ (List.mem_map.2 ⟨col, hc, rfl⟩)).2⟩, ?_⟩
    intro i s hs
    have hi : i < g.dim := (List.getElem?_eq_some_iff.1 hs).1
    obtain ⟨j, hj, e⟩ := List.getElem_of_mem (hσ.mem_iff.2 (List.mem_range.2 hi))
    have := h2 j s (by rw [reorder_stream hσ hj, e]; exact hs)
    rw [proj_reorder hj, e] at this
    exact this
  · rintro ⟨h1, h2⟩
    refine ⟨?_, ?_⟩
    · intro col' hc
      obtain ⟨col, hcc, rfl⟩ := List.mem_map.1 hc
      refine ⟨by rw [reorder_dim hσ]; simp [reorderCol, hlen], (hocc col hcc).2 (h1 col hcc).2⟩
    · intro j s hs
      have hj : j < σ.length := by
        have := (List.getElem?_eq_some_iff.1 hs).1
        simpa [reorder] using this
      rw [reorder_stream hσ hj] at hs
      rw [proj_reorder hj]
      exact h2 _ s hs

theorem reorderCol_surj {σ : List Nat} {n : Nat} (hσ : σ.Perm (List.range n)) {col' : Column} (hl : col'.length = n) :
    ∃ col : Column, col.length = n ∧ reorderCol σ col = col' := by
  have hlen := hσ.length_eq
  rw [List.length_range] at hlen
  have hnd : σ.Nodup := hσ.nodup_iff.2 List.nodup_range
  refine ⟨(List.range n).map (fun i => col'.getD (σ.idxOf i) none), by simp, ?_⟩
  apply List.ext_getElem
  · simp [reorderCol, hlen, hl]
  · intro j h1 h2
    have hj : j < σ.length := by omega
    have : σ[j] < n := List.mem_range.1 (hσ.mem_iff.1 (List.getElem_mem hj))
    simp [reorderCol, List.getD_eq_getElem?_getD, this, hnd.idxOf_getElem j hj, h2]

theorem cols_surj {σ : List Nat} {n : Nat} (hσ : σ.Perm (List.range n)) : ∀ cols' : List Column,
    (∀ col ∈ cols', col.length = n) →
    ∃ cols : List Column, (∀ col ∈ cols, col.length = n) ∧ cols.map (reorderCol σ) = cols'
  | [], _ => ⟨[], by simp, rfl⟩
  | c :: cs, h => by
    obtain ⟨col, h1, h2⟩ := reorderCol_surj hσ (h c (by simp))
    obtain ⟨cols, h3, h4⟩ := cols_surj hσ cs (fun x hx => h x (by simp [hx]))
    refine ⟨col :: cols, ?_, by rw [List.map_cons, h2, h4]⟩
    intro x hx
    rcases List.mem_cons.1 hx with rfl | hx
    · exact h1
    · exact h3 x hx

theorem flag_last {b : Bool} {ts : List Tok} (hne : ts ≠ []) (h : ∀ t ∈ ts, t.optional = b) :
    (ts.getLast?.map Tok.optional).getD false = b := by
  rw [List.getLast?_eq_some_getLast hne]
  exact h _ (List.getLast_mem hne)

/-- Without a mixture of optional and other tokens the price of a column does not depend on the order. -/
theorem price_perm (k : Prices) (eqv : Tok → Tok → Bool) (dim : Nat) {ts us : List Tok} (h : ts.Perm us) {b : Bool}
    (hb : ∀ t ∈ ts, t.optional = b) : k.col eqv dim ts = k.col eqv dim us := by
  unfold Prices.col
  rw [agreeing_perm h, h.length_eq]
  by_cases hne : ts = []
  · subst hne
    rw [List.nil_perm.1 h]
  · have hne' : us ≠ [] := fun e => by subst e; exact hne (List.perm_nil.1 h)
    rw [flag_last hne hb, flag_last hne' (fun t ht => hb t (h.mem_iff.2 ht))]

theorem total_reorder {σ : List Nat} {g : G} (hσ : σ.Perm (List.range g.dim)) (k : Prices) (eqv : Tok → Tok → Bool) {b : Bool}
    (hb : ∀ s ∈ g.streams, ∀ t ∈ s.toks, t.optional = b) (cols : List Column) (hl : ∀ col ∈ cols, col.length = g.dim) :
    k.total eqv (reorder σ g) (cols.map (reorderCol σ)) = k.total eqv g cols := by
  unfold Prices.total
  rw [List.map_map]
  congr 1
  apply List.map_congr_left
  intro col hc
  show k.col eqv (reorder σ g).dim (tokensOf (reorder σ g) (reorderCol σ col)) = _
  rw [reorder_dim hσ]
  have hp := reorder_tokens hσ (hl col hc)
  apply price_perm k eqv g.dim hp (b := b)
  intro t ht
  obtain ⟨s, hs, hts⟩ := tokensOf_mem (hp.mem_iff.1 ht)
  exact hb s hs t hts

end Verif.Nway
