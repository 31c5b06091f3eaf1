import Verif.LineStyle.Model
/-!
# Paths through concatenated and united pieces
-/
set_option autoImplicit false
namespace Verif.LineStyle

/-- The tokens of the piece have numbers from `lo` up to below `hi`. -/
structure Inside (p : Piece) (lo hi : Nat) : Prop where
  starts : ∀ x ∈ p.starts, lo ≤ x.id ∧ x.id < hi
  ends : ∀ x ∈ p.ends, lo ≤ x.id ∧ x.id < hi
  edges : ∀ e ∈ p.edges, (lo ≤ e.1.id ∧ e.1.id < hi) ∧ (lo ≤ e.2.id ∧ e.2.id < hi)

theorem Inside.mono {p : Piece} {lo hi lo' hi' : Nat} (h : Inside p lo hi) (h1 : lo' ≤ lo) (h2 : hi ≤ hi') : Inside p lo' hi' := by
  refine ⟨?_, ?_, ?_⟩
  · intro x hx; have := h.starts x hx; omega
  · intro x hx; have := h.ends x hx; omega
  · intro x hx; have := h.edges x hx; omega

theorem chain_mono {E E' : List (Node × Node)} (h : ∀ e ∈ E, e ∈ E') : ∀ l : List Node, Chain E l → Chain E' l
  | [], _ => trivial
  | [_], _ => trivial
  | x :: y :: l, hc => ⟨h _ hc.1, chain_mono h (y :: l) hc.2⟩

theorem chain_append {E : List (Node × Node)} : ∀ (a b : List Node), Chain E a → Chain E b →
    (∀ x y, a.getLast? = some x → b.head? = some y → (x, y) ∈ E) → Chain E (a ++ b)
  | [], b, _, hb, _ => hb
  | [x], [], _, _, _ => trivial
  | [x], y :: b, _, hb, h => ⟨h x y rfl rfl, hb⟩
  | x :: x' :: a, b, ha, hb, h => by
    refine ⟨ha.1, chain_append (x' :: a) b ha.2 hb ?_⟩
    intro u v hu hv
    exact h u v (by rw [List.getLast?_cons_cons]; exact hu) hv

theorem mem_links {F S : List Node} {x y : Node} : (x, y) ∈ links F S ↔ x ∈ F ∧ y ∈ S := by
  unfold links
  simp only [List.mem_flatMap, List.mem_map, Prod.mk.injEq]
  constructor
  · rintro ⟨a, ha, b, hb, rfl, rfl⟩; exact ⟨ha, hb⟩
  · rintro ⟨hx, hy⟩; exact ⟨x, hx, y, hy, rfl, rfl⟩

/-- A path through two pieces that are linked in one direction splits in a path of the first and a path of the second. -/
theorem chain_split (E E' C : List (Node × Node)) (mid : Nat) (hE : ∀ e ∈ E, e.1.id < mid ∧ e.2.id < mid)
    (hE' : ∀ e ∈ E', mid ≤ e.1.id ∧ mid ≤ e.2.id) (hC : ∀ e ∈ C, e.1.id < mid ∧ mid ≤ e.2.id) :
    ∀ p : List Node, Chain (E ++ E' ++ C) p → ∃ pa pb, p = pa ++ pb ∧ (∀ x ∈ pa, x.id < mid) ∧ (∀ x ∈ pb, mid ≤ x.id) ∧ Chain E pa ∧ Chain E' pb ∧
      (∀ x y, pa.getLast? = some x → pb.head? = some y → (x, y) ∈ C)
  | [], _ => ⟨[], [], rfl, by simp, by simp, trivial, trivial, by simp⟩
  | [x], _ => by
    by_cases h : x.id < mid
    · exact ⟨[x], [], rfl, by simpa using h, by simp, trivial, trivial, by simp⟩
    · exact ⟨[], [x], rfl, by simp, by simp; omega, trivial, trivial, by simp⟩
  | x :: y :: l, hc => by
    obtain ⟨pa, pb, he, h1, h2, h3, h4, h5⟩ := chain_split E E' C mid hE hE' hC (y :: l) hc.2
    have hxy := hc.1
    simp only [List.mem_append] at hxy
    cases pa with
    | nil =>
      simp only [List.nil_append] at he
      subst he
      have hy : mid ≤ y.id := h2 y (by simp)
      rcases hxy with (h | h) | h
      · have := hE _ h; simp only at this; omega
      · refine ⟨[], x :: y :: l, rfl, by simp, ?_, trivial, ⟨h, h4⟩, by simp⟩
        intro z hz
        rcases List.mem_cons.mp hz with rfl | hz
        · exact (hE' _ h).1
        · exact h2 z hz
      · refine ⟨[x], y :: l, rfl, ?_, h2, trivial, h4, ?_⟩
        · intro z hz
          simp only [List.mem_singleton] at hz
          subst hz
          exact (hC _ h).1
        · intro a b ha hb
          simp only [List.getLast?_singleton, Option.some.injEq, List.head?_cons] at ha hb
          subst ha; subst hb; exact h
    | cons z pa =>
      simp only [List.cons_append, List.cons.injEq] at he
      obtain ⟨rfl, rfl⟩ := he
      have hy : y.id < mid := h1 y (by simp)
      rcases hxy with (h | h) | h
      · refine ⟨x :: y :: pa, pb, rfl, ?_, h2, ⟨h, h3⟩, h4, ?_⟩
        · intro z hz
          rcases List.mem_cons.mp hz with rfl | hz
          · exact (hE _ h).1
          · exact h1 z hz
        · intro a b ha hb
          rw [List.getLast?_cons_cons] at ha
          exact h5 a b ha hb
      · have := hE' _ h; simp only at this; omega
      · have := hC _ h; simp only at this; omega

theorem spells_ne {p : Piece} {u : List Word} (h : Spells p u) : u ≠ [] := by
  obtain ⟨path, x, y, h1, _, _, _, _, h6⟩ := h
  rw [← h6]
  cases path with
  | nil => simp at h1
  | cons a l => simp

/-- The concatenation of two pieces. -/
def seqPiece (b t : Bool) (p q : Piece) (tr : Bool) : Piece :=
  ⟨p.starts ++ (if b then q.starts else []), (if t then p.ends else []) ++ q.ends, tr, p.edges ++ q.edges ++ links p.ends q.starts⟩

theorem head?_append_of {A : Type} {a b : List A} {x : A} (h : a.head? = some x) : (a ++ b).head? = some x := by
  cases a with
  | nil => simp at h
  | cons y a => simpa using h

theorem getLast?_append_of {A : Type} {a b : List A} {x : A} (h : b.getLast? = some x) : (a ++ b).getLast? = some x := by
  rw [List.getLast?_append, h]; rfl

theorem exists_head {A : Type} {a : List A} (h : a ≠ []) : ∃ x, a.head? = some x := by
  cases a with
  | nil => simp at h
  | cons y a => exact ⟨y, rfl⟩

theorem exists_last {A : Type} {a : List A} (h : a ≠ []) : ∃ x, a.getLast? = some x := ⟨a.getLast h, List.getLast?_eq_some_getLast h⟩

theorem mem_of_head? {A : Type} {a : List A} {x : A} (h : a.head? = some x) : x ∈ a := by
  cases a with
  | nil => simp at h
  | cons y a => simp only [List.head?_cons, Option.some.injEq] at h; subst h; simp

theorem spells_seq (p q : Piece) (lo mid hi : Nat) (hp : Inside p lo mid) (hq : Inside q mid hi) (b t tr : Bool) (u : List Word) :
    Spells (seqPiece b t p q tr) u ↔
      (Spells p u ∧ t = true) ∨ (b = true ∧ Spells q u) ∨ ∃ v w, u = v ++ w ∧ Spells p v ∧ Spells q w := by
  constructor
  · rintro ⟨path, x, y, hx, hxs, hy, hye, hc, hm⟩
    obtain ⟨pa, pb, he, h1, h2, h3, h4, h5⟩ := chain_split p.edges q.edges (links p.ends q.starts) mid
      (fun e h => by have := hp.edges e h; omega) (fun e h => by have := hq.edges e h; omega)
      (fun e h => by
        obtain ⟨e1, e2⟩ := e
        have := mem_links.mp h
        have h1 := hp.ends _ this.1
        have h2 := hq.starts _ this.2
        exact ⟨h1.2, h2.1⟩) path hc
    subst he
    have hxs' : x ∈ p.starts ∨ (b = true ∧ x ∈ q.starts) := by
      simp only [seqPiece, List.mem_append] at hxs
      rcases hxs with h | h
      · exact Or.inl h
      · cases b <;> simp at h
        exact Or.inr ⟨rfl, h⟩
    have hye' : (t = true ∧ y ∈ p.ends) ∨ y ∈ q.ends := by
      simp only [seqPiece, List.mem_append] at hye
      rcases hye with h | h
      · cases t <;> simp at h
        exact Or.inl ⟨rfl, h⟩
      · exact Or.inr h
    by_cases ha : pa = []
    · subst ha
      simp only [List.nil_append] at hx hy hm
      have hxm := h2 x (mem_of_head? hx)
      have hym := h2 y (List.mem_of_getLast? hy)
      right; left
      rcases hxs' with h | ⟨hb, h⟩
      · have := hp.starts x h; omega
      · rcases hye' with ⟨_, h'⟩ | h'
        · have := hp.ends y h'; omega
        · exact ⟨hb, pb, x, y, hx, h, hy, h', h4, hm⟩
    · by_cases hb : pb = []
      · subst hb
        simp only [List.append_nil] at hx hy hm
        have hxm := h1 x (mem_of_head? hx)
        have hym := h1 y (List.mem_of_getLast? hy)
        left
        rcases hxs' with h | ⟨_, h⟩
        · rcases hye' with ⟨ht, h'⟩ | h'
          · exact ⟨⟨pa, x, y, hx, h, hy, h', h3, hm⟩, ht⟩
          · have := hq.ends y h'; omega
        · have := hq.starts x h; omega
      · right; right
        obtain ⟨x', hx'⟩ := exists_head ha
        obtain ⟨y', hy'⟩ := exists_last hb
        rw [head?_append_of hx'] at hx
        rw [getLast?_append_of hy'] at hy
        cases hx; cases hy
        have hxm := h1 _ (mem_of_head? hx')
        have hym := h2 _ (List.mem_of_getLast? hy')
        obtain ⟨z, hz⟩ := exists_last ha
        obtain ⟨z', hz'⟩ := exists_head hb
        have hl := mem_links.mp (h5 z z' hz hz')
        refine ⟨pa.map Node.word, pb.map Node.word, by rw [← hm, List.map_append], ?_, ?_⟩
        · refine ⟨pa, _, z, hx', ?_, hz, hl.1, h3, rfl⟩
          rcases hxs' with h | ⟨_, h⟩
          · exact h
          · have := hq.starts _ h; omega
        · refine ⟨pb, z', _, hz', hl.2, hy', ?_, h4, rfl⟩
          rcases hye' with ⟨_, h⟩ | h
          · have := hp.ends _ h; omega
          · exact h
  · rintro (⟨⟨path, x, y, hx, hxs, hy, hye, hc, hm⟩, ht⟩ | ⟨hb, path, x, y, hx, hxs, hy, hye, hc, hm⟩ |
      ⟨v, w, hu, ⟨pa, x, y, hx, hxs, hy, hye, hc, hm⟩, pb, x', y', hx', hxs', hy', hye', hc', hm'⟩)
    · refine ⟨path, x, y, hx, by simp [seqPiece, hxs], hy, by simp [seqPiece, hye, ht], ?_, hm⟩
      exact chain_mono (by intro e he; simp [seqPiece, he]) path hc
    · refine ⟨path, x, y, hx, by simp [seqPiece, hxs, hb], hy, by simp [seqPiece, hye], ?_, hm⟩
      exact chain_mono (by intro e he; simp [seqPiece, he]) path hc
    · refine ⟨pa ++ pb, x, y', head?_append_of hx, by simp [seqPiece, hxs], getLast?_append_of hy', by simp [seqPiece, hye'], ?_, ?_⟩
      · apply chain_append
        · exact chain_mono (by intro e he; simp [seqPiece, he]) pa hc
        · exact chain_mono (by intro e he; simp [seqPiece, he]) pb hc'
        · intro a c ha hc
          rw [hy] at ha; rw [hx'] at hc
          cases ha; cases hc
          simp only [seqPiece, List.mem_append]
          exact Or.inr (mem_links.mpr ⟨hye, hxs'⟩)
      · rw [List.map_append, hm, hm', hu]

theorem spells_or (p q : Piece) (lo mid hi : Nat) (hp : Inside p lo mid) (hq : Inside q mid hi) (tr : Bool) (u : List Word) :
    Spells ⟨p.starts ++ q.starts, p.ends ++ q.ends, tr, p.edges ++ q.edges⟩ u ↔ Spells p u ∨ Spells q u := by
  constructor
  · rintro ⟨path, x, y, hx, hxs, hy, hye, hc, hm⟩
    obtain ⟨pa, pb, he, h1, h2, h3, h4, h5⟩ := chain_split p.edges q.edges [] mid
      (fun e h => by have := hp.edges e h; omega) (fun e h => by have := hq.edges e h; omega) (by simp) path (by simpa using hc)
    subst he
    simp only [List.mem_append] at hxs hye
    by_cases ha : pa = []
    · subst ha
      simp only [List.nil_append] at hx hy hm
      have hxm := h2 x (mem_of_head? hx)
      have hym := h2 y (List.mem_of_getLast? hy)
      right
      refine ⟨pb, x, y, hx, ?_, hy, ?_, h4, hm⟩
      · rcases hxs with h | h
        · have := hp.starts x h; omega
        · exact h
      · rcases hye with h | h
        · have := hp.ends y h; omega
        · exact h
    · by_cases hb : pb = []
      · subst hb
        simp only [List.append_nil] at hx hy hm
        have hxm := h1 x (mem_of_head? hx)
        have hym := h1 y (List.mem_of_getLast? hy)
        left
        refine ⟨pa, x, y, hx, ?_, hy, ?_, h3, hm⟩
        · rcases hxs with h | h
          · exact h
          · have := hq.starts x h; omega
        · rcases hye with h | h
          · exact h
          · have := hq.ends y h; omega
      · obtain ⟨z, hz⟩ := exists_last ha
        obtain ⟨z', hz'⟩ := exists_head hb
        have := h5 z z' hz hz'
        simp at this
  · rintro (⟨path, x, y, hx, hxs, hy, hye, hc, hm⟩ | ⟨path, x, y, hx, hxs, hy, hye, hc, hm⟩)
    · exact ⟨path, x, y, hx, by simp [hxs], hy, by simp [hye], chain_mono (by intro e he; simp [he]) path hc, hm⟩
    · exact ⟨path, x, y, hx, by simp [hxs], hy, by simp [hye], chain_mono (by intro e he; simp [he]) path hc, hm⟩

theorem spells_one (t : Node) (tr : Bool) (u : List Word) : Spells ⟨[t], [t], tr, []⟩ u ↔ u = [t.word] := by
  constructor
  · rintro ⟨path, x, y, hx, hxs, hy, hye, hc, hm⟩
    cases path with
    | nil => simp at hx
    | cons a l =>
      cases l with
      | nil =>
        simp only [List.head?_cons, Option.some.injEq] at hx
        simp only [List.mem_singleton] at hxs
        rw [← hm, hx, hxs]; rfl
      | cons b l =>
        have := hc.1
        simp at this
  · rintro rfl
    exact ⟨[t], t, t, rfl, by simp, rfl, by simp, trivial, rfl⟩

theorem spells_empty (p : Piece) (h : p.starts = []) (u : List Word) : ¬ Spells p u := by
  rintro ⟨path, x, y, _, hxs, _⟩
  rw [h] at hxs; simp at hxs

end Verif.LineStyle
