import Verif.Expand.Graph
import Verif.LineStyle.Props
/-!
# The tokens of a parsed text have different numbers
-/
set_option autoImplicit false
namespace Verif.Expand
open Verif.LineStyle

theorem mem_nodes {p : Piece} {x : Node} : x ∈ nodes p ↔ x ∈ p.starts ∨ x ∈ p.ends ∨ ∃ e ∈ p.edges, x = e.1 ∨ x = e.2 := by
  simp only [nodes, List.mem_append, List.mem_flatMap, List.mem_cons, List.not_mem_nil, or_false, or_assoc]

/-- Different tokens have different numbers. -/
def One (M : Node → Prop) : Prop := ∀ x y, M x → M y → x.id = y.id → x = y

theorem one_union {A B M : Node → Prop} {m : Nat} (hA : One A) (hB : One B) (ha : ∀ x, A x → x.id < m) (hb : ∀ x, B x → m ≤ x.id)
    (h : ∀ x, M x → A x ∨ B x) : One M := by
  intro x y hx hy e
  rcases h x hx with h1 | h1 <;> rcases h y hy with h2 | h2
  · exact hA x y h1 h2 e
  · have := ha x h1; have := hb y h2; omega
  · have := hb x h1; have := ha y h2; omega
  · exact hB x y h1 h2 e

/-- The tokens known to the loop. -/
def InSt (st : LoopSt) (x : Node) : Prop := x ∈ nodes st.out ∨ x ∈ st.prec.getD []

theorem fwd_nodes {p : Piece} {lo hi : Nat} (h : Fwd p lo hi) (x : Node) (hx : x ∈ nodes p) : lo ≤ x.id ∧ x.id < hi := by
  rcases mem_nodes.1 hx with hx | hx | ⟨e, he, rfl | rfl⟩
  · exact h.inside.starts x hx
  · exact h.inside.ends x hx
  · exact (h.inside.edges e he).1
  · exact (h.inside.edges e he).2

theorem place_nodes (st : LoopSt) (q : Piece) (c : Nat) (x : Node) (h : InSt (place st q c) x) : InSt st x ∨ x ∈ nodes q := by
  rcases h with h | h
  · rcases mem_nodes.1 h with h | h | ⟨e, he, hx⟩
    · rcases List.mem_append.1 h with h | h
      · exact Or.inl (Or.inl (mem_nodes.2 (Or.inl h)))
      · split at h
        · exact Or.inr (mem_nodes.2 (Or.inl h))
        · simp at h
    · rcases List.mem_append.1 h with h | h
      · split at h
        · exact Or.inl (Or.inl (mem_nodes.2 (Or.inr (Or.inl h))))
        · simp at h
      · exact Or.inr (mem_nodes.2 (Or.inr (Or.inl h)))
    · rcases List.mem_append.1 he with he | he
      · rcases List.mem_append.1 he with he | he
        · exact Or.inl (Or.inl (mem_nodes.2 (Or.inr (Or.inr ⟨e, he, hx⟩))))
        · exact Or.inr (mem_nodes.2 (Or.inr (Or.inr ⟨e, he, hx⟩)))
      · cases hp : st.prec with
        | none => rw [hp] at he; simp at he
        | some F =>
          rw [hp] at he
          have hl := mem_links.1 he
          rcases hx with rfl | rfl
          · exact Or.inl (Or.inr (by rw [hp]; exact hl.1))
          · exact Or.inr (mem_nodes.2 (Or.inl hl.2))
  · simp only [place] at h
    cases hp : st.prec with
    | none =>
      rw [hp] at h
      exact Or.inr (mem_nodes.2 (Or.inr (Or.inl h)))
    | some F =>
      rw [hp] at h
      dsimp only at h
      split at h
      · rcases List.mem_append.1 h with h | h
        · exact Or.inl (Or.inr (by rw [hp]; exact h))
        · exact Or.inr (mem_nodes.2 (Or.inr (Or.inl h)))
      · exact Or.inr (mem_nodes.2 (Or.inr (Or.inl h)))

theorem one_place {st : LoopSt} {lo : Nat} (hf : FwdSt st lo) (ho : One (InSt st)) (q : Piece) (c : Nat) (hq : Fwd q st.next c)
    (hq1 : One (· ∈ nodes q)) : One (InSt (place st q c)) := by
  refine one_union (m := st.next) ho hq1 ?_ ?_ (place_nodes st q c)
  · intro x hx
    rcases hx with hx | hx
    · exact (fwd_nodes hf.out x hx).2
    · exact (hf.prec x hx).2
  · intro x hx
    exact (fwd_nodes hq x hx).1

theorem one_turn (par : List Word → Nat → Option (Piece × Nat)) (hpar : ∀ x c p c', par x c = some (p, c') → Fwd p c c')
    (hone : ∀ x c p c', par x c = some (p, c') → One (· ∈ nodes p)) (n i : Nat) (x : List Word) (st st' : LoopSt) (lo : Nat) (h : FwdSt st lo)
    (ho : One (InSt st)) (ht : turn par n i x st = some st') : One (InSt st') := by
  unfold turn at ht
  split at ht
  · cases hx : par x st.next with
    | none => rw [hx] at ht; simp at ht
    | some r =>
      obtain ⟨p, c'⟩ := r
      rw [hx] at ht
      simp only [Option.some.injEq] at ht
      subst ht
      split
      · exact one_place (fwd_skip h) ho p c' (hpar _ _ _ _ hx) (hone _ _ _ _ hx)
      · exact one_place h ho p c' (hpar _ _ _ _ hx) (hone _ _ _ _ hx)
  · split at ht
    · split at ht
      · cases ht
        exact one_place (fwd_skip h) ho _ _ (fwd_empty _) (fun x y hx => by simp [nodes, Piece.empty] at hx)
      · cases ht; exact ho
    · cases ht
      refine one_place h ho _ _ ⟨inside_one ⟨st.next, x.flatten, i, n⟩ false, by omega, by simp⟩ ?_
      intro a b ha hb _
      simp [nodes] at ha hb
      rw [ha, hb]

theorem one_turns (par : List Word → Nat → Option (Piece × Nat)) (hpar : ∀ x c p c', par x c = some (p, c') → Fwd p c c')
    (hone : ∀ x c p c', par x c = some (p, c') → One (· ∈ nodes p)) (n : Nat) : ∀ (items : List (List Word)) (i : Nat) (st st' : LoopSt) (lo : Nat),
      FwdSt st lo → One (InSt st) → turns par n i items st = some st' → One (InSt st')
  | [], i, st, st', lo, h, ho, ht => by cases ht; exact ho
  | x :: items, i, st, st', lo, h, ho, ht => by
    rw [turns] at ht
    cases hx : turn par n i x st with
    | none => rw [hx] at ht; simp at ht
    | some s1 =>
      rw [hx] at ht
      exact one_turns par hpar hone n items (i + 1) s1 st' lo (fwd_turn par hpar n i x st s1 lo h hx)
        (one_turn par hpar hone n i x st s1 lo h ho hx) ht

theorem one_or (par : List Word → Nat → Option (Piece × Nat)) (hpar : ∀ x c p c', par x c = some (p, c') → Fwd p c c')
    (hone : ∀ x c p c', par x c = some (p, c') → One (· ∈ nodes p)) :
    ∀ (ss : List (List Word)) (c : Nat) (p : Piece) (c' : Nat), orLoop par ss c = some (p, c') → One (· ∈ nodes p)
  | [], c, p, c', h => by cases h; exact fun x y hx => by simp [nodes, Piece.empty] at hx
  | x :: ss, c, p, c', h => by
    rw [orLoop] at h
    cases hx : par x c with
    | none => rw [hx] at h; simp at h
    | some r =>
      obtain ⟨q, c1⟩ := r
      rw [hx] at h
      simp only at h
      cases hy : orLoop par ss c1 with
      | none => rw [hy] at h; simp at h
      | some r2 =>
        obtain ⟨q2, c2⟩ := r2
        rw [hy] at h
        simp only [Option.some.injEq, Prod.mk.injEq] at h
        obtain ⟨rfl, rfl⟩ := h
        have h1 := hpar _ _ _ _ hx
        have h2 := fwd_or par hpar ss c1 q2 c2 hy
        refine one_union (m := c1) (hone _ _ _ _ hx) (one_or par hpar hone ss c1 q2 c2 hy) (fun x hx => (fwd_nodes h1 x hx).2)
          (fun x hx => (fwd_nodes h2 x hx).1) ?_
        intro z hz
        rcases mem_nodes.1 hz with hz | hz | ⟨e, he, hz⟩
        · rcases List.mem_append.1 hz with hz | hz
          · exact Or.inl (mem_nodes.2 (Or.inl hz))
          · exact Or.inr (mem_nodes.2 (Or.inl hz))
        · rcases List.mem_append.1 hz with hz | hz
          · exact Or.inl (mem_nodes.2 (Or.inr (Or.inl hz)))
          · exact Or.inr (mem_nodes.2 (Or.inr (Or.inl hz)))
        · rcases List.mem_append.1 he with he | he
          · exact Or.inl (mem_nodes.2 (Or.inr (Or.inr ⟨e, he, hz⟩)))
          · exact Or.inr (mem_nodes.2 (Or.inr (Or.inr ⟨e, he, hz⟩)))

theorem one_parse : ∀ (f : Nat) (ws : List Word) (c : Nat) (p : Piece) (c' : Nat), parse f ws c = some (p, c') → One (· ∈ nodes p)
  | 0, ws, c, p, c', h => by simp [parse] at h
  | f + 1, ws, c, p, c', h => by
    have ih := one_parse f
    rw [parse] at h
    split at h
    · rename_i s he
      cases hx : turns (parse f) (tokenise s).length 0 (tokenise s) ⟨Piece.empty, true, none, c⟩ with
      | none => rw [hx] at h; simp at h
      | some st =>
        rw [hx] at h
        simp only [Option.some.injEq, Prod.mk.injEq] at h
        obtain ⟨rfl, rfl⟩ := h
        have := one_turns (parse f) (fwd_parse f) ih _ (tokenise s) 0 _ st c ⟨fwd_empty c, by simp⟩
          (fun x y hx => by rcases hx with hx | hx <;> simp [nodes, Piece.empty] at hx) hx
        exact fun x y hx hy => this x y (Or.inl hx) (Or.inl hy)
    · exact one_or (parse f) (fwd_parse f) ih _ _ _ _ h

/-! ## The new tokens in the store -/

theorem make_tok (v : Env) (o : Tok) : ∀ (xs : List Node) (s : Store), One (· ∈ xs) →
    (∀ x ∈ xs, (make v o xs s).tok x.id = mkTok v o x) ∧ (∀ k, (∀ x ∈ xs, x.id ≠ k) → (make v o xs s).tok k = s.tok k) ∧
      (make v o xs s).next = s.next ∧ (make v o xs s).prec = s.prec := by
  intro xs
  induction xs with
  | nil => intro s _; exact ⟨by simp, fun k _ => rfl, rfl, rfl⟩
  | cons a xs ih =>
    intro s h
    obtain ⟨h1, h2, h3, h4⟩ := ih { s with tok := upd s.tok a.id (mkTok v o a) }
      (fun x y hx hy => h x y (List.mem_cons_of_mem _ hx) (List.mem_cons_of_mem _ hy))
    refine ⟨?_, ?_, h3, h4⟩
    · intro x hx
      rw [make]
      by_cases hm : x ∈ xs
      · exact h1 x hm
      · rcases List.mem_cons.1 hx with rfl | hx
        · by_cases hk : ∀ y ∈ xs, y.id ≠ x.id
          · rw [h2 x.id hk]
            exact upd_same _ _ _
          · exfalso
            refine hk (fun y hy e => hm ?_)
            rw [h x y List.mem_cons_self (List.mem_cons_of_mem _ hy) e.symm]
            exact hy
        · exact absurd hx hm
    · intro k hk
      rw [make, h2 k (fun x hx => hk x (List.mem_cons_of_mem _ hx))]
      exact upd_other _ _ _ (fun e => hk a List.mem_cons_self e.symm)

theorem install_spec (v : Env) (o : Tok) {p : Piece} {c lo : Nat} {s : Store} (hf : Fwd p lo c) (h1 : One (· ∈ nodes p)) (hs : Sym s) :
    Sym (install v o p c s) ∧ (install v o p c s).fresh = c ∧
      (∀ x ∈ nodes p, (install v o p c s).tok x.id = mkTok v o x) ∧ (∀ k, k < lo → (install v o p c s).tok k = s.tok k) ∧
      (∀ x y, y ∈ (install v o p c s).next x ↔ y ∈ s.next x ∨ ∃ e ∈ p.edges, e.1.id = x ∧ e.2.id = y) ∧
      (∀ x, x < lo → (install v o p c s).next x = s.next x) ∧ (∀ x, x < lo → (install v o p c s).prec x = s.prec x) := by
  obtain ⟨m1, m2, m3, m4⟩ := make_tok v o (nodes p) s h1
  have hps : ∀ q ∈ p.edges.map (fun e => (e.1.id, e.2.id)), lo ≤ q.1 ∧ lo ≤ q.2 := by
    intro q hq
    obtain ⟨e, he, rfl⟩ := List.mem_map.1 hq
    exact ⟨(hf.inside.edges e he).1.1, (hf.inside.edges e he).2.1⟩
  have ht := linkAll_tok (p.edges.map (fun e => (e.1.id, e.2.id))) { make v o (nodes p) s with fresh := c }
  refine ⟨linkAll_sym _ ?_, ht.2, ?_, ?_, ?_, ?_, ?_⟩
  · intro x y
    show ((make v o (nodes p) s).next x).count y = ((make v o (nodes p) s).prec y).count x
    rw [m3, m4]
    exact hs x y
  · intro x hx
    show (linkAll _ _).tok x.id = _
    rw [ht.1]
    exact m1 x hx
  · intro k hk
    show (linkAll _ _).tok k = _
    rw [ht.1]
    refine m2 k ?_
    intro x hx e
    have := fwd_nodes hf x hx
    omega
  · intro x y
    unfold install
    rw [linkAll_mem]
    show (y ∈ (make v o (nodes p) s).next x ∨ _) ↔ _
    rw [m3]
    simp only [List.mem_map, Prod.mk.injEq]
  · intro x hx
    unfold install
    rw [linkAll_next _ _ _ (fun q hq e => by have := (hps q hq).1; omega)]
    show (make v o (nodes p) s).next x = _
    rw [m3]
  · intro x hx
    unfold install
    rw [linkAll_prec _ _ _ (fun q hq e => by have := (hps q hq).2; omega)]
    show (make v o (nodes p) s).prec x = _
    rw [m4]

/-- What can be read from the new tokens. -/
theorem reads_chain {p : Piece} {g : Word → Word} {V : Nat → List Word → Prop} (h1 : One (· ∈ nodes p))
    (hV : ∀ x ∈ nodes p, ∀ u, V x.id u ↔ u = [g x.word]) :
    ∀ {n : Nat} {u : List Word}, Reads (fun x y => ∃ e ∈ p.edges, e.1.id = x ∧ e.2.id = y) (fun y => ∃ z ∈ p.ends, z.id = y) V n u →
      ∀ x ∈ nodes p, x.id = n → ∃ (path : List Node) (y : Node), path.head? = some x ∧ path.getLast? = some y ∧ y ∈ p.ends ∧
        Chain p.edges path ∧ u = (path.map Node.word).map g := by
  intro n u h
  induction h with
  | @last n u hl hv =>
    intro x hx e
    subst e
    obtain ⟨z, hz, e⟩ := hl
    have : z = x := h1 z x (mem_nodes.2 (Or.inr (Or.inl hz))) hx e
    subst this
    refine ⟨[z], z, rfl, rfl, hz, trivial, ?_⟩
    rw [(hV z hx u).1 hv]
    rfl
  | @step n m u w hv he _ ih =>
    intro x hx e
    subst e
    obtain ⟨e, he, e1, e2⟩ := he
    have hx1 : e.1 = x := h1 e.1 x (mem_nodes.2 (Or.inr (Or.inr ⟨e, he, Or.inl rfl⟩))) hx e1
    obtain ⟨path, y, p1, p2, p3, p4, p5⟩ := ih e.2 (mem_nodes.2 (Or.inr (Or.inr ⟨e, he, Or.inr rfl⟩))) e2
    cases path with
    | nil => simp at p1
    | cons z path =>
      simp only [List.head?_cons, Option.some.injEq] at p1
      subst p1
      refine ⟨x :: e.2 :: path, y, rfl, by rw [List.getLast?_cons_cons]; exact p2, p3, ⟨?_, p4⟩, ?_⟩
      · rw [← hx1]
        exact he
      · rw [(hV x hx u).1 hv, p5]
        rfl

theorem chain_reads {p : Piece} {g : Word → Word} {V : Nat → List Word → Prop}
    (hV : ∀ x ∈ nodes p, ∀ u, V x.id u ↔ u = [g x.word]) : ∀ (path : List Node) (x y : Node), path.head? = some x → x ∈ nodes p →
      path.getLast? = some y → y ∈ p.ends → Chain p.edges path →
      Reads (fun x y => ∃ e ∈ p.edges, e.1.id = x ∧ e.2.id = y) (fun y => ∃ z ∈ p.ends, z.id = y) V x.id ((path.map Node.word).map g)
  | [], x, y, h, _, _, _, _ => by simp at h
  | [a], x, y, h, hx, hl, hy, _ => by
    simp only [List.head?_cons, Option.some.injEq] at h
    subst h
    simp only [List.getLast?_singleton, Option.some.injEq] at hl
    subst hl
    exact .last ⟨a, hy, rfl⟩ ((hV a hx _).2 rfl)
  | a :: b :: path, x, y, h, hx, hl, hy, hc => by
    simp only [List.head?_cons, Option.some.injEq] at h
    subst h
    rw [List.getLast?_cons_cons] at hl
    have := chain_reads hV (b :: path) b y rfl (mem_nodes.2 (Or.inr (Or.inr ⟨(a, b), hc.1, Or.inr rfl⟩))) hl hy hc.2
    exact .step (u := [g a.word]) ((hV a hx _).2 rfl) ⟨(a, b), hc.1, rfl, rfl⟩ this

theorem piece_reads {p : Piece} {g : Word → Word} {V : Nat → List Word → Prop} (h1 : One (· ∈ nodes p))
    (hV : ∀ x ∈ nodes p, ∀ u, V x.id u ↔ u = [g x.word]) (u : List Word) :
    (∃ n, (∃ x ∈ p.starts, x.id = n) ∧
      Reads (fun x y => ∃ e ∈ p.edges, e.1.id = x ∧ e.2.id = y) (fun y => ∃ z ∈ p.ends, z.id = y) V n u) ↔
    ∃ w, Spells p w ∧ u = w.map g := by
  constructor
  · rintro ⟨n, ⟨x, hx, e⟩, hr⟩
    obtain ⟨path, y, p1, p2, p3, p4, p5⟩ := reads_chain h1 hV hr x (mem_nodes.2 (Or.inl hx)) e
    exact ⟨path.map Node.word, ⟨path, x, y, p1, hx, p2, p3, p4, rfl⟩, p5⟩
  · rintro ⟨w, ⟨path, x, y, p1, hx, p2, p3, p4, rfl⟩, rfl⟩
    exact ⟨x.id, ⟨x, hx, rfl⟩, chain_reads hV path x y p1 (mem_nodes.2 (Or.inl hx)) p2 p3 p4⟩

end Verif.Expand
