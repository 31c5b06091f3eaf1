import Verif.Infer.FromText
import Verif.Net.Props
/-!
# Segmented networks: readings and alignments
-/
set_option autoImplicit false
namespace Verif.Infer
open Verif.Net Verif.Text Verif.Lines Verif.CharNet Verif.NetBuild

theorem units_base {e : Enc} {b : CNet CW} (hb : Units e b) : ∃ rank, Base (Fit e) rank b.net := by
  obtain ⟨rank, hw⟩ := hb.wf
  refine ⟨rank, hw, ?_, ?_⟩
  · intro v p w ws hp hd hne
    have hwords : ∀ {v w : Nat} {p : List Nat}, b.net.Walk v p w → ∀ ws : List CW, p.map b.net.data = ws.map some → ∀ x ∈ ws, Joinable e x := by
      intro v w p h
      induction h with
      | nil v =>
        intro ws hd x hx
        cases ws with
        | nil => cases hx
        | cons y ys => cases hd
      | cons v a p w ha _ ih =>
        intro ws hd x hx
        cases ws with
        | nil => cases hx
        | cons y ys =>
          rw [List.map_cons, List.map_cons] at hd
          injection hd with h1 h2
          rcases List.mem_cons.1 hx with e1 | hx
          · obtain ⟨z, z1, z2⟩ := hb.words v a ha
            rw [h1] at z1
            cases z1
            rw [e1]; exact z2
          · exact ih ys h2 x hx
    refine ⟨?_, hwords hp ws hd, hb.short v p w ws hp hd⟩
    intro e0
    subst e0
    cases p with
    | nil => exact hne rfl
    | cons _ _ => cases hd
  · intro v a ha
    obtain ⟨w, h, _⟩ := hb.words v a ha
    exact ⟨w, h⟩

theorem Cuts.mono {W : Type} {R R' : List W → W → Prop} (h : ∀ run y, R run y → R' run y) {xs ys : List W} (hc : Cuts R xs ys) : Cuts R' xs ys := by
  induction hc with
  | nil => exact .nil
  | cons run y xs ys hr _ ih => exact .cons _ _ _ _ (h _ _ hr) ih

theorem made_piece {lex : List (List Nat)} {run : List CW} {y : CW}
    (h : Made (fun xs x => xs ≠ [] ∧ Joint xs x) (fun xs => spelling xs ∈ lex) run y) : Piece lex run y := by
  obtain ⟨⟨_, h1⟩, h2⟩ := h
  rcases h2 with h2 | ⟨h2, h3⟩
  · exact Or.inl h2
  · rcases h1 with h1 | ⟨_, h1⟩
    · rw [h1] at h2; simp at h2
    · exact Or.inr ⟨h2, h3, h1⟩

/-- A run of a network can be joined, and the join is found. -/
theorem offered {e : Enc} {lex : List (List Nat)} (hl : Lexicon e lex) {k : Nat} {run : List CW} {y : CW} (hf : ∀ j, 0 < j → run ≠ [] → Fit e (run.take j))
    (hp : ShortPiece k lex run y) : ∃ y', SameWord y y' ∧ Offered appendNoNull (inLex e lex) k run y' := by
  rcases hp with h | ⟨h1, h2, h3, h4⟩
  · exact ⟨y, rfl, Or.inl h⟩
  · cases run with
    | nil => simp at h1
    | cons x ds =>
      obtain ⟨z, z1, z2⟩ := fold_join (e := e) ds [x] x (by simp) (Or.inl rfl) (fun j => by
        have := hf (j + 1) (by omega) (by simp)
        rw [List.take_succ_cons] at this
        exact this)
      have z2 : Joint (x :: ds) z := z2
      have hfit : Fit e (x :: ds) := by
        have := hf (x :: ds).length (by simp) (by simp)
        rwa [List.take_length] at this
      have hj : IsJoin (x :: ds) z := by
        rcases z2 with h | ⟨_, h⟩
        · rw [h] at h1; simp at h1
        · exact h
      obtain ⟨r, r1, r2⟩ := inLex_spec hl hfit z2
      refine ⟨z, isJoin_unique h4 hj, Or.inr ⟨x, ds, rfl, ?_, ?_, z1, ?_⟩⟩
      · intro e0; rw [e0] at h1; simp at h1
      · simp only [List.length_cons] at h2; omega
      · rw [r1, r2.2 h3]

theorem walk_prefix {W : Type} {n : Net W} {v w : Nat} {p : List Nat} (h : n.Walk v p w) (j : Nat) : ∃ u, n.Walk v (p.take j) u := by
  induction h generalizing j with
  | nil v => exact ⟨v, by rw [List.take_nil]; exact .nil v⟩
  | cons v a p w ha _ ih =>
    cases j with
    | zero => exact ⟨v, .nil v⟩
    | succ j =>
      obtain ⟨u, hu⟩ := ih j
      exact ⟨u, .cons _ _ _ _ ha hu⟩

theorem cuts_offered {e : Enc} {lex : List (List Nat)} (hl : Lexicon e lex) {k : Nat} {n0 : Net CW} {rank : Nat → Nat} (hB : Base (Fit e) rank n0)
    {ws ws' : List CW} (hc : Cuts (ShortPiece k lex) ws ws') : ∀ (v w : Nat) (p : List Nat), n0.Walk v p w → p.map n0.data = ws.map some →
      ∃ ws'', SameWords ws' ws'' ∧ Cuts (Offered appendNoNull (inLex e lex) k) ws ws'' := by
  induction hc with
  | nil => intro v w p _ _; exact ⟨[], .nil, .nil⟩
  | cons run y xs ys hr _ ih =>
    intro v w p hp hd
    obtain ⟨u, q, r, g1, g2, g3, g4⟩ := walk_split run xs v p w hp hd
    obtain ⟨ws'', k1, k2⟩ := ih u w r g2 g4
    obtain ⟨y', y1, y2⟩ := offered hl (fun j hj hne => by
      obtain ⟨u', hu'⟩ := walk_prefix g1 j
      refine hB.fit v (q.take j) u' (run.take j) hu' (by rw [List.map_take, List.map_take, g3]) ?_
      intro e0
      have : (run.take j).length = 0 := by
        have h1 := congrArg List.length g3
        simp only [List.length_map] at h1
        have h2 := congrArg List.length e0
        simp only [List.length_take, List.length_nil] at h2 ⊢
        omega
      have hpos := List.length_pos_iff.2 hne
      rw [List.length_take] at this
      omega) hr
    exact ⟨y' :: ws'', .cons _ _ _ _ y1 k1, .cons _ _ _ _ y2 k2⟩

theorem sameWords_refl : ∀ xs : List CW, SameWords xs xs
  | [] => .nil
  | x :: xs => .cons x x xs xs rfl (sameWords_refl xs)

theorem piece_nonempty {lex : List (List Nat)} {run : List CW} {y : CW} (h : Piece lex run y) : run ≠ [] := by
  rcases h with h | ⟨h, _⟩
  · rw [h]; simp
  · intro e; rw [e] at h; simp at h

theorem produces_joinable {e : Enc} {b : CNet CW} (hb : Units e b) {ws : List CW} (hp : b.net.Produces ws) : ∀ w ∈ ws, Joinable e w := by
  obtain ⟨rank, hB⟩ := units_base hb
  unfold Net.Produces at hp
  cases hs : b.net.stop with
  | none => rw [hs] at hp; have hp : ws = [] := hp; rw [hp]; intro w hw; cases hw
  | some s =>
    rw [hs] at hp
    obtain ⟨p, h1, h2⟩ := hp
    intro w hw
    refine (hB.fit _ _ _ _ h1 h2 ?_).words w hw
    intro e0
    rw [e0] at h2
    cases ws with
    | nil => cases hw
    | cons _ _ => cases h2

theorem cuts_short {e : Enc} {lex : List (List Nat)} {k : Nat} (hk : Longest e lex k) {ws ws' : List CW} (hc : Cuts (Piece lex) ws ws') :
    (∀ w ∈ ws, Joinable e w) → (∀ w ∈ ws, ¬ IsNull w) → Cuts (ShortPiece k lex) ws ws' := by
  induction hc with
  | nil => intro _ _; exact .nil
  | cons run y xs ys hr _ ih =>
    intro h1 h2
    obtain ⟨a1, a2⟩ := all_append.1 h1
    obtain ⟨b1, b2⟩ := all_append.1 h2
    refine .cons _ _ _ _ ?_ (ih a2 b2)
    rcases hr with h | ⟨g1, g2, g3⟩
    · exact Or.inl h
    · exact Or.inr ⟨g1, run_short hk (by intro e0; rw [e0] at g1; simp at g1) a1 b1 g2, g2, g3⟩

theorem segment_spec (e : Enc) (lex : List (List Nat)) (b : CNet CW) (hl : Lexicon e lex) (hb : Units e b) :
    ∃ b' k, segment e lex b = some b' ∧ Longest e lex k ∧ (∃ rank, b.net.WF rank ∧ b'.net.WF rank) ∧ b'.net.Words ∧
      b'.net.start = b.net.start ∧ b'.net.stop = b.net.stop ∧
      (∀ v a, a ∈ b.net.out v → a ∈ b'.net.out v ∧ b'.net.dst a = b.net.dst a ∧ b'.net.data a = b.net.data a) ∧
      (∀ v, b'.net.Reach v → b'.vis v = b'.vis b'.net.start) ∧ (∀ ws, b'.net.Produces ws → Segmentation lex b ws) ∧
      (∀ us ws, b.net.Produces us → Cuts (ShortPiece k lex) us ws → ∃ ws', SameWords ws ws' ∧ b'.net.Produces ws') := by
  obtain ⟨k, h1, h2⟩ := maxLen_spec e lex hl.valid
  obtain ⟨rank, hB⟩ := units_base hb
  obtain ⟨b', g1, g2, g3, g4, g5⟩ := fullyConnect_spec (joins hl) b hB hb.bits k
  refine ⟨b', k, by unfold segment; rw [h1]; exact g1, h2, ⟨rank, hB.wf, g2.wf⟩, ext_words g2, g2.start, g2.stop, g2.old, g3, ?_, ?_⟩
  · intro ws hp
    obtain ⟨us, k1, k2⟩ := g4 ws hp
    exact ⟨us, k1, k2.mono fun _ _ => made_piece⟩
  · intro us ws hp hc
    have key : ∃ ws', SameWords ws ws' ∧ Cuts (Offered appendNoNull (inLex e lex) k) us ws' := by
      have hp := hp
      unfold Net.Produces at hp
      cases hs : b.net.stop with
      | none =>
        rw [hs] at hp
        have hp : us = [] := hp
        subst hp
        generalize he : ([] : List CW) = l at hc
        cases hc with
        | nil => exact ⟨[], .nil, .nil⟩
        | cons run y xs ys hr hc =>
          exfalso
          have : run = [] := (List.append_eq_nil_iff.1 he.symm).1
          rcases hr with h | ⟨h, _⟩
          · rw [h] at this; cases this
          · rw [this] at h; simp at h
      | some s =>
        rw [hs] at hp
        obtain ⟨p, w1, w2⟩ := hp
        exact cuts_offered hl hB hc _ _ _ w1 w2
    obtain ⟨ws', k1, k2⟩ := key
    exact ⟨ws', k1, g5 us ws' hp k2⟩

/-! ## Alignments -/

theorem cost_right {F : Funcs CW} (hd : F.dist = wwd F.isNull F.optDel F.equal) (hF : Blind F) {y y' : CW} (h : SameWord y y') (o : Option CW) :
    F.dist o (some y) = F.dist o (some y') := by
  rw [hd]
  cases o with
  | none => simp only [wwd, hF.null y y' h, hF.opt y y' h]
  | some x => simp only [wwd, hF.null y y' h, (hF.equal y y' x h).1]

theorem cost_left {F : Funcs CW} (hd : F.dist = wwd F.isNull F.optDel F.equal) (hF : Blind F) {y y' : CW} (h : SameWord y y') (o : Option CW) :
    F.dist (some y) o = F.dist (some y') o := by
  rw [hd]
  cases o with
  | none => simp only [wwd, hF.null y y' h, hF.opt y y' h]
  | some x => simp only [wwd, hF.null y y' h, (hF.equal y y' x h).2]

theorem costOf_cons (F : Funcs CW) (st : Step CW) (s : List (Step CW)) : costOf F (st :: s) = st.cost F + costOf F s := by
  simp [costOf]

theorem swap_right {F : Funcs CW} (hd : F.dist = wwd F.isNull F.optDel F.equal) (hF : Blind F) : ∀ (s : List (Step CW)) (ws : List CW),
    SameWords (rights s) ws → ∃ s', lefts s' = lefts s ∧ rights s' = ws ∧ costOf F s' = costOf F s := by
  intro s
  induction s with
  | nil => intro ws h; cases h; exact ⟨[], rfl, rfl, rfl⟩
  | cons st s ih =>
    intro ws h
    cases st with
    | sub x y =>
      have h : SameWords (y :: rights s) ws := h
      cases h with
      | cons _ y' _ ys h1 h2 =>
        obtain ⟨s', a1, a2, a3⟩ := ih ys h2
        refine ⟨.sub x y' :: s', ?_, ?_, ?_⟩
        · show x :: lefts s' = x :: lefts s; rw [a1]
        · show y' :: rights s' = _; rw [a2]
        · rw [costOf_cons, costOf_cons, a3]
          show F.dist (some x) (some y') + _ = F.dist (some x) (some y) + _
          rw [cost_right hd hF h1]
    | del x =>
      obtain ⟨s', a1, a2, a3⟩ := ih ws h
      refine ⟨.del x :: s', ?_, a2, ?_⟩
      · show x :: lefts s' = x :: lefts s; rw [a1]
      · rw [costOf_cons, costOf_cons, a3]
    | ins y =>
      have h : SameWords (y :: rights s) ws := h
      cases h with
      | cons _ y' _ ys h1 h2 =>
        obtain ⟨s', a1, a2, a3⟩ := ih ys h2
        refine ⟨.ins y' :: s', a1, ?_, ?_⟩
        · show y' :: rights s' = _; rw [a2]
        · rw [costOf_cons, costOf_cons, a3]
          show F.dist none (some y') + _ = F.dist none (some y) + _
          rw [cost_right hd hF h1]

theorem swap_left {F : Funcs CW} (hd : F.dist = wwd F.isNull F.optDel F.equal) (hF : Blind F) : ∀ (s : List (Step CW)) (ws : List CW),
    SameWords (lefts s) ws → ∃ s', lefts s' = ws ∧ rights s' = rights s ∧ costOf F s' = costOf F s := by
  intro s
  induction s with
  | nil => intro ws h; cases h; exact ⟨[], rfl, rfl, rfl⟩
  | cons st s ih =>
    intro ws h
    cases st with
    | sub x y =>
      have h : SameWords (x :: lefts s) ws := h
      cases h with
      | cons _ x' _ xs h1 h2 =>
        obtain ⟨s', a1, a2, a3⟩ := ih xs h2
        refine ⟨.sub x' y :: s', ?_, ?_, ?_⟩
        · show x' :: lefts s' = _; rw [a1]
        · show y :: rights s' = y :: rights s; rw [a2]
        · rw [costOf_cons, costOf_cons, a3]
          show F.dist (some x') (some y) + _ = F.dist (some x) (some y) + _
          rw [cost_left hd hF h1]
    | ins y =>
      obtain ⟨s', a1, a2, a3⟩ := ih ws h
      refine ⟨.ins y :: s', a1, ?_, ?_⟩
      · show y :: rights s' = y :: rights s; rw [a2]
      · rw [costOf_cons, costOf_cons, a3]
    | del x =>
      have h : SameWords (x :: lefts s) ws := h
      cases h with
      | cons _ x' _ xs h1 h2 =>
        obtain ⟨s', a1, a2, a3⟩ := ih xs h2
        refine ⟨.del x' :: s', ?_, a2, ?_⟩
        · show x' :: lefts s' = _; rw [a1]
        · rw [costOf_cons, costOf_cons, a3]
          show F.dist (some x') none + _ = F.dist (some x) none + _
          rw [cost_left hd hF h1]

end Verif.Infer
