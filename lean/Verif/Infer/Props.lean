import Verif.Infer.Best
import Verif.CtmIn.Props
/-!
# Inferred word segmentations (sclite): properties
-/
set_option autoImplicit false
namespace Verif.Infer
open Verif.Net Verif.Text Verif.Lines Verif.CharNet Verif.NetBuild

/-! ### C138 -/

/-- C138: when word segmentations are inferred, for every network of units and every sorted lexicon the network is kept as
it is, except for additional arcs; whatever can be read afterwards is some reading of the old network with runs of
consecutive units replaced by words of the lexicon that have the same spelling. -/
theorem segmentation_sound (e : Enc) (lex : List (List Nat)) (b : CNet CW) (hl : Lexicon e lex) (hb : Units e b) :
    ∃ b', segment e lex b = some b' ∧ (∃ rank, b.net.WF rank ∧ b'.net.WF rank) ∧ b'.net.start = b.net.start ∧ b'.net.stop = b.net.stop ∧
      (∀ v a, a ∈ b.net.out v → a ∈ b'.net.out v ∧ b'.net.dst a = b.net.dst a ∧ b'.net.data a = b.net.data a) ∧
      ∀ ws, b'.net.Produces ws → ∃ us, b.net.Produces us ∧ Cuts (Piece lex) us ws := by
  obtain ⟨b', k, h1, _, h3, _, h5, h6, h7, _, h9, _⟩ := segment_spec e lex b hl hb
  exact ⟨b', h1, h3, h5, h6, h7, h9⟩

/-- What a run is replaced by spells the same. -/
theorem piece_spelling {e : Enc} {lex : List (List Nat)} {run : List CW} {y : CW} (hj : ∀ x ∈ run, Joinable e x) (h : Piece lex run y) :
    text? y = some (spelling run) :=
  (facts_of (piece_nonempty h) hj (by
    rcases h with h | ⟨h1, _, h3⟩
    · exact Or.inl h
    · exact Or.inr ⟨h1, h3⟩)).text

/-- C138: in particular the spelling of the whole is not changed, for readings without null words. -/
theorem segmentation_text {e : Enc} {lex : List (List Nat)} {us ws : List CW} (hc : Cuts (Piece lex) us ws) :
    (∀ u ∈ us, Joinable e u) → (∀ u ∈ us, ¬ IsNull u) → ws.flatMap (fun w => (text? w).getD []) = us.flatMap textOf := by
  induction hc with
  | nil => intro _ _; rfl
  | cons run y xs ys hr _ ih =>
    intro h1 h2
    obtain ⟨a1, a2⟩ := all_append.1 h1
    obtain ⟨b1, b2⟩ := all_append.1 h2
    rw [List.flatMap_cons, List.flatMap_append, ih a2 b2, piece_spelling a1 hr]
    congr 1
    have hne := piece_nonempty hr
    have h4 : ¬ ∀ x ∈ run, IsNull x := by
      obtain ⟨x, hx⟩ := List.exists_mem_of_ne_nil _ hne
      exact fun h => b1 x hx (h x hx)
    have h5 : run.filter (fun x => ¬ IsNull x) = run := by
      rw [List.filter_eq_self]
      intro x hx
      simp [b1 x hx]
    rw [Option.getD_some, spelling_real h4, h5]

/-! ### C139 -/

/-- C139: every way to segment a reading without null words into units and words of the lexicon is a reading of the new
network (up to the confidences of the words); and there are no other readings. -/
theorem segmentation_complete_partial (e : Enc) (lex : List (List Nat)) (b : CNet CW) (hl : Lexicon e lex) (hb : Units e b) (hn : NoNulls b) :
    ∃ b', segment e lex b = some b' ∧ (∀ ws, b'.net.Produces ws → Segmentation lex b ws) ∧
      ∀ ws, Segmentation lex b ws → ∃ ws', SameWords ws ws' ∧ b'.net.Produces ws' := by
  obtain ⟨b', k, h1, h2, _, _, _, _, _, _, h9, h10⟩ := segment_spec e lex b hl hb
  refine ⟨b', h1, h9, ?_⟩
  rintro ws ⟨us, g1, g2⟩
  exact h10 us ws g1 (cuts_short h2 g2 (produces_joinable hb g1) (hn us g1))

/-- C139: with null words, at least all segmentations are found in which no word stands for more units and null words
together than the longest word of the lexicon has characters. -/
theorem segmentation_short (e : Enc) (lex : List (List Nat)) (b : CNet CW) (hl : Lexicon e lex) (hb : Units e b) :
    ∃ b' k, segment e lex b = some b' ∧ Longest e lex k ∧
      ∀ us ws, b.net.Produces us → Cuts (ShortPiece k lex) us ws → ∃ ws', SameWords ws ws' ∧ b'.net.Produces ws' := by
  obtain ⟨b', k, h1, h2, _, _, _, _, _, _, _, h10⟩ := segment_spec e lex b hl hb
  exact ⟨b', k, h1, h2, h10⟩

/-! ### C140 -/

/-- C140: aligned with any network, the segmented one on either side, the alignment has the lowest total of the standard
costs over all readings of the one and all segmentations of all readings of the other; the path reported belongs to one of
each. -/
theorem inferred_alignment_best_partial (F : Funcs CW) (hd : F.dist = wwd F.isNull F.optDel F.equal) (hF : Blind F) (e : Enc)
    (lex : List (List Nat)) (a b : CNet CW) (hl : Lexicon e lex) (hb : Units e b) (hn : NoNulls b) (ra : Nat → Nat) (wa : a.net.WF ra)
    (da : a.net.Words) (ua : ∀ v, a.net.Reach v → a.vis v = a.vis a.net.start) (t0 : Table) (incl : Bool) (fla flb : Nat → Int) :
    ∃ b', segment e lex b = some b' ∧ (a.net.nArcs < 65534 → b'.net.nArcs < 65534 →
      (∃ la lb r s, dpalign F a.net b'.net ⟨fla, a.vis⟩ ⟨flb, b'.vis⟩ t0 incl = some (la, lb, r) ∧
        a.net.Produces (lefts s) ∧ Segmentation lex b (rights s) ∧ Total F s r.cost ∧ r.path = s.flatMap (reported F incl) ∧
        ∀ s' c, a.net.Produces (lefts s') → Segmentation lex b (rights s') → Total F s' c → r.cost ≤ c) ∧
      (∃ la lb r s, dpalign F b'.net a.net ⟨flb, b'.vis⟩ ⟨fla, a.vis⟩ t0 incl = some (lb, la, r) ∧
        Segmentation lex b (lefts s) ∧ a.net.Produces (rights s) ∧ Total F s r.cost ∧ r.path = s.flatMap (reported F incl) ∧
        ∀ s' c, Segmentation lex b (lefts s') → a.net.Produces (rights s') → Total F s' c → r.cost ≤ c)) := by
  obtain ⟨b', k, h1, h2, ⟨rb, _, wb⟩, h4, h5, h6, _, h8, h9, h10⟩ := segment_spec e lex b hl hb
  have hcomp : ∀ ws, Segmentation lex b ws → ∃ ws', SameWords ws ws' ∧ b'.net.Produces ws' := by
    rintro ws ⟨us, g1, g2⟩
    exact h10 us ws g1 (cuts_short h2 g2 (produces_joinable hb g1) (hn us g1))
  refine ⟨b', h1, fun ha hb' => ⟨?_, ?_⟩⟩
  · obtain ⟨la, lb, r, k1, s, k2, k3, k4, k5, _⟩ := dpalign_spec F a.net b'.net ra rb ⟨fla, a.vis⟩ ⟨flb, b'.vis⟩ t0 incl 4000 wa wb da h4
      ua h8 ha hb' (wwd_below F hd _ _ ha hb')
    refine ⟨la, lb, r, s, k1, k2.1, h9 _ k2.2, (wwd_total F hd _ _).2 k3, k5, ?_⟩
    intro s' c e1 e2 e3
    obtain ⟨ws', w1, w2⟩ := hcomp _ e2
    obtain ⟨s2, x1, x2, x3⟩ := swap_right hd hF s' ws' w1
    have := k4 s2 ⟨by rw [x1]; exact e1, by rw [x2]; exact w2⟩
    rw [x3, (wwd_total F hd _ _).1 e3] at this
    exact this
  · obtain ⟨lb, la, r, k1, s, k2, k3, k4, k5, _⟩ := dpalign_spec F b'.net a.net rb ra ⟨flb, b'.vis⟩ ⟨fla, a.vis⟩ t0 incl 4000 wb wa h4 da
      h8 ua hb' ha (wwd_below F hd _ _ hb' ha)
    refine ⟨la, lb, r, s, k1, h9 _ k2.1, k2.2, (wwd_total F hd _ _).2 k3, k5, ?_⟩
    intro s' c e1 e2 e3
    obtain ⟨ws', w1, w2⟩ := hcomp _ e1
    obtain ⟨s2, x1, x2, x3⟩ := swap_left hd hF s' ws' w1
    have := k4 s2 ⟨by rw [x1]; exact w2, by rw [x2]; exact e2⟩
    rw [x3, (wwd_total F hd _ _).1 e3] at this
    exact this

/-! ### C141 -/

/-- C141: words made into one word: the texts are put together, null words left out; the word extends from the start of the
first to the end of the last, is optionally deletable or a fragment if all of them are, and its confidence is between the
lowest and the highest. -/
theorem join_words (e : Enc) (x : CW) (xs : List CW) (hne : xs ≠ []) (hj : ∀ w ∈ x :: xs, Joinable e w)
    (hs : x.opt = false ∨ ((x :: xs).flatMap textOf).length < 9998) :
    ∃ z, xs.foldlM appendNoNull x = some z ∧ IsJoin (x :: xs) z := by
  obtain ⟨z, z1, z2⟩ := fold_join (e := e) xs [x] x (by simp) (Or.inl rfl) (by
    intro k
    refine ⟨by simp, ?_, ?_⟩
    · intro w hw
      rcases List.mem_append.1 hw with hw | hw
      · exact hj w (by rw [List.mem_singleton.1 hw]; simp)
      · exact hj w (List.mem_cons_of_mem _ (List.mem_of_mem_take hw))
    · intro ho
      rcases hs with h | h
      · have := ho x (by simp); rw [h] at this; cases this
      · refine Nat.lt_of_le_of_lt ?_ h
        have : (x :: xs).flatMap textOf = ([x] ++ xs.take k).flatMap textOf ++ (xs.drop k).flatMap textOf := by
          rw [← List.flatMap_append]
          simp
        rw [this, List.length_append]
        omega)
  refine ⟨z, z1, ?_⟩
  rcases z2 with h | ⟨_, h⟩
  · exfalso
    cases xs with
    | nil => exact hne rfl
    | cons a xs => simp at h
  · exact h

/-- C141: words with the same confidence keep it. -/
theorem join_same_confidence {xs : List CW} {w : CW} (h : IsJoin xs w) (c : Rat) (hc : ∀ x ∈ xs, x.conf = c) : w.conf = c := by
  obtain ⟨h1, h2⟩ := h.conf c c (fun x hx => by rw [hc x hx]; exact ⟨Rat.le_refl, Rat.le_refl⟩)
  exact Rat.le_antisymm h2 h1

/-- Optionally deletable words that are too long together overflow a buffer. -/
theorem join_overflow (w1 w2 : CW) (a b : List Nat) (h1 : w1.opt = true) (h2 : w2.opt = true) (i1 : w1.intern = some a)
    (i2 : w2.intern = some b) (hl : 9998 ≤ (a ++ b).length) : appendNoNull w1 w2 = none := by
  unfold appendNoNull
  rw [h1, h2, if_pos (by decide), i1, i2]
  dsimp only
  rw [if_neg (by unfold bufSize; omega)]

/-! ### C142 -/

/-- C142: the lexicon that is loaded has one word for each line of the file, in the same order: the first field of the
line.  The length that limits the search is that of the longest word in characters. -/
theorem lexicon_words (e : Enc) (file : List Nat) (h0 : ∀ c ∈ file, c ≠ 0)
    (hv : ∀ ls, IsLines file ls → ∀ l ∈ ls, ∃ m, Valid e m ∧ (l = m ++ [10] ∨ (l = m ∧ 10 ∉ m))) :
    ∃ ls lex, IsLines file ls ∧ loadList e file = some lex ∧ lex.length = ls.length ∧
      (∀ (i : Nat) (l w : List Nat), ls[i]? = some l → lex[i]? = some w → ∃ m, (l = m ++ [10] ∨ l = m) ∧ 10 ∉ m ∧ FirstWord e m w) ∧
      (∀ w ∈ lex, Valid e w) ∧ ∃ k, maxLen e lex = some k ∧ Longest e lex k := by
  obtain ⟨ls, h1, h2⟩ := lines_complete 100 100 file h0 (by decide) (by decide)
  have hnl : ∀ {s : List Nat} {ls : List (List Nat)}, IsLines s ls → ∀ l ∈ ls, (∃ m, l = m ++ [10] ∧ 10 ∉ m) ∨ (10 ∉ l) := by
    intro s ls h
    induction h with
    | nil => intro l hl; cases hl
    | last _ h => intro l hl; rw [List.mem_singleton.1 hl]; exact Or.inr h
    | @cons l' s' ls' h _ ih =>
      intro l hl
      rcases List.mem_cons.1 hl with e1 | hl
      · exact Or.inl ⟨l', e1, h⟩
      · exact ih l hl
  have hline : ∀ l ∈ ls, ∃ w, firstField e l = some w ∧ ∃ m, (l = m ++ [10] ∨ l = m) ∧ 10 ∉ m ∧ FirstWord e m w := by
    intro l hl
    obtain ⟨m, hm, hlm⟩ := hv ls h2 l hl
    rcases hnl h2 l hl with ⟨m', e1, hn⟩ | hn
    · -- the line ends with a newline
      have hx : xnewline l = m' := by
        unfold xnewline
        rw [e1, if_pos (by simp), List.dropLast_concat]
      rcases hlm with e2 | e2
      · have : m = m' := by rw [e1] at e2; exact (List.append_inj_left' e2 rfl).symm
        subst this
        obtain ⟨w, w1, w2⟩ := firstField_spec e l m hm hx
        exact ⟨w, w1, m, Or.inl e1, hn, w2⟩
      · exfalso; rw [← e2.1, e1] at e2; simp at e2
    · have hx : xnewline l = l := by
        unfold xnewline
        rw [if_neg]
        intro h
        exact hn (List.mem_of_getLast? h)
      rcases hlm with e2 | e2
      · exfalso; rw [e2] at hn; simp at hn
      · obtain ⟨w, w1, w2⟩ := firstField_spec e l m hm (by rw [hx, e2.1])
        exact ⟨w, w1, m, Or.inr e2.1, e2.2, w2⟩
  obtain ⟨lex, g1, g2, g3⟩ := mapM_spec (firstField e) _ ls hline
  have hval : ∀ w ∈ lex, Valid e w := by
    intro w hw
    obtain ⟨i, hi, e1⟩ := List.getElem_of_mem hw
    have : ls[i]? = some (ls[i]'(by omega)) := List.getElem?_eq_getElem _
    obtain ⟨m, _, _, gap, cs, rest, _, k2, _, _, _, _, k7⟩ := g3 i _ w this (by rw [List.getElem?_eq_getElem hi, e1])
    exact ⟨cs, k7, fun c hc => k2 c (by simp [hc])⟩
  refine ⟨ls, lex, h2, ?_, g2, g3, hval, maxLen_spec e lex hval⟩
  unfold loadList
  rw [h1]
  exact g1

/-! ### From the text and the lexicon file -/

/-- C139 from the bytes of the text and of the lexicon, without option `-D`: sclite's network of segmentations can be read as
exactly the segmentations of the readings of the text as sequences of characters (up to confidences), if there are no null
words. -/
theorem text_segmentations_partial (e : Enc) (f : Split.Flags) (hg : EncFits e f) (frag : Bool) (s : Seq) (t : List Nat)
    (hw : s.Writes false t) (hok : s.Ok e) (hfit : Fits40 t.length s.depth) (hsp : SpellText e f false frag s) (file : List Nat)
    (lex : List (List Nat)) (hload : loadList e file = some lex) (hl : Lexicon e lex)
    (hn : ∀ us, charDen e f false frag s us → ∀ u ∈ us, ¬ IsNull u) :
    ∃ b K, (∀ fuel, K < fuel → segmentText e f false frag fuel file t = .ok b) ∧
      (∀ ws, b.net.Produces ws → ∃ us, charDen e f false frag s us ∧ Cuts (Piece lex) us ws) ∧
      ∀ us ws, charDen e f false frag s us → Cuts (Piece lex) us ws → ∃ ws', SameWords ws ws' ∧ b.net.Produces ws' := by
  obtain ⟨b0, K, h1, h2, h3⟩ := text_units e f hg frag s t hw hok hfit hsp
  obtain ⟨b, g1, g2, g3⟩ := segmentation_complete_partial e lex b0 hl h2 (fun us hu => hn us ((h3 us).1 hu))
  refine ⟨b, K, ?_, ?_, ?_⟩
  · intro fuel hf
    unfold segmentText
    rw [hload]
    dsimp only
    rw [h1 fuel hf]
    dsimp only
    rw [g1]
  · intro ws hp
    obtain ⟨us, k1, k2⟩ := g2 ws hp
    exact ⟨us, (h3 us).1 k1, k2⟩
  · intro us ws hu hc
    exact g3 ws ⟨us, (h3 us).2 hu, hc⟩

/-- While the loop over the arcs that leave the end of an arc runs, their list does not change: the recursion only adds arcs
at the node where the first arc starts. -/
theorem loop_lists_fixed (e : Enc) (lex : List (List Nat)) (b : CNet CW) (hl : Lexicon e lex) (hb : Units e b) (u a k : Nat) (w : CW)
    (ha : a ∈ b.net.out u) (hd : b.net.data a = some w) :
    ∃ n', recConnect appendNoNull (inLex e lex) a k a w b.net = some n' ∧ (∀ v, v ≠ u → n'.out v = b.net.out v) ∧ b.net.dst a ≠ u := by
  obtain ⟨rank, hB⟩ := units_base hb
  have hwalk : b.net.Walk u [a] (b.net.dst a) := .cons _ _ _ _ ha (.nil _)
  have hwords : [a].map b.net.data = [w].map some := by simp [hd]
  obtain ⟨n', h1, _, _, h4, _⟩ := rec_spec (joins hl) hB u a k a w b.net [a] [w] (Ext.refl (joins hl) hB) ha hwalk hwords (by simp)
    ((joins hl).one w (hB.fit _ _ _ _ hwalk hwords (by simp)))
  refine ⟨n', h1, h4, ?_⟩
  intro e0
  have := (hB.wf.out_ok u a ha).2.2.2.2.2
  rw [e0] at this
  exact Nat.lt_irrefl _ this

/-! ### Examples -/

/-- A network with one reading. -/
def lineNet (ws : List CW) : CNet CW where
  net :=
    { start := 0
      stop := some ws.length
      nNodes := ws.length + 1
      nArcs := ws.length
      out := fun v => if v < ws.length then [v] else []
      inn := fun v => if 0 < v ∧ v ≤ ws.length then [v - 1] else []
      src := fun a => a
      dst := fun a => a + 1
      data := fun a => ws[a]? }
  vis := fun _ => false

theorem line_out {ws : List CW} {v a : Nat} (h : a ∈ (lineNet ws).net.out v) : v < ws.length ∧ a = v := by
  have h : a ∈ if v < ws.length then [v] else [] := h
  by_cases hv : v < ws.length
  · rw [if_pos hv] at h; exact ⟨hv, List.mem_singleton.1 h⟩
  · rw [if_neg hv] at h; cases h

theorem line_wf (ws : List CW) (hne : ws ≠ []) : (lineNet ws).net.WF id := by
  have hpos := List.length_pos_iff.2 hne
  refine ⟨Nat.succ_pos _, ?_, ?_, ?_, ?_, ?_, ?_, ?_, ?_⟩
  · intro v a h
    obtain ⟨h1, rfl⟩ := line_out h
    refine ⟨h1, rfl, ?_, Nat.lt_succ_of_lt h1, Nat.succ_lt_succ h1, Nat.lt_succ_self _⟩
    show a ∈ if 0 < a + 1 ∧ a + 1 ≤ ws.length then [a + 1 - 1] else []
    rw [if_pos ⟨Nat.succ_pos _, h1⟩]
    simp
  · intro v a h
    have h : a ∈ if 0 < v ∧ v ≤ ws.length then [v - 1] else [] := h
    by_cases hv : 0 < v ∧ v ≤ ws.length
    · rw [if_pos hv] at h
      have h := List.mem_singleton.1 h
      refine ⟨show a + 1 = v by omega, ?_⟩
      show a ∈ if a < ws.length then [a] else []
      rw [if_pos (by omega)]; simp
    · rw [if_neg hv] at h; cases h
  · intro v
    show (if v < ws.length then [v] else []).Nodup
    split <;> simp
  · intro v
    show (if 0 < v ∧ v ≤ ws.length then [v - 1] else []).Nodup
    split <;> simp
  · intro v h1 h2
    obtain ⟨a, ha⟩ := List.exists_mem_of_ne_nil _ h1
    obtain ⟨h3, _⟩ := line_out ha
    show (if 0 < v ∧ v ≤ ws.length then [v - 1] else []) ≠ []
    have h2 : v ≠ 0 := h2
    rw [if_pos (by omega)]; simp
  · rfl
  · intro s hs
    have hs : ws.length = s := Option.some.inj hs
    subst hs
    refine ⟨?_, ?_⟩
    · show (if ws.length < ws.length then _ else _) = _
      rw [if_neg (Nat.lt_irrefl _)]
    · show (if 0 < ws.length ∧ ws.length ≤ ws.length then [ws.length - 1] else []) ≠ []
      rw [if_pos ⟨hpos, Nat.le_refl _⟩]; simp
  · intro h; cases h

theorem line_units {e : Enc} (ws : List CW) (hne : ws ≠ []) (hj : ∀ w ∈ ws, Joinable e w) (hp : ∀ w ∈ ws, w.opt = false) : Units e (lineNet ws) := by
  have hdata : ∀ v a, a ∈ (lineNet ws).net.out v → ∃ w, (lineNet ws).net.data a = some w ∧ w ∈ ws := by
    intro v a ha
    obtain ⟨h1, rfl⟩ := line_out ha
    exact ⟨ws[a], List.getElem?_eq_getElem h1, List.getElem_mem _⟩
  refine ⟨⟨id, line_wf ws hne⟩, ?_, fun _ _ => rfl, ?_⟩
  · intro v a ha
    obtain ⟨w, h1, h2⟩ := hdata v a ha
    exact ⟨w, h1, hj w h2⟩
  · intro v p u us hwalk hd ho
    cases us with
    | nil => decide
    | cons x us =>
      exfalso
      cases hwalk with
      | nil => cases hd
      | cons _ a p' _ ha _ =>
        rw [List.map_cons, List.map_cons] at hd
        injection hd with hd _
        obtain ⟨w, w1, w2⟩ := hdata v a ha
        rw [hd] at w1
        cases w1
        have := ho x (by simp)
        rw [hp x w2] at this
        cases this

theorem line_produces (ws : List CW) : (lineNet ws).net.Produces ws := by
  have key : ∀ k i : Nat, i + k = ws.length → ∃ p, (lineNet ws).net.Walk i p ws.length ∧ p.map (lineNet ws).net.data = (ws.drop i).map some := by
    intro k
    induction k with
    | zero =>
      intro i hi
      have : i = ws.length := hi
      subst this
      exact ⟨[], .nil _, by simp⟩
    | succ k ih =>
      intro i hi
      obtain ⟨p, h1, h2⟩ := ih (i + 1) (by omega)
      have hlt : i < ws.length := by omega
      refine ⟨i :: p, .cons _ _ _ _ ?_ h1, ?_⟩
      · show i ∈ if i < ws.length then [i] else []
        rw [if_pos hlt]; simp
      · rw [List.map_cons, h2, List.drop_eq_getElem_cons hlt, List.map_cons]
        show ws[i]? :: _ = _
        rw [List.getElem?_eq_getElem hlt]
  obtain ⟨p, h1, h2⟩ := key ws.length 0 (by omega)
  exact ⟨p, h1, by simpa using h2⟩

/-- A word of one character. -/
def chr (b : Nat) (t : Rat) (c : Rat) : CW := ⟨[b], none, false, false, t, t + 1, 1, c⟩

theorem chr_joinable (b : Nat) (t c : Rat) (hb : 0 < b ∧ b < 128) : Joinable .ascii (chr b t c) :=
  ⟨(nofun), ⟨⟨[[b]], rfl, fun x hx => by
    rw [List.mem_singleton.1 hx]
    exact ⟨b, [], rfl, nbytes_ascii _ hb.2, fun y hy => by rw [List.mem_singleton.1 hy]; exact ⟨hb.1, by omega⟩⟩⟩, by simp [chr, textOf]⟩, fun h => h⟩

/-- The characters a, b, c. -/
def abc : List CW := [chr 97 0 1, chr 98 1 1, chr 99 2 0]

theorem abc_units : Units .ascii (lineNet abc) :=
  line_units _ (by decide) (fun w hw => by
    simp only [abc, List.mem_cons, List.not_mem_nil, or_false] at hw
    rcases hw with rfl | rfl | rfl <;> exact chr_joinable _ _ _ (by decide)) (by decide +kernel)

theorem ascii_valid (w : List Nat) (h : ∀ b ∈ w, 0 < b ∧ b < 128) : Valid .ascii w := by
  refine ⟨w.map fun b => [b], ?_, ?_⟩
  · clear h
    induction w with
    | nil => rfl
    | cons b w ih => rw [List.map_cons, List.flatten_cons, ← ih]; rfl
  · intro c hc
    obtain ⟨b, hb, rfl⟩ := List.mem_map.1 hc
    exact ⟨b, [], rfl, nbytes_ascii _ (h b hb).2, fun y hy => by rw [List.mem_singleton.1 hy]; exact ⟨(h b hb).1, by have := (h b hb).2; omega⟩⟩

theorem sorted_two {e : Enc} {x y : List Nat} {r : Int} (h : strcmp e x y = some r) (hr : r ≤ 0) : SortedBy e [x, y] := by
  intro i j p q hij hi hj
  match i, j, hij with
  | 0, 1, _ => simp at hi hj; subst hi hj; exact ⟨r, h, hr⟩
  | 0, j + 2, _ => simp at hj
  | i + 1, j + 2, _ => simp at hj

/-- The lexicon "ab", "bc". -/
theorem ab_bc : Lexicon .ascii [[97, 98], [98, 99]] :=
  ⟨by
    intro w hw
    simp only [List.mem_cons, List.not_mem_nil, or_false] at hw
    rcases hw with rfl | rfl <;> exact ascii_valid _ (by decide), sorted_two (r := -1) (by decide +kernel) (by decide)⟩

/-- The arcs of a network with their words. -/
def arcsOf (n : Nat) (r : Option (CNet CW)) : Option (List (List (Nat × Option (List Nat)))) :=
  r.map fun b => (List.range n).map fun v => (b.net.out v).map fun a => (b.net.dst a, (b.net.data a).map CW.value)

/-- "abc" with that lexicon: arcs for "ab" and "bc" are added. -/
example : arcsOf 4 (segment .ascii [[97, 98], [98, 99]] (lineNet abc)) =
    some [[(1, some [97]), (2, some [97, 98])], [(2, some [98]), (3, some [98, 99])],
      [(3, some [99])], []] := by decide +kernel

theorem abc_noNulls : NoNulls (lineNet abc) := by
  intro ws hp w hw hn
  have hj := produces_joinable abc_units hp
  obtain ⟨p, h1, h2⟩ : ∃ p, (lineNet abc).net.Walk 0 p 3 ∧ p.map (lineNet abc).net.data = ws.map some := hp
  have : ∀ (v : Nat) (p : List Nat) (s : Nat) (ws : List CW), (lineNet abc).net.Walk v p s → p.map (lineNet abc).net.data = ws.map some →
      ∀ w ∈ ws, w ∈ abc := by
    intro v p s ws h
    induction h generalizing ws with
    | nil v =>
      intro hd w hw
      cases ws with
      | nil => cases hw
      | cons _ _ => cases hd
    | cons v a p s ha _ ih =>
      intro hd w hw
      cases ws with
      | nil => cases hw
      | cons y ys =>
        rw [List.map_cons, List.map_cons] at hd
        injection hd with k1 k2
        rcases List.mem_cons.1 hw with e1 | hw
        · rw [e1]; exact List.mem_of_getElem? k1
        · exact ih ys k2 w hw
  have hm := this 0 p 3 ws h1 h2 w hw
  have : ∀ w ∈ abc, ¬ IsNull w := by decide
  exact this w hm hn

example : ∃ b', segment .ascii [[97, 98], [98, 99]] (lineNet abc) = some b' ∧ ∃ ws, b'.net.Produces ws ∧ ws.map CW.value = [[97, 98], [99]] := by
  obtain ⟨b', h1, _, h3⟩ := segmentation_complete_partial .ascii _ _ ab_bc abc_units abc_noNulls
  obtain ⟨ws', w1, w2⟩ := h3 [joined (chr 97 0 1) (chr 98 1 1) [97, 98] none false, chr 99 2 0] ⟨abc, line_produces abc,
    .cons [chr 97 0 1, chr 98 1 1] _ [chr 99 2 0] _ (Or.inr ⟨by decide, by decide, by
      obtain ⟨z, z1, z2⟩ := join_words .ascii (chr 97 0 1) [chr 98 1 1] (by simp) (fun w hw => by
        simp only [List.mem_cons, List.not_mem_nil, or_false] at hw
        rcases hw with rfl | rfl <;> exact chr_joinable _ _ _ (by decide)) (Or.inl rfl)
      have : z = joined (chr 97 0 1) (chr 98 1 1) [97, 98] none false := (Option.some.inj z1).symm
      rw [← this]; exact z2⟩) (.cons [chr 99 2 0] _ [] [] (Or.inl rfl) .nil)⟩
  refine ⟨b', h1, ws', w2, ?_⟩
  cases w1 with
  | cons _ y _ ys k1 k2 =>
    cases k2 with
    | cons _ y2 _ ys2 k3 k4 =>
      cases k4
      have e1 := congrArg CW.value k1
      have e2 := congrArg CW.value k3
      have e1 : [97, 98] = y.value := e1
      have e2 : [99] = y2.value := e2
      simp [← e1, ← e2]

/-- Functions as they are used: null words and equality by text, case counting. -/
def exFuncs : Funcs CW where
  dist := wwd (fun w => decide (IsNull w)) CW.opt (fun x y => decide (textOf x = textOf y))
  isNull := fun w => decide (IsNull w)
  optDel := CW.opt
  equal := fun x y => decide (textOf x = textOf y)
  empty := ⟨[64], none, false, false, 0, 0, 0, 0⟩

theorem exFuncs_blind : Blind exFuncs := by
  have hv : ∀ x y, SameWord x y → x.value = y.value := fun x y h => by
    have e := congrArg CW.value h; exact e
  have ho : ∀ x y, SameWord x y → x.opt = y.opt := fun x y h => by
    have e := congrArg CW.opt h; exact e
  have hi : ∀ x y, SameWord x y → x.intern = y.intern := fun x y h => by
    have e := congrArg CW.intern h; exact e
  have ht : ∀ x y, SameWord x y → textOf x = textOf y := fun x y h => by
    unfold textOf; rw [hv x y h, ho x y h, hi x y h]
  refine ⟨?_, ho, ?_⟩
  · intro x y h
    show decide (x.value = [64]) = decide (y.value = [64])
    rw [hv x y h]
  · intro x y z h
    refine ⟨?_, ?_⟩
    · show decide (textOf z = textOf x) = decide (textOf z = textOf y)
      rw [ht x y h]
    · show decide (textOf x = textOf z) = decide (textOf y = textOf z)
      rw [ht x y h]

/-- A network of one word, "abc", aligned with the segmentations of the characters a, b, c. -/
example (t0 : Table) : ∃ b', segment .ascii [[97, 98], [98, 99]] (lineNet abc) = some b' ∧ (b'.net.nArcs < 65534 → ∃ la lb r s,
    dpalign exFuncs (lineNet [chr 97 0 1]).net b'.net ⟨fun _ => 0, fun _ => false⟩ ⟨fun _ => 0, b'.vis⟩ t0 false = some (la, lb, r) ∧
      Total exFuncs s r.cost) := by
  obtain ⟨b', h1, h2⟩ := inferred_alignment_best_partial exFuncs rfl exFuncs_blind .ascii _ (lineNet [chr 97 0 1]) _ ab_bc abc_units
    abc_noNulls id (line_wf _ (by simp)) (fun v a ha => by obtain ⟨h, rfl⟩ := line_out ha; exact ⟨_, List.getElem?_eq_getElem h⟩)
    (fun _ _ => rfl) t0 false (fun _ => 0) (fun _ => 0)
  refine ⟨b', h1, fun h => ?_⟩
  obtain ⟨⟨la, lb, r, s, k1, _, _, k4, _⟩, _⟩ := h2 (by decide) h
  exact ⟨la, lb, r, s, k1, k4⟩

/-- The text "{ (ab) / (cd) }" without option `-D`, in which parentheses are characters, and the lexicon "ab", "cd". -/
example : ∃ b K, ∀ fuel, K < fuel → segmentText .utf8 plain false false fuel (CharNet.txt "ab\ncd\n") (CharNet.txt "{ (ab) / (cd) }") = .ok b := by
  have hnull : ∀ (t : List Nat) (us ws : List CW), [CharNet.decode false false (fresh ⟨t, none, none⟩)] = us.map some → ws = us.flatMap (spelled .utf8 plain) →
      (∀ u ∈ spelled .utf8 plain (word false t), ¬ IsNull u) → ∀ u ∈ ws, ¬ IsNull u := by
    intro t us ws h1 h2 h3
    cases us with
    | nil => cases h1
    | cons x us =>
      rw [List.map_cons] at h1
      injection h1 with h1 h4
      cases us with
      | cons _ _ => cases h4
      | nil =>
        have hx : word false t = x := Option.some.inj h1
        rw [h2, ← hx, List.flatMap_cons, List.flatMap_nil, List.append_nil]
        exact h3
  have hval : ∀ w : List Nat, (∀ b ∈ w, 0 < b ∧ b < 128) → Valid .utf8 w := by
    intro w h
    refine ⟨w.map fun b => [b], ?_, ?_⟩
    · clear h
      induction w with
      | nil => rfl
      | cons b w ih => rw [List.map_cons, List.flatten_cons, ← ih]; rfl
    · intro c hc
      obtain ⟨b, hb, rfl⟩ := List.mem_map.1 hc
      exact ⟨b, [], rfl, nbytes_ascii _ (h b hb).2, fun y hy => by
        rw [List.mem_singleton.1 hy]; exact ⟨(h b hb).1, by have := (h b hb).2; omega⟩⟩
  obtain ⟨b, K, h, _⟩ := text_segmentations_partial .utf8 plain (by intro h; cases h) false exHang _ exHang_writes exHang_ok
    (fits_three _ _ (by decide +kernel) (by decide)) (by
      intro u hu p hp
      rcases exHang_den hu with rfl | rfl
      · rw [List.mem_singleton.1 hp]
        exact ⟨word false (CharNet.txt "(ab)"), by decide +kernel, (by intro h; cases h), ascii_chars _ (by decide +kernel), by decide +kernel,
          by decide +kernel, by decide +kernel⟩
      · rw [List.mem_singleton.1 hp]
        exact ⟨word false (CharNet.txt "(cd)"), by decide +kernel, (by intro h; cases h), ascii_chars _ (by decide +kernel), by decide +kernel,
          by decide +kernel, by decide +kernel⟩) (CharNet.txt "ab\ncd\n") [[97, 98], [99, 100]] (by decide +kernel)
    ⟨by
      intro w hw
      simp only [List.mem_cons, List.not_mem_nil, or_false] at hw
      rcases hw with rfl | rfl <;> exact hval _ (by decide), sorted_two (r := -1) (by decide +kernel) (by decide)⟩
    (by
      rintro ws ⟨ps, us, h1, h2, h3⟩
      rcases exHang_den h1 with rfl | rfl
      · exact hnull _ us ws h2 h3 (by decide +kernel)
      · exact hnull _ us ws h2 h3 (by decide +kernel))
  exact ⟨b, K, h⟩

/-! ### Where it goes wrong -/

/-- The characters a and b with a null word in between. -/
def a_b : List CW := [chr 97 0 1, chr 64 1 1, chr 98 2 1]

theorem a_b_units : Units .ascii (lineNet a_b) :=
  line_units _ (by decide) (fun w hw => by
    simp only [a_b, List.mem_cons, List.not_mem_nil, or_false] at hw
    rcases hw with rfl | rfl | rfl <;> exact chr_joinable _ _ _ (by decide)) (by decide +kernel)

/-- C139 fails with null words: they count as units, so that "ab" is not found in "a @ b" if no word of the lexicon is
longer. -/
theorem null_words_hide_words : ∃ (lex : List (List Nat)) (b b' : CNet CW) (ws : List CW), Lexicon .ascii lex ∧ Units .ascii b ∧
    segment .ascii lex b = some b' ∧ Segmentation lex b ws ∧ ∀ ws', SameWords ws ws' → ¬ b'.net.Produces ws' := by
  have hlex : Lexicon .ascii [[97, 98]] := by
    refine ⟨fun w hw => by rw [List.mem_singleton.1 hw]; exact ascii_valid _ (by decide), ?_⟩
    intro i j p q hij hi hj
    match i, j, hij with
    | i, j + 1, _ => simp at hj
  obtain ⟨b', h1, _, h3, h4, _⟩ := segmentation_sound .ascii [[97, 98]] (lineNet a_b) hlex a_b_units
  obtain ⟨z, _, z2⟩ := join_words .ascii (chr 97 0 1) [chr 64 1 1, chr 98 2 1] (by simp) (fun w hw => by
    simp only [List.mem_cons, List.not_mem_nil, or_false] at hw
    rcases hw with rfl | rfl | rfl <;> exact chr_joinable _ _ _ (by decide)) (Or.inl rfl)
  refine ⟨[[97, 98]], lineNet a_b, b', [z], hlex, a_b_units, h1, ⟨a_b, line_produces a_b, ?_⟩, ?_⟩
  · exact .cons a_b z [] [] (Or.inr ⟨by decide, by decide, z2⟩) .nil
  · intro ws' hs hp
    have hout : arcsOf 4 (segment .ascii [[97, 98]] (lineNet a_b)) =
      some [[(1, some [97])], [(2, some [64])], [(3, some [98])], []] := by decide +kernel
    rw [h1] at hout
    unfold arcsOf at hout
    have hout := Option.some.inj hout
    have h0 := congrArg (fun l => l[0]?) hout
    have h0 : some ((b'.net.out 0).map _) = _ := h0
    have h0 := Option.some.inj h0
    cases hs with
    | cons _ y _ ys _ h =>
      cases h
      unfold Net.Produces at hp
      rw [h4, h3] at hp
      have hp : ∃ p, b'.net.Walk 0 p 3 ∧ p.map b'.net.data = [y].map some := hp
      obtain ⟨p, p1, p2⟩ := hp
      cases p1 with
      | cons _ a q _ ha hq =>
        rw [List.map_cons, List.map_cons] at p2
        injection p2 with _ p2
        cases q with
        | cons _ _ => cases p2
        | nil =>
          have hm := List.mem_map_of_mem (f := fun a => (b'.net.dst a, (b'.net.data a).map CW.value)) ha
          rw [h0] at hm
          have hm := List.mem_singleton.1 hm
          have hd : b'.net.dst a = 1 := congrArg Prod.fst hm
          rw [hd] at hq
          cases hq

/-- C142 fails if the lexicon is not sorted: of "bc", "ab" the first word is not found. -/
theorem unsorted_lexicon_misses : inTextList .ascii [[98, 99], [97, 98]] [98, 99] = some none ∧
    arcsOf 4 (segment .ascii [[98, 99], [97, 98]] (lineNet abc)) =
      some [[(1, some [97]), (2, some [97, 98])], [(2, some [98])], [(3, some [99])], []] := by
  decide +kernel

/-- C141: the confidence of three words is not their mean: 1/2 for 1, 1, 0. -/
theorem confidence_not_mean : (abc.tail.foldlM appendNoNull (chr 97 0 1)).map CW.conf = some (1 / 2) ∧
    (abc.map CW.conf).sum / 3 = 2 / 3 := by decide +kernel

/-- Three lines, one with a second field, one blank, one without a newline. -/
example : loadList .ascii (CtmIn.bytes "ab 1\n \nb") = some [[97, 98], [], [98]] := by decide +kernel

end Verif.Infer
