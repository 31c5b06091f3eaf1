import Verif.CharNet.Main
import Verif.NetBuild.Props
/-!
# Character alignment (sclite): properties
-/
set_option autoImplicit false
namespace Verif.CharNet
open Verif.Net Verif.Text Verif.Split Verif.NetBuild Verif.Lines

/-- The option that treats two Guaraní characters specially is for UTF-8 or GB. -/
def EncFits (e : Enc) (f : Split.Flags) : Prop := f.guarani = true → e = .utf8 ∨ e = .gb

/-! ### C123 -/

/-- C123: when the words of a network are expanded into characters, the readings of the network become exactly the old
readings with every word replaced by its units, in order, for all networks.  After that no word can be expanded further,
and the network can be traversed again.  If every word can be spelled and no more than one optionally deletable word
starts at any point.  Missing: words that cannot be spelled (see below). -/
theorem expanded_readings_partial (e : Enc) (f : Split.Flags) (hg : EncFits e f) (b : CNet CW) (hb : Ready e f b)
    (hone : ∀ v, b.net.Reach v → optionals b.net (b.net.out v) ≤ 1) :
    ∃ b', (∀ fuel, 4 * b.net.nArcs + b.net.nNodes + 1 < fuel → expandChars e f fuel b = .ok b') ∧ Ready e f b' ∧
      (∀ v a, a ∈ b'.net.out v → ∃ w, b'.net.data a = some w ∧ spelled e f w = [w]) ∧
      ∀ ws, b'.net.Produces ws ↔ ∃ us, b.net.Produces us ∧ ws = us.flatMap (spelled e f) :=
  (expand_ready hg hb).1 hone

/-! ### C124 -/

/-- C124: the expansion into characters ends exactly if no more than one optionally deletable word starts at any point of
the network; otherwise it runs forever. -/
theorem expansion_ends_partial (e : Enc) (f : Split.Flags) (hg : EncFits e f) (b : CNet CW) (hb : Ready e f b) :
    (∃ fuel b', expandChars e f fuel b = .ok b') ↔ ∀ v, b.net.Reach v → optionals b.net (b.net.out v) ≤ 1 := by
  obtain ⟨h1, h2⟩ := expand_ready hg hb
  constructor
  · rintro ⟨fuel, b', h⟩
    by_cases hn : ∀ v, b.net.Reach v → optionals b.net (b.net.out v) ≤ 1
    · exact hn
    · rw [h2 hn fuel] at h; cases h
  · intro hn
    obtain ⟨b', h, _⟩ := h1 hn
    exact ⟨_, b', h _ (Nat.lt_succ_self _)⟩

/-- In the other case it runs forever: no number of steps suffices. -/
theorem expansion_hangs_partial (e : Enc) (f : Split.Flags) (hg : EncFits e f) (b : CNet CW) (hb : Ready e f b) (v : Nat) (hv : b.net.Reach v)
    (h2 : 2 ≤ optionals b.net (b.net.out v)) (fuel : Nat) : expandChars e f fuel b = .hang :=
  (expand_ready hg hb).2 (fun h => by have := h v hv; omega) fuel

/-! ### C125 -/

theorem mapIdx_sum (d : Rat) : ∀ (us : List (List Nat)), (us.map fun _ => d).sum = us.length * d
  | [] => by simp
  | u :: us => by
    rw [List.map_cons, List.sum_cons, mapIdx_sum d us, List.length_cons]
    push_cast
    grind

theorem spelled_cons (e : Enc) (f : Split.Flags) (w : CW) (h : ¬ (w.opt = false ∧ unitsOf e f w = [w.value])) :
    spelled e f w = (unitsOf e f w).mapIdx fun i u => unitWord w (unitsOf e f w).length i u := if_neg h

/-- C125: the network made of a word reads as one sequence, the units of the word in order.  They share the time of the word
equally and without gaps: the first starts where the word starts, each starts where the one before ends, the last ends
where the word ends, and the durations add up to that of the word.  Each has the confidence of the word and is optionally
deletable if the word is. -/
theorem unit_times_partial (e : Enc) (f : Split.Flags) (hg : EncFits e f) (w : CW) (h : Spellable e f w) (m : Net CW)
    (hm : charSub e f w = some (some m)) :
    ∃ ws, (∀ us, m.Produces us ↔ us = ws) ∧ ws.map textOf = unitsOf e f w ∧
      (∀ y ∈ ws, y.dur = w.dur / ws.length ∧ y.t2 = y.t1 + y.dur ∧ y.conf = w.conf ∧ y.opt = w.opt) ∧
      ws.head?.map CW.t1 = some w.t1 ∧
      (∀ (i : Nat) (y z : CW), ws[i]? = some y → ws[i + 1]? = some z → z.t1 = y.t2) ∧
      ws.getLast?.map CW.t2 = some (w.t1 + w.dur) ∧ (ws.map CW.dur).sum = w.dur := by
  rcases char_subOk e f hg w h with ⟨h1, _, _⟩ | ⟨m', t, b0, h1, hmade⟩
  · rw [hm] at h1; cases h1
  · rw [hm] at h1
    cases h1
    have hne : ¬ (w.opt = false ∧ unitsOf e f w = [w.value]) := by
      intro hh
      rw [(char_sub hg h).1 hh] at hm; cases hm
    have hsp := spelled_cons e f w hne
    have hlen : 0 < (unitsOf e f w).length := List.length_pos_iff.2 h.something
    have hq : (((unitsOf e f w).length : Nat) : Rat) ≠ 0 := by
      intro h0
      have : (unitsOf e f w).length = 0 := by exact_mod_cast h0
      omega
    refine ⟨spelled e f w, fun us => by rw [produces_sp m t hmade.stop, hmade.lang], ?_, ?_, ?_, ?_, ?_, ?_⟩
    · rw [hsp]
      apply List.ext_getElem?
      intro i
      rw [List.getElem?_map, List.getElem?_mapIdx, Option.map_map]
      cases hx : (unitsOf e f w)[i]? with
      | none => rfl
      | some u =>
        simp only [Option.map_some, Function.comp, Option.some.injEq]
        unfold textOf unitWord
        by_cases ho : w.opt = true <;> simp [ho]
    · intro y hy
      rw [hsp] at hy ⊢
      obtain ⟨i, hi, rfl⟩ := List.mem_mapIdx.1 hy
      rw [List.length_mapIdx]
      refine ⟨rfl, ?_, rfl, rfl⟩
      simp only [unitWord]
      grind
    · rw [hsp]
      match hu : unitsOf e f w, hlen with
      | u :: us, _ =>
        simp only [List.mapIdx_cons, List.head?_cons, Option.map_some, unitWord]
        congr 1
        grind
    · intro i y z hy hz
      rw [hsp, List.getElem?_mapIdx] at hy hz
      cases hx : (unitsOf e f w)[i]? with
      | none => rw [hx] at hy; cases hy
      | some u =>
        cases hx' : (unitsOf e f w)[i + 1]? with
        | none => rw [hx'] at hz; cases hz
        | some u' =>
          rw [hx] at hy
          rw [hx'] at hz
          cases hy; cases hz
          simp only [unitWord]
          push_cast
          grind
    · rw [hsp, List.getLast?_eq_getElem?, List.getElem?_mapIdx, List.length_mapIdx,
        List.getElem?_eq_getElem (by omega : (unitsOf e f w).length - 1 < (unitsOf e f w).length)]
      simp only [Option.map_some, unitWord]
      congr 1
      have e1 : (((unitsOf e f w).length - 1 : Nat) : Rat) + 1 = ((unitsOf e f w).length : Nat) := by
        have : (unitsOf e f w).length - 1 + 1 = (unitsOf e f w).length := by omega
        exact_mod_cast this
      rw [e1]
      grind
    · rw [hsp]
      have : ((unitsOf e f w).mapIdx fun i u => unitWord w (unitsOf e f w).length i u).map CW.dur =
          (unitsOf e f w).map fun _ => w.dur / (unitsOf e f w).length := by
        apply List.ext_getElem?
        intro i
        rw [List.getElem?_map, List.getElem?_mapIdx, List.getElem?_map]
        cases (unitsOf e f w)[i]? <;> rfl
      rw [this, mapIdx_sum]
      grind

/-! ### C126 -/

/-- Every word the text can be read with can be spelled after the decoding of optionally deletable words and fragments. -/
def SpellText (e : Enc) (f : Split.Flags) (opt frag : Bool) (s : Seq) : Prop :=
  ∀ u, s.den e u → ∀ p ∈ u, ∃ w, decode opt frag (fresh p) = some w ∧ Spellable e f w

/-- At no point of the network built from the text more than one optionally deletable word starts. -/
def OneOptional (e : Enc) (opt frag : Bool) (t : List Nat) : Prop :=
  ∀ b n, build e t = some b → mapWords (fun p => decode opt frag (fresh p)) b.net = some n →
    ∀ v, n.Reach v → optionals n (n.out v) ≤ 1

/-- Without option `-D` no word is optionally deletable. -/
theorem one_optional (e : Enc) (frag : Bool) (t : List Nat) : OneOptional e false frag t := by
  intro b n _ hn v _
  unfold mapWords at hn
  split at hn
  · have hn := Option.some.inj hn
    subst hn
    unfold optionals
    refine Nat.le_trans (Nat.le_of_eq (m := 0) ?_) (by omega)
    · rw [List.countP_eq_zero]
      intro a _
      dsimp only
      cases b.net.data a with
      | none => simp
      | some p =>
        simp only [Option.bind_some, decode, Bool.false_eq_true, if_false, decodeFragment, fresh]
        cases frag <;> simp only [Bool.false_eq_true, if_false, if_true]
        · simp
        · split
          · rename_i w hw
            split at hw
            · cases hw
            · split at hw <;> cases hw <;> simp
          · simp
  · cases hn

theorem text_ready {e : Enc} {f : Split.Flags} {opt frag : Bool} {s : Seq} {t : List Nat} (hw : s.Writes false t)
    (hok : s.Ok e) (hfit : Fits40 t.length s.depth) (hsp : SpellText e f opt frag s) :
    ∃ b n, build e t = some b ∧ mapWords (fun p => decode opt frag (fresh p)) b.net = some n ∧
      Ready e f ⟨n, fun v => b.flag2 v 0⟩ ∧
      ∀ ws, n.Produces ws ↔ ∃ ps, s.den e ps ∧ ps.map (fun p => decode opt frag (fresh p)) = ws.map some := by
  obtain ⟨b, b1, ⟨r, b2⟩, b3, b4, b5, b6, b7⟩ := build_live e s t hw hok hfit
  have hword : ∀ v a, a ∈ b.net.out v → ∀ x, b.net.data a = some x → ∃ w, decode opt frag (fresh x) = some w ∧ Spellable e f w := by
    intro v a ha x hx
    cases hs : b.net.stop with
    | none =>
      have h0 := b2.no_stop hs
      have hv : b.net.Reach v := by
        rw [b2.reach_iff]
        by_cases e1 : v = b.net.start
        · exact Or.inl e1
        · exact Or.inr (b2.source v (List.ne_nil_of_mem ha) e1)
      have : ∀ v, b.net.Reach v → v = b.net.start := by
        intro v hv
        induction hv with
        | start => rfl
        | step v c _ hc ih => rw [ih, h0] at hc; cases hc
      rw [this v hv, h0] at ha; cases ha
    | some st =>
      obtain ⟨us, h1, h2⟩ := arc_in_reading b2 b3 hs (fun w g1 g2 => b7 w g1 (by rw [hs]; intro h; exact g2 (Option.some.inj h).symm)) ha hx
      exact hsp us ((b6 us).1 h1) x h2
  obtain ⟨n, hn⟩ := map_some (g := fun p => decode opt frag (fresh p)) (n := b.net)
    (fun v a ha x hx => by obtain ⟨w, h1, _⟩ := hword v a ha x hx; exact ⟨w, h1⟩)
  obtain ⟨m1, m2, m3, m4, m5, m6, m7⟩ := map_net hn b2
  refine ⟨b, n, b1, hn, ⟨⟨r, m1⟩, ?_, ?_⟩, ?_⟩
  · intro v a ha
    have ha : a ∈ n.out v := ha
    rw [m3] at ha
    obtain ⟨x, hx⟩ := b3 v a ha
    obtain ⟨w, h1, h2⟩ := hword v a ha x hx
    obtain ⟨y, h3, h4⟩ := m6 v a ha x hx
    have h3 : decode opt frag (fresh x) = some y := h3
    rw [h1] at h3
    cases h3
    exact ⟨w, h4, h2⟩
  · intro v hv
    show b.flag2 v 0 = b.flag2 n.start 0
    rw [m2]
    exact b5 v 0 ((m5 v).1 hv)
  · intro ws
    rw [m7 b3]
    simp only [b6]

/-- C126, first part: from a text, sclite makes a network of characters that can be read as exactly the readings of the text
with every word decoded and replaced by its units. -/
theorem char_text_readings_partial (e : Enc) (f : Split.Flags) (hg : EncFits e f) (opt frag : Bool) (s : Seq) (t : List Nat)
    (hw : s.Writes false t) (hok : s.Ok e) (hfit : Fits40 t.length s.depth) (hsp : SpellText e f opt frag s)
    (hone : OneOptional e opt frag t) :
    ∃ b' F, (∀ fuel, F < fuel → charNet e f opt frag fuel t = .ok b') ∧ Ready e f b' ∧
      ∀ ws, b'.net.Produces ws ↔ ∃ (ps : List Parts) (us : List CW), s.den e ps ∧ ps.map (fun p => decode opt frag (fresh p)) = us.map some ∧
        ws = us.flatMap (spelled e f) := by
  obtain ⟨b, n, h1, h2, h3, h4⟩ := text_ready hw hok hfit hsp
  obtain ⟨b', k1, k2, _, k4⟩ := expanded_readings_partial e f hg _ h3 (hone b n h1 h2)
  refine ⟨b', 4 * n.nArcs + n.nNodes + 1, fun fuel hf => ?_, k2, ?_⟩
  · unfold charNet
    rw [h1]
    simp only [h2]
    exact k1 fuel hf
  · intro ws
    rw [k4]
    constructor
    · rintro ⟨us, g1, g2⟩
      obtain ⟨ps, g3, g4⟩ := (h4 us).1 g1
      exact ⟨ps, us, g3, g4, g2⟩
    · rintro ⟨ps, us, g1, g2, g3⟩
      exact ⟨us, (h4 us).2 ⟨ps, g1, g2⟩, g3⟩

/-- The character sequences a text can be read as. -/
def charDen (e : Enc) (f : Split.Flags) (opt frag : Bool) (s : Seq) (ws : List CW) : Prop :=
  ∃ (ps : List Parts) (us : List CW), s.den e ps ∧ ps.map (fun p => decode opt frag (fresh p)) = us.map some ∧ ws = us.flatMap (spelled e f)

/-- C126: sclite's character alignment of two texts, both possibly with alternatives, has the lowest total of the standard
costs over all readings of the one and all readings of the other as sequences of characters; the path it reports belongs
to one reading of each. -/
theorem char_alignment_best_partial (F : Funcs CW) (hd : F.dist = wwd F.isNull F.optDel F.equal) (e : Enc) (f : Split.Flags)
    (hg : EncFits e f) (opt frag : Bool) (ref hyp : Seq) (tr th : List Nat) (hr : ref.Writes false tr) (hh : hyp.Writes false th)
    (okr : ref.Ok e) (okh : hyp.Ok e) (fr : Fits40 tr.length ref.depth) (fh : Fits40 th.length hyp.depth)
    (sr : SpellText e f opt frag ref) (sh : SpellText e f opt frag hyp) (or : OneOptional e opt frag tr)
    (oh : OneOptional e opt frag th) (t0 : Table) (incl : Bool) (fla flb : Nat → Int) :
    ∃ a b K, (∀ fuel, K < fuel → charNet e f opt frag fuel tr = .ok a ∧ charNet e f opt frag fuel th = .ok b) ∧
      (a.net.nArcs < 65534 → b.net.nArcs < 65534 → ∃ la lb r s,
        dpalign F a.net b.net ⟨fla, a.vis⟩ ⟨flb, b.vis⟩ t0 incl = some (la, lb, r) ∧
        charDen e f opt frag ref (lefts s) ∧ charDen e f opt frag hyp (rights s) ∧ Total F s r.cost ∧
        r.path = s.flatMap (reported F incl) ∧
        ∀ s' c, charDen e f opt frag ref (lefts s') → charDen e f opt frag hyp (rights s') → Total F s' c → r.cost ≤ c) := by
  obtain ⟨a, Ka, a1, a2, a3⟩ := char_text_readings_partial e f hg opt frag ref tr hr okr fr sr or
  obtain ⟨b, Kb, b1, b2, b3⟩ := char_text_readings_partial e f hg opt frag hyp th hh okh fh sh oh
  refine ⟨a, b, max Ka Kb, fun fuel hf => ⟨a1 fuel (by omega), b1 fuel (by omega)⟩, ?_⟩
  intro ha hb
  obtain ⟨ra, wa⟩ := a2.wf
  obtain ⟨rb, wb⟩ := b2.wf
  obtain ⟨la, lb, r, h1, s, h2, h3, h4, h5, _⟩ := dpalign_spec F a.net b.net ra rb ⟨fla, a.vis⟩ ⟨flb, b.vis⟩ t0 incl 4000 wa wb
    (fun v c hc => by obtain ⟨w, hw, _⟩ := a2.words v c hc; exact ⟨w, hw⟩)
    (fun v c hc => by obtain ⟨w, hw, _⟩ := b2.words v c hc; exact ⟨w, hw⟩)
    a2.bits b2.bits ha hb (wwd_below F hd _ _ ha hb)
  exact ⟨la, lb, r, s, h1, (a3 _).1 h2.1, (b3 _).1 h2.2, (wwd_total F hd _ _).2 h3, h5,
    fun s' c e1 e2 e3 => (wwd_total F hd _ _).1 e3 ▸ h4 s' ⟨(a3 _).2 e1, (b3 _).2 e2⟩⟩

/-! ### C127 -/

/-- C127: with option `-D` a word is optionally deletable exactly if it is enclosed in parentheses, and then its text is
what is inside them; nothing else of the word changes. -/
theorem decode_optional (w : CW) (hv : w.value ≠ []) (h0 : w.opt = false) :
    ∃ w', decodeOptDel w = some w' ∧ (w'.opt = true ↔ ∃ t, w.value = [40] ++ t ++ [41]) ∧
      (∀ t, w.value = [40] ++ t ++ [41] → w' = { w with opt := true, intern := some t }) ∧ (w'.opt = false → w' = w) := by
  unfold decodeOptDel
  rw [if_neg hv]
  by_cases h : w.value.getLast? = some 41 ∧ w.value.head? = some 40
  · rw [if_pos h]
    have key : ∃ t, w.value = [40] ++ t ++ [41] := by
      rcases List.eq_nil_or_concat w.value with e1 | ⟨l, x, e1⟩
      · exact absurd e1 hv
      · rw [List.concat_eq_append] at e1
        rw [e1] at h
        have hx : x = 41 := by simpa using h.1
        subst hx
        cases l with
        | nil => simp at h
        | cons y l =>
          have hy : y = 40 := by simpa using h.2
          subst hy
          exact ⟨l, by simpa using e1⟩
    refine ⟨_, rfl, ⟨fun _ => key, fun _ => rfl⟩, ?_, by intro h; cases h⟩
    intro t ht
    rw [ht]
    simp
  · rw [if_neg h]
    have key : ¬ ∃ t, w.value = [40] ++ t ++ [41] := by
      rintro ⟨t, ht⟩
      apply h
      rw [ht]
      exact ⟨List.getLast?_concat, rfl⟩
    refine ⟨w, rfl, ⟨fun h1 => ?_, fun h1 => absurd h1 key⟩, fun t ht => absurd ⟨t, ht⟩ key, fun _ => rfl⟩
    rw [h0] at h1; cases h1

/-- With option `-F` a word is a fragment exactly if it begins or ends with a hyphen, or is optionally deletable and ends
with a hyphen inside the parentheses; nothing else of the word changes. -/
theorem decode_fragments (w : CW) (hv : w.value ≠ []) (h0 : w.frag = false)
    (ho : w.opt = true → ∃ t, w.value = [40] ++ t ++ [41]) :
    ∃ w', decodeFragment w = some w' ∧ w' = { w with frag := w'.frag } ∧
      (w'.frag = true ↔ (∃ t, w.value = [45] ++ t) ∨ (∃ t, w.value = t ++ [45]) ∨
        (w.opt = true ∧ ∃ t, w.value = [40] ++ t ++ [45] ++ [41])) := by
  have h1 : w.value.head? = some 45 ↔ ∃ t, w.value = [45] ++ t := by
    cases hw : w.value with
    | nil => exact absurd hw hv
    | cons x l => simp
  have h2 : w.value.getLast? = some 45 ↔ ∃ t, w.value = t ++ [45] := List.getLast?_eq_some_iff
  have h3 : w.opt = true → (w.value[w.value.length - 2]? = some 45 ↔ ∃ t, w.value = [40] ++ t ++ [45] ++ [41]) := by
    intro h
    obtain ⟨t, ht⟩ := ho h
    rw [ht]
    rcases List.eq_nil_or_concat t with e1 | ⟨l, x, e1⟩
    · subst e1
      constructor
      · intro h; simp at h
      · rintro ⟨t, h⟩
        have := congrArg List.length h
        simp at this
    · rw [List.concat_eq_append] at e1
      subst e1
      have : ([40] ++ (l ++ [x]) ++ [41]).length - 2 = (40 :: l).length := by simp
      rw [this]
      have e2 : [40] ++ (l ++ [x]) ++ [41] = (40 :: l) ++ (x :: [41]) := by simp
      rw [e2, List.getElem?_append_right (Nat.le_refl _), Nat.sub_self]
      simp only [List.getElem?_cons_zero, Option.some.injEq]
      constructor
      · rintro rfl; exact ⟨l, by simp⟩
      · rintro ⟨t, h⟩
        have h5 : (40 :: l) ++ [x] = (40 :: t) ++ [45] := by
          have : ((40 :: l) ++ [x]) ++ [41] = ((40 :: t) ++ [45]) ++ [41] := by simpa using h
          exact List.append_cancel_right this
        have := congrArg List.getLast? h5
        rw [List.getLast?_concat, List.getLast?_concat] at this
        simpa using this
  unfold decodeFragment
  rw [if_neg hv]
  by_cases h : (w.value.getLast? = some 45 ∨ w.value.head? = some 45) ∨ (w.opt = true ∧ w.value[w.value.length - 2]? = some 45)
  · rw [if_pos h]
    refine ⟨_, rfl, rfl, ⟨fun _ => ?_, fun _ => rfl⟩⟩
    rcases h with (h | h) | ⟨h, h'⟩
    · exact Or.inr (Or.inl (h2.1 h))
    · exact Or.inl (h1.1 h)
    · exact Or.inr (Or.inr ⟨h, (h3 h).1 h'⟩)
  · rw [if_neg h]
    refine ⟨w, rfl, rfl, ⟨fun hh => ?_, fun hh => ?_⟩⟩
    · rw [h0] at hh; cases hh
    · exfalso
      apply h
      rcases hh with hh | hh | ⟨hh, hh'⟩
      · exact Or.inl (Or.inr (h1.2 hh))
      · exact Or.inl (Or.inl (h2.2 hh))
      · exact Or.inr ⟨hh, (h3 hh).2 hh'⟩

/-- An optionally deletable fragment that begins with a hyphen, "(-ab)", is not taken for a fragment, although "-ab" is. -/
theorem leading_hyphen_missed : (decode true true (fresh ⟨[40, 45, 97, 98, 41], none, none⟩)).map CW.frag = some false ∧
    (decode true true (fresh ⟨[45, 97, 98], none, none⟩)).map CW.frag = some true ∧
    (decode true true (fresh ⟨[40, 97, 98, 45, 41], none, none⟩)).map CW.frag = some true := by decide +kernel

/-! ### Cases that meet the hypotheses, and cases the theorems leave out -/

/-- The plain options. -/
def plain : Split.Flags := ⟨false, false, false⟩

/-- The word `v` without times, optionally deletable or not. -/
def word (opt : Bool) (v : List Nat) : CW :=
  { value := if opt then 40 :: v ++ [41] else v, intern := if opt then some v else none, opt := opt, frag := false, t1 := 0, t2 := 0,
    dur := 0, conf := 0 }

theorem ascii_chars (v : List Nat) (h : ∀ x ∈ v, 0 < x ∧ x < 128 ∧ isSpace x = false ∧ x ≠ 92 ∧ x ≠ 123) :
    ∃ cs : List (List Nat), v = cs.flatten ∧ ∀ c ∈ cs, IsChar .utf8 c ∧ (59 ∈ c → c = [59]) ∧
      ∀ x ∈ c, isSpace x = false ∧ x ≠ 92 ∧ x ≠ 123 := by
  refine ⟨v.map fun x => [x], ?_, ?_⟩
  · clear h
    induction v with
    | nil => rfl
    | cons x v ih => rw [List.map_cons, List.flatten_cons, ← ih]; rfl
  · intro c hc
    obtain ⟨x, hx, rfl⟩ := List.mem_map.1 hc
    obtain ⟨h1, h2, h3⟩ := h x hx
    refine ⟨⟨x, [], rfl, nbytes_lt .utf8 x h2, ?_⟩, ?_, ?_⟩
    · intro y hy
      rw [List.mem_singleton.1 hy]; omega
    · intro hm; rw [List.mem_singleton] at hm; rw [hm]
    · intro y hy
      rw [List.mem_singleton.1 hy]; exact h3

/-- The word "ab" with a time can be spelled. -/
def exWord : CW := ⟨[97, 98], none, false, false, 1, 3, 2, 1/2⟩

theorem exWord_spellable : Spellable .utf8 plain exWord :=
  ⟨(by intro h; cases h), ascii_chars _ (by decide), by decide +kernel, by decide +kernel, by decide +kernel⟩

example : ∃ m, charSub .utf8 plain exWord = some (some m) := by
  obtain ⟨m, _, _, h, _⟩ := (char_sub (e := .utf8) (f := plain) (by intro h; cases h) exWord_spellable).2 (by decide +kernel)
  exact ⟨m, h⟩

example : spelled .utf8 plain exWord =
    [⟨[97], none, false, false, 1, 2, 1, 1/2⟩, ⟨[98], none, false, false, 2, 3, 1, 1/2⟩] := by decide +kernel

/-- "(ab)" with option `-D`. -/
theorem optWord_spellable : Spellable .utf8 plain (word true [97, 98]) :=
  ⟨fun _ => ⟨[97, 98], rfl, rfl⟩, ascii_chars _ (by decide), by decide +kernel, by decide +kernel, by decide +kernel⟩

/-- A network with two arcs, side by side. -/
def twoNet (x y : CW) : Net CW where
  start := 0
  stop := some 1
  nNodes := 2
  nArcs := 2
  src := fun _ => 0
  dst := fun _ => 1
  data := fun a => if a = 0 then some x else some y
  out := fun v => if v = 0 then [0, 1] else []
  inn := fun v => if v = 1 then [0, 1] else []

theorem two_ready {e : Enc} {f : Split.Flags} {x y : CW} (hx : Spellable e f x) (hy : Spellable e f y) : Ready e f ⟨twoNet x y, fun _ => false⟩ := by
  refine ⟨⟨id, ?_⟩, ?_, fun _ _ => rfl⟩
  · refine ⟨by simp [twoNet], ?_, ?_, ?_, ?_, ?_, by simp [twoNet], ?_, by intro h; cases h⟩
    · intro v a ha
      by_cases h : v = 0
      · subst h
        simp only [twoNet, if_true, List.mem_cons, List.not_mem_nil, or_false] at ha
        rcases ha with rfl | rfl <;> simp [twoNet]
      · simp [twoNet, h] at ha
    · intro v a ha
      by_cases h : v = 1
      · subst h
        simp only [twoNet, if_true, List.mem_cons, List.not_mem_nil, or_false] at ha
        rcases ha with rfl | rfl <;> simp [twoNet]
      · simp [twoNet, h] at ha
    · intro v
      by_cases h : v = 0 <;> simp [twoNet, h]
    · intro v
      by_cases h : v = 1 <;> simp [twoNet, h]
    · intro v h1 h2
      simp [twoNet] at h1 h2
      exact absurd h1 h2
    · intro s hs
      cases hs
      simp [twoNet]
  · intro v a ha
    by_cases h : v = 0
    · subst h
      simp only [twoNet, if_true, List.mem_cons, List.not_mem_nil, or_false] at ha
      rcases ha with rfl | rfl
      · exact ⟨x, rfl, hx⟩
      · exact ⟨y, rfl, hy⟩
    · simp [twoNet, h] at ha

theorem two_reach {x y : CW} {v : Nat} (h : (twoNet x y).Reach v) : v = 0 ∨ v = 1 := by
  cases h with
  | start => exact Or.inl rfl
  | step _ _ _ _ => exact Or.inr rfl

example : ∃ b', (∀ fuel, 11 < fuel → expandChars .utf8 plain fuel ⟨twoNet exWord (word true [97, 98]), fun _ => false⟩ = .ok b') ∧
    ∀ ws, b'.net.Produces ws ↔ ∃ us, (twoNet exWord (word true [97, 98])).Produces us ∧ ws = us.flatMap (spelled .utf8 plain) := by
  obtain ⟨b', h1, _, _, h2⟩ := expanded_readings_partial .utf8 plain (by intro h; cases h) _ (two_ready exWord_spellable optWord_spellable)
    (fun v hv => by rcases two_reach hv with rfl | rfl <;> decide)
  exact ⟨b', h1, h2⟩

/-- Two optionally deletable words as alternatives, as in "{ (ab) / (ab) }" with options `-c` and `-D`: the expansion runs
forever. -/
theorem two_optional_hang (fuel : Nat) :
    expandChars .utf8 plain fuel ⟨twoNet (word true [97, 98]) (word true [97, 98]), fun _ => false⟩ = .hang :=
  expansion_hangs_partial .utf8 plain (by intro h; cases h) _ (two_ready optWord_spellable optWord_spellable) 0 .start (by decide) fuel

/-- The text as bytes. -/
def txt (s : String) : List Nat := s.toList.map Char.toNat

/-- "{ (ab) / (cd) }" -/
def exHang : Seq := .cons (.alt (.or (.cons (.word (txt "(ab)")) .nil) (.one (.cons (.word (txt "(cd)")) .nil)))) .nil

theorem exHang_writes : exHang.Writes false (txt "{ (ab) / (cd) }") := by
  have bl : ∀ b : List Nat, b = [] ∨ b = [32] → Blank b := by
    rintro b (rfl | rfl) c hc
    · cases hc
    · rw [List.mem_singleton.1 hc]; decide
  have sp : ∀ w : List Nat, (∀ c ∈ w, isSpace c = false ∧ c ≠ 123 ∧ c ≠ 47 ∧ c ≠ 125) → w ≠ [] → Spelling true w :=
    fun w h1 h2 => ⟨h2, fun c hc => ⟨(h1 c hc).1, (h1 c hc).2.1, fun _ => (h1 c hc).2.2⟩⟩
  have h1 : ∀ w : List Nat, (∀ c ∈ w, isSpace c = false ∧ c ≠ 123 ∧ c ≠ 47 ∧ c ≠ 125) → w ≠ [] →
      (Seq.cons (.word w) .nil).Writes true ([32] ++ w ++ [32]) :=
    fun w h1 h2 => .word true [32] w [32] .nil (bl _ (Or.inr rfl)) (sp w h1 h2) (Or.inr ⟨32, [], rfl, by decide⟩) (.nil true [32] (bl _ (Or.inr rfl)))
  exact .alt false [] _ [] _ .nil (bl _ (Or.inl rfl)) (.or _ _ _ _ (h1 (txt "(ab)") (by decide +kernel) (by decide))
    (.one _ _ (h1 (txt "(cd)") (by decide +kernel) (by decide)))) (.nil false [] (bl _ (Or.inl rfl)))

theorem exHang_ok : exHang.Ok .utf8 :=
  ⟨⟨⟨by simp, ⟨_, (rfl : parseText .utf8 (txt "(ab)") = some ⟨txt "(ab)", none, none⟩)⟩, trivial⟩, by simp,
    ⟨_, (rfl : parseText .utf8 (txt "(cd)") = some ⟨txt "(cd)", none, none⟩)⟩, trivial⟩, trivial⟩

theorem exHang_den {u : List Parts} (hu : exHang.den .utf8 u) : u = [⟨txt "(ab)", none, none⟩] ∨ u = [⟨txt "(cd)", none, none⟩] := by
    obtain ⟨v, w, rfl, h1, h2⟩ := hu
    have h2 : w = [] := h2
    subst h2
    rcases h1 with h1 | h1
    · obtain ⟨v1, w1, rfl, ⟨q, hq, rfl⟩, h4⟩ := h1
      have h4 : w1 = [] := h4
      subst h4
      have : parseText .utf8 (txt "(ab)") = some ⟨txt "(ab)", none, none⟩ := rfl
      rw [this] at hq
      cases hq
      exact Or.inl rfl
    · obtain ⟨v1, w1, rfl, ⟨q, hq, rfl⟩, h4⟩ := h1
      have h4 : w1 = [] := h4
      subst h4
      have : parseText .utf8 (txt "(cd)") = some ⟨txt "(cd)", none, none⟩ := rfl
      rw [this] at hq
      cases hq
      exact Or.inr rfl

theorem exHang_spell : SpellText .utf8 plain true false exHang := by
  intro u hu p hp
  rcases exHang_den hu with rfl | rfl
  · rw [List.mem_singleton.1 hp]
    exact ⟨word true (txt "ab"), by decide +kernel, fun _ => ⟨txt "ab", rfl, rfl⟩, ascii_chars _ (by decide +kernel), by decide +kernel, by decide +kernel,
      by decide +kernel⟩
  · rw [List.mem_singleton.1 hp]
    exact ⟨word true (txt "cd"), by decide +kernel, fun _ => ⟨txt "cd", rfl, rfl⟩, ascii_chars _ (by decide +kernel), by decide +kernel, by decide +kernel,
      by decide +kernel⟩

/-- With options `-c` and `-D`, sclite does not come to an end on the text "{ (ab) / (cd) }". -/
theorem two_optional_text_hangs (fuel : Nat) : charNet .utf8 plain true false fuel (txt "{ (ab) / (cd) }") = .hang := by
  obtain ⟨b, n, h1, h2, h3, _⟩ := text_ready exHang_writes exHang_ok (fits_three _ _ (by decide +kernel) (by decide)) exHang_spell
  unfold charNet
  rw [h1]
  simp only [h2]
  apply expansion_hangs_partial .utf8 plain (by intro h; cases h) _ h3 n.start .start
  have key : ((build .utf8 (txt "{ (ab) / (cd) }")).bind fun b => (mapWords (fun p => decode true false (fresh p)) b.net).map fun n =>
      optionals n (n.out n.start)) = some 2 := by decide +kernel
  rw [h1] at key
  simp only [Option.bind_some, h2, Option.map_some, Option.some.injEq] at key
  exact Nat.le_of_eq key.symm

/-- Without option `-D` the same text is fine. -/
example : ∃ b' F, ∀ fuel, F < fuel → charNet .utf8 plain false false fuel (txt "{ (ab) / (cd) }") = .ok b' := by
  obtain ⟨b', F, h, _⟩ := char_text_readings_partial .utf8 plain (by intro h; cases h) false false exHang _ exHang_writes exHang_ok
    (fits_three _ _ (by decide +kernel) (by decide)) (by
      intro u hu p hp
      rcases exHang_den hu with rfl | rfl
      · rw [List.mem_singleton.1 hp]
        exact ⟨word false (txt "(ab)"), by decide +kernel, (by intro h; cases h), ascii_chars _ (by decide +kernel), by decide +kernel,
          by decide +kernel, by decide +kernel⟩
      · rw [List.mem_singleton.1 hp]
        exact ⟨word false (txt "(cd)"), by decide +kernel, (by intro h; cases h), ascii_chars _ (by decide +kernel), by decide +kernel,
          by decide +kernel, by decide +kernel⟩) (one_optional _ _ _)
  exact ⟨b', F, h⟩

/-- Whether a computation ends in a crash. -/
def Res.isCrash {α : Type} : Res α → Bool
  | .crash => true
  | _ => false

/-- A word of two hyphens, with hyphens dropped, and the optionally deletable word "()" leave nothing to spell; the code
then reads through a null pointer.  A word of one hyphen stays although hyphens are to be dropped. -/
theorem nothing_left_crashes : (charNet .utf8 ⟨false, false, true⟩ false false 10 (txt "--")).isCrash = true ∧
    (charNet .utf8 plain true false 10 (txt "()")).isCrash = true ∧
    charSub .utf8 ⟨false, false, true⟩ (word false (txt "-")) = some none := by
  refine ⟨by decide +kernel, by decide +kernel, rfl⟩

/-- The texts on the arcs of the network made of a word. -/
def arcTexts (e : Enc) (f : Split.Flags) (w : CW) : Option (List (Option (List Nat))) :=
  match charSub e f w with
  | some (some m) => some ((List.range m.nArcs).map fun a => (m.data a).map CW.value)
  | _ => none

/-- With ASCII words kept whole, a unit loses an asterisk at its end: "ab*é" becomes "ab" and "é".  A backslash becomes an
empty unit.  From an opening brace on, the rest of the word is lost. -/
theorem unspellable_units : arcTexts .utf8 ⟨false, true, false⟩ (word false [97, 98, 42, 195, 169]) = some [some [97, 98], some [195, 169]] ∧
    arcTexts .utf8 plain (word false [97, 92, 98]) = some [some [97], some [], some [98]] ∧
    arcTexts .utf8 plain (word false [97, 123, 98]) = some [some [97]] := by
  refine ⟨by decide +kernel, by decide +kernel, by decide +kernel⟩

end Verif.CharNet
