import Verif.CharNet.Word
/-!
# Words that can be spelled are expanded as they should be
-/
set_option autoImplicit false
namespace Verif.CharNet
open Verif.Net Verif.Text Verif.Split Verif.NetBuild Verif.Lines

theorem charWord_unitWord (w : CW) (k i : Nat) (u : List Nat) : charWord w k i u = unitWord w k i u := by
  unfold charWord unitWord
  congr 1
  grind

/-- What the text of a word that can be spelled looks like. -/
theorem spell_parts {e : Enc} {f : Split.Flags} (hg : f.guarani = true → e = .utf8 ∨ e = .gb) {w : CW} (h : Spellable e f w) :
    ∃ cs : List (List Nat), textOf w = cs.flatten ∧ (∀ c ∈ cs, IsChar e c ∧ (59 ∈ c → c = [59]) ∧
      ∀ x ∈ c, isSpace x = false ∧ x ≠ 92 ∧ x ≠ 123) ∧
      unitsOf e f w = (units e f (glyphs f.guarani cs)).map List.flatten ∧
      (∃ size, separate e f 100 (textOf w) = some (joinText (unitsOf e f w), size)) := by
  obtain ⟨cs, h1, h2⟩ := h.text
  have hc : ∀ c ∈ cs, IsChar e c := fun c hc => (h2 c hc).1
  have hu : unitsOf e f w = (units e f (glyphs f.guarani cs)).map List.flatten := by
    unfold unitsOf
    rw [h1, chars_flatten hc]
  refine ⟨cs, h1, h2, hu, ?_⟩
  rw [hu, h1]
  apply separate_join e f hg cs hc
  intro hm
  rcases glyph_mem f.guarani cs [32] hm with h3 | ⟨_, c, _, _, h4, h5⟩
  · exact absurd ((h2 _ h3).2.2 32 (by simp)).1 (by decide)
  · rcases h4 with rfl | rfl <;> simp at h5

theorem unit_ok {e : Enc} {f : Split.Flags} (hg : f.guarani = true → e = .utf8 ∨ e = .gb) {w : CW} (h : Spellable e f w) {u : List Nat}
    (hu : u ∈ unitsOf e f w) : UnitOk e u ∧ u.length ≤ (textOf w).length ∧ (∀ x ∈ u, isSpace x = false) ∧
      ∃ cr : List (List Nat), u = cr.flatten ∧ (∀ c ∈ cr, IsChar e c ∧ (59 ∈ c → c = [59]) ∧ ∀ x ∈ c, isSpace x = false ∧ x ≠ 92 ∧ x ≠ 123) ∧
        (units e f (glyphs f.guarani cr)).map List.flatten = [u] := by
  obtain ⟨cs, h1, h2, h3, _⟩ := spell_parts hg h
  have hst := h.star u hu
  rw [h3] at hu
  obtain ⟨r, hr, rfl⟩ := List.mem_map.1 hu
  obtain ⟨cr, k1, k2, k3, k4⟩ := unit_unit hg (fun c hc => (h2 c hc).1) hr
  have hrun := (runs_run _ _).1 r hr
  have hcr : cr ≠ [] := by
    rintro rfl
    have : r = [] := by rw [← k2]; rfl
    rw [this] at hrun
    cases hrun
  have hbytes : ∀ x ∈ r.flatten, isSpace x = false ∧ x ≠ 92 ∧ x ≠ 123 := by
    intro x hx
    rw [← k3] at hx
    obtain ⟨c, hc, hxc⟩ := List.mem_flatten.1 hx
    exact (h2 c (k1 c hc)).2.2 x hxc
  refine ⟨⟨?_, ⟨cr, k3.symm, ?_⟩, fun x hx => ⟨(hbytes x hx).1, (hbytes x hx).2.2⟩, hst⟩, ?_, fun x hx => (hbytes x hx).1,
    cr, k3.symm, fun c hc => h2 c (k1 c hc), by rw [k2, k4]; rfl⟩
  · rw [← k3]
    match cr, hcr with
    | c :: cr, _ =>
      have := isChar_pos (h2 c (k1 c (by simp))).1
      simp [this]
  · intro c hc
    exact ⟨(h2 c (k1 c hc)).1, fun h => ((h2 c (k1 c hc)).2.2 92 h).2.1 rfl, (h2 c (k1 c hc)).2.1⟩
  · have hl := units_len e f cs
    rw [← h1] at hl
    refine Nat.le_trans ?_ hl
    exact le_sum (List.mem_map.2 ⟨_, hu, rfl⟩)

/-- Splitting a word into its units: it stays as it is, or the chain of the units is made. -/
theorem char_sub {e : Enc} {f : Split.Flags} (hg : f.guarani = true → e = .utf8 ∨ e = .gb) {w : CW} (h : Spellable e f w) :
    (w.opt = false ∧ unitsOf e f w = [w.value] → charSub e f w = some none) ∧
    (¬ (w.opt = false ∧ unitsOf e f w = [w.value]) → ∃ (m : Net CW) (s : Nat) (L : List Nat), charSub e f w = some (some m) ∧
      (∃ r, m.WF r) ∧ m.stop = some s ∧ Chain m s m.start L ∧
      L.map m.data = ((unitsOf e f w).mapIdx fun i u => unitWord w (unitsOf e f w).length i u).map some ∧
      (∀ v, m.inn v ≠ [] → v ≠ s → m.out v ≠ [])) := by
  obtain ⟨cs, h1, h2, h3, size, h4⟩ := spell_parts hg h
  have htext : (if w.opt then w.intern else some w.value) = some (textOf w) := by
    unfold textOf
    by_cases ho : w.opt = true
    · rw [if_pos ho, if_pos ho]
      obtain ⟨t, e1, _⟩ := h.decoded ho
      rw [e1]; rfl
    · rw [if_neg ho, if_neg ho]
  have hval : ∀ x ∈ w.value, isSpace x = false := by
    have ht : ∀ x ∈ textOf w, isSpace x = false := by
      intro x hx
      rw [h1] at hx
      obtain ⟨c, hc, hxc⟩ := List.mem_flatten.1 hx
      exact ((h2 c hc).2.2 x hxc).1
    intro x hx
    by_cases ho : w.opt = true
    · obtain ⟨t, e1, e2⟩ := h.decoded ho
      have : textOf w = t := by unfold textOf; rw [if_pos ho, e1]; rfl
      rw [e2] at hx
      simp only [List.cons_append, List.nil_append, List.mem_cons, List.mem_append] at hx
      rcases hx with h | h | h
      · subst h; decide
      · exact ht x (this ▸ h)
      · rcases h with h | h
        · subst h; decide
        · cases h
    · have : textOf w = w.value := by unfold textOf; rw [if_neg ho]
      exact ht x (this ▸ hx)
  -- the separated text is the value only if the value is the only unit
  have hjoin : joinText (unitsOf e f w) = w.value → w.opt = false ∧ unitsOf e f w = [w.value] := by
    intro hj
    have hlen := h.something
    match hus : unitsOf e f w, hlen with
    | [], hlen => exact absurd rfl hlen
    | u :: x :: us, _ =>
      rw [hus] at hj
      have := hval 32 (hj ▸ join_blank)
      exact absurd this (by decide)
    | [u], _ =>
      rw [hus] at hj
      have hu : u = w.value := by simpa [joinText] using hj
      refine ⟨?_, by rw [hu]⟩
      by_cases ho : w.opt = true
      · obtain ⟨t, e1, e2⟩ := h.decoded ho
        have ht : textOf w = t := by unfold textOf; rw [if_pos ho, e1]; rfl
        have := (unit_ok hg h (u := u) (by rw [hus]; simp)).2.1
        rw [ht, hu, e2] at this
        simp only [List.length_append, List.length_cons, List.length_nil] at this
        omega
      · simpa using ho
  have hjoin2 : w.opt = false ∧ unitsOf e f w = [w.value] → joinText (unitsOf e f w) = w.value := by
    intro hh
    rw [hh.2]; simp [joinText]
  constructor
  · intro hh
    unfold charSub
    by_cases hl : w.value.length ≤ 1
    · rw [if_pos hl]
    · rw [if_neg hl, htext]
      simp only [h4]
      rw [if_pos (hjoin2 hh)]
  · intro hh
    have hl : ¬ w.value.length ≤ 1 := by
      intro hl
      by_cases ho : w.opt = true
      · obtain ⟨t, e1, e2⟩ := h.decoded ho
        rw [e2] at hl
        simp only [List.length_append, List.length_cons, List.length_nil] at hl
        omega
      · apply hh
        have ho : w.opt = false := by simpa using ho
        refine ⟨ho, ?_⟩
        have ht : textOf w = w.value := by unfold textOf; rw [if_neg (by simp [ho])]
        -- all units are not empty and together not longer than one byte
        have hsum := units_len e f cs
        rw [← h3, ← h1, ht] at hsum
        match hus : unitsOf e f w, h.something with
        | [], hs => exact absurd rfl hs
        | u :: x :: us, _ =>
          have g1 := (unit_ok hg h (u := u) (by rw [hus]; simp)).1.ne
          have g2 := (unit_ok hg h (u := x) (by rw [hus]; simp)).1.ne
          rw [hus] at hsum
          have g1 := List.length_pos_iff.2 g1
          have g2 := List.length_pos_iff.2 g2
          simp only [List.map_cons, List.sum_cons] at hsum
          omega
        | [u], _ =>
          obtain ⟨g1, g2, _, cr, g4, _⟩ := unit_ok hg h (u := u) (by rw [hus]; simp)
          -- one byte: the unit is the text
          have hu1 := List.length_pos_iff.2 g1.ne
          rw [ht] at g2
          have hmem : ∀ x ∈ u, x ∈ w.value := by
            intro x hx
            have : x ∈ (unitsOf e f w).flatten := by rw [hus]; simpa using hx
            rw [h3] at this
            obtain ⟨l, hl1, hl2⟩ := List.mem_flatten.1 this
            obtain ⟨r, hr, rfl⟩ := List.mem_map.1 hl1
            obtain ⟨gl, hgl, hxg⟩ := List.mem_flatten.1 hl2
            have hgf : gl ∈ (units e f (glyphs f.guarani cs)).flatten := List.mem_flatten.2 ⟨r, hr, hgl⟩
            unfold units at hgf
            rw [runs_flatten] at hgf
            have hgg := (List.mem_filter.1 (List.mem_filter.1 hgf).1).1
            rw [← ht, h1, ← glyphs_flatten f.guarani cs]
            exact List.mem_flatten.2 ⟨gl, hgg, hxg⟩
          match hu : u, hu1, hw : w.value, hl, g2 with
          | [x], _, [y], _, _ =>
            have := hmem x (by simp)
            rw [hw] at this
            rw [List.mem_singleton.1 this]
          | [x], _, [], _, g2 => simp at g2
          | x :: y :: u, _, l, hl, g2 => simp only [List.length_cons] at g2; omega
    have hus : ∀ u ∈ unitsOf e f w, UnitOk e u := fun u hu => (unit_ok hg h hu).1
    have hsum := units_len e f cs
    rw [← h3, ← h1] at hsum
    have hlen : (escape 59 (joinText (unitsOf e f w))).length < maxString := by
      have a1 := escape_twice (joinText (unitsOf e f w))
      have a2 := join_len (unitsOf e f w) (fun u hu => (hus u hu).ne)
      have a3 := h.short
      omega
    obtain ⟨b, s, L, cur, k1, ⟨r, hn⟩, k3, k4, k5, k6, k7, k8, k9, k10⟩ := create_units e (unitsOf e f w) h.something hus hlen
    have hLlen : L.length = (unitsOf e f w).length := by simpa using congrArg List.length k7
    have hso := hn.stop_ok s k3
    have hst : ∀ a ∈ L, b.net.dst a ≠ b.net.start := by
      intro a ha e1
      have := chain_rank hn k4 a ha
      rw [e1] at this; omega
    obtain ⟨fl', N', t1⟩ := trav_chain hn (cur := cur) k4 hso.1 b.net.nNodes
      ⟨fun _ => 0, upd (fun v => b.flag2 v 1) b.net.start (!cur)⟩ [] [] (by omega)
      (fun a ha => by
        show upd (fun v => b.flag2 v 1) b.net.start (!cur) (b.net.dst a) = cur
        rw [upd_ne _ _ _ _ (hst a ha)]; exact k10 a ha)
    have ht : depthTraverse b.net ⟨fun _ => 0, fun v => b.flag2 v 1⟩ = some ⟨fl', [], N', L⟩ := by
      unfold depthTraverse travRun
      simp only [k9]
      simpa using t1
    refine ⟨{ b.net with data := fun a => (b.net.data a).map fun p => charWord w L.length (L.idxOf a) p.value }, s, L, ?_, ⟨r, ?_⟩, k3, ?_, ?_, k8⟩
    · unfold charSub
      rw [if_neg hl, htext]
      simp only [h4]
      rw [if_neg (fun hj => hh (hjoin hj))]
      simp only [k1, ht]
    · exact ⟨hn.start_lt, hn.out_ok, hn.inn_ok, hn.out_nodup, hn.inn_nodup, hn.source, hn.start_inn, hn.stop_ok, hn.no_stop⟩
    · clear k7 k5 t1 ht hst k10 hLlen
      generalize (fun a => (b.net.data a).map fun p => charWord w L.length (L.idxOf a) p.value) = dd
      show Chain { b.net with data := dd } s b.net.start L
      generalize b.net.start = v at k4
      induction k4 with
      | nil => exact .nil
      | cons v a L g1 _ ih => exact .cons v a L g1 ih
    · apply List.ext_getElem?
      intro i
      simp only [List.getElem?_map, List.getElem?_mapIdx]
      by_cases hi : i < L.length
      · have g1 : L[i]? = some L[i] := List.getElem?_eq_getElem hi
        have g2 : (unitsOf e f w)[i]? = some (unitsOf e f w)[i] := List.getElem?_eq_getElem (by omega)
        have g3 := congrArg (fun l => l[i]?) k7
        simp only [List.getElem?_map, g1, g2, Option.map_some, Option.some.injEq] at g3
        rw [g1, g2]
        simp only [Option.map_some, g3]
        rw [k5.idxOf_getElem i hi, charWord_unitWord, hLlen]
      · rw [List.getElem?_eq_none (by omega), List.getElem?_eq_none (by omega)]; rfl

/-- A unit of a word is a word that can be spelled, and spells itself. -/
theorem unitWord_spell {e : Enc} {f : Split.Flags} (hg : f.guarani = true → e = .utf8 ∨ e = .gb) {w : CW} (h : Spellable e f w) {u : List Nat}
    (hu : u ∈ unitsOf e f w) (k i : Nat) : Spellable e f (unitWord w k i u) ∧ unitsOf e f (unitWord w k i u) = [u] ∧
      spelled e f (unitWord w k i u) = [unitWord w k i u] := by
  obtain ⟨g1, g2, _, cr, g4, g5, g6⟩ := unit_ok hg h hu
  have ht : textOf (unitWord w k i u) = u := by
    unfold textOf unitWord
    by_cases ho : w.opt = true
    · simp [ho]
    · simp [ho]
  have hus : unitsOf e f (unitWord w k i u) = [u] := by
    unfold unitsOf
    rw [ht, g4, chars_flatten (fun c hc => (g5 c hc).1), g6, g4]
  refine ⟨⟨?_, ⟨cr, by rw [ht, g4], g5⟩, by rw [hus]; simp, ?_, ?_⟩, hus, ?_⟩
  · intro ho
    have ho : w.opt = true := ho
    exact ⟨u, by simp [unitWord, ho], by simp [unitWord, ho]⟩
  · rw [hus]
    intro x hx
    rw [List.mem_singleton.1 hx]; exact g1.star
  · rw [ht]
    have := h.short; omega
  · unfold spelled
    by_cases ho : (unitWord w k i u).opt = false ∧ unitsOf e f (unitWord w k i u) = [(unitWord w k i u).value]
    · rw [if_pos ho]
    · rw [if_neg ho, hus]
      have ho' : w.opt = true := by
        by_cases h1 : w.opt = true
        · exact h1
        · exact absurd ⟨by simpa [unitWord] using h1, by rw [hus]; simp [unitWord, h1]⟩ ho
      show [unitWord (unitWord w k i u) 1 0 u] = _
      congr 1
      unfold unitWord
      simp only [ho', if_true]
      congr 1 <;> grind

/-- Splitting words into units satisfies what the traversal needs. -/
theorem char_subOk (e : Enc) (f : Split.Flags) (hg : f.guarani = true → e = .utf8 ∨ e = .gb) :
    SubOk (charSub e f) (Spellable e f) CW.opt (spelled e f) := by
  intro w hw
  obtain ⟨c1, c2⟩ := char_sub hg hw
  by_cases hh : w.opt = false ∧ unitsOf e f w = [w.value]
  · exact Or.inl ⟨c1 hh, hh.1, by unfold spelled; rw [if_pos hh]⟩
  · obtain ⟨m, s, L, k1, ⟨r, hn⟩, k3, k4, k5, k6⟩ := c2 hh
    have hspell : spelled e f w = (unitsOf e f w).mapIdx fun i u => unitWord w (unitsOf e f w).length i u := by
      unfold spelled; rw [if_neg hh]
    have hso := hn.stop_ok s k3
    have hdata : ∀ (i a : Nat), L[i]? = some a → m.data a = (spelled e f w)[i]? := by
      intro i a hi
      have := congrArg (fun l => l[i]?) k5
      rw [← hspell] at this
      simp only [List.getElem?_map, hi, Option.map_some] at this
      cases hx : (spelled e f w)[i]? with
      | none => rw [hx] at this; simp at this
      | some y => rw [hx] at this; simpa using this
    have hLlen : L.length = (spelled e f w).length := by simpa [← hspell] using congrArg List.length k5
    have hmemL : ∀ v a, a ∈ m.out v → a ∈ L := by
      have hreach : ∀ v, m.Reach v → v = s ∨ ∃ L1 L2, L = L1 ++ L2 ∧ Chain m s v L2 := by
        intro v hv
        induction hv with
        | start => exact Or.inr ⟨[], L, rfl, k4⟩
        | step v a _ ha ih =>
          rcases ih with e1 | ⟨L1, L2, e1, e2⟩
          · rw [e1, hso.1] at ha; cases ha
          · cases e2 with
            | nil => rw [hso.1] at ha; cases ha
            | cons _ b L2 h1 h2 =>
              rw [h1] at ha
              have := List.mem_singleton.1 ha
              subst this
              exact Or.inr ⟨L1 ++ [a], L2, by simp [e1], h2⟩
      intro v a ha
      have hv : m.Reach v := by
        rw [hn.reach_iff]
        by_cases e1 : v = m.start
        · exact Or.inl e1
        · exact Or.inr (hn.source v (List.ne_nil_of_mem ha) e1)
      rcases hreach v hv with e1 | ⟨L1, L2, e1, e2⟩
      · rw [e1, hso.1] at ha; cases ha
      · cases e2 with
        | nil => rw [hso.1] at ha; cases ha
        | cons _ b L2 h1 h2 =>
          rw [h1] at ha
          have := List.mem_singleton.1 ha
          subst this
          rw [e1]; simp
    have hfirst : ∃ b0, m.out m.start = [b0] := by
      match L, k4 with
      | _, .cons _ a L g1 _ => exact ⟨a, g1⟩
      | [], h => 
        have : (spelled e f w).length = 0 := by rw [← hLlen]; rfl
        rw [hspell, List.length_mapIdx] at this
        exact absurd (List.length_eq_zero_iff.1 this) hw.something
    obtain ⟨b0, hb0⟩ := hfirst
    refine Or.inr ⟨m, s, b0, k1, ⟨r, hn⟩, k3, hb0, k6, ?_, ?_⟩
    · intro vs
      rw [chain_sp hso.1 (one m) k4 vs]
      constructor
      · rintro ⟨parts, e1, e2, e3⟩
        have : parts = (spelled e f w).map fun y => [y] := by
          apply List.ext_getElem?
          intro i
          rw [List.getElem?_map]
          by_cases hi : i < L.length
          · have g1 : L[i]? = some L[i] := List.getElem?_eq_getElem hi
            have g2 : parts[i]? = some parts[i] := List.getElem?_eq_getElem (by omega)
            obtain ⟨x, x1, x2⟩ := e3 i _ _ g1 g2
            rw [hdata i _ g1] at x1
            rw [g2, x1, x2]; rfl
          · rw [List.getElem?_eq_none (by omega), List.getElem?_eq_none (by omega)]; rfl
        rw [e1, this]
        generalize spelled e f w = l
        induction l with
        | nil => rfl
        | cons x l ih => simp [ih]
      · rintro rfl
        refine ⟨(spelled e f w).map fun y => [y], ?_, by rw [List.length_map, hLlen], ?_⟩
        · generalize spelled e f w = l
          induction l with
          | nil => rfl
          | cons x l ih => rw [List.map_cons, List.flatten_cons, ← ih]; rfl
        · intro i a p hi hp
          rw [List.getElem?_map] at hp
          cases hx : (spelled e f w)[i]? with
          | none => rw [hx] at hp; cases hp
          | some y =>
            rw [hx] at hp
            exact ⟨y, by rw [hdata i a hi, hx], by simpa using hp.symm⟩
    · intro v a ha
      have hm := hmemL v a ha
      obtain ⟨i, hi, e1⟩ := List.getElem_of_mem hm
      have g1 : L[i]? = some a := by rw [List.getElem?_eq_getElem hi, e1]
      have g2 := hdata i a g1
      rw [hspell, List.getElem?_mapIdx] at g2
      have hi2 : i < (unitsOf e f w).length := by
        rw [hLlen, hspell, List.length_mapIdx] at hi; exact hi
      rw [List.getElem?_eq_getElem hi2] at g2
      have hmu : (unitsOf e f w)[i] ∈ unitsOf e f w := List.getElem_mem hi2
      obtain ⟨s1, s2, s3⟩ := unitWord_spell hg hw hmu (unitsOf e f w).length i
      refine ⟨_, g2, s1, s3, rfl, ?_⟩
      intro ho
      refine (char_sub hg s1).1 ⟨ho, ?_⟩
      rw [s2]
      have ho : w.opt = false := ho
      simp [unitWord, ho]

end Verif.CharNet
