import Verif.Mfa.Lemmas
/-!
# C37, C38, C70: cutting the inputs of ROVER at common silences
-/
set_option autoImplicit false
namespace Verif.Mfa

/-- **C37** The overlap is the earlier end minus the later start, whatever the order of the four times. -/
theorem overlap_length (a1 a2 b1 b2 : Rat) : overlap a1 a2 b1 b2 = smaller a2 b2 - larger a1 b1 := overlap_eq a1 a2 b1 b2

/-- **C37** The overlap does not depend on which interval comes first. -/
theorem overlap_symm (a1 a2 b1 b2 : Rat) : overlap a1 a2 b1 b2 = overlap b1 b2 a1 a2 := by
  rw [overlap_eq, overlap_eq]; unfold smaller larger; grind

/-- **C37** The overlap of two intervals is positive exactly when they have two different times in common. -/
theorem overlap_pos_iff (a1 a2 b1 b2 : Rat) :
    0 < overlap a1 a2 b1 b2 ↔ ∃ x y : Rat, x < y ∧ a1 ≤ x ∧ y ≤ a2 ∧ b1 ≤ x ∧ y ≤ b2 := by
  rw [overlap_eq]
  constructor
  · intro h
    exact ⟨larger a1 b1, smaller a2 b2, by grind, by unfold larger; grind, by unfold smaller; grind, by unfold larger; grind,
      by unfold smaller; grind⟩
  · rintro ⟨x, y, h, h1, h2, h3, h4⟩
    unfold smaller larger; grind

example : overlap 1 3 2 5 = 1 := by decide +kernel
example : overlap 1 2 3 4 = -1 := by decide +kernel

/-- The words of system `i` in the chunks. -/
def column (i : Nat) (out : List (List (List Word))) : List (List Word) := out.map (fun ch => ch.getD i [])

theorem chunkOf_own (s : Sys) (c : Nat) (h : c ≤ s.chan.length) : chunkOf s c = s.chan.take c := by
  unfold chunkOf; rw [List.take_append_of_le_length h]

/-- One system over the chunks. -/
def Cut (s : Sys) (col : List (List Word)) : Prop :=
  ∃ own rest, col = own ++ rest ∧ own.flatten = s.chan ∧ (∀ o ∈ own, o ≠ []) ∧ ∀ r ∈ rest, r = [] ∨ r = s.after.take 1

theorem cut_step (s : Sys) (c : Nat) (col : List (List Word)) (h1 : s.chan = [] → c ≤ 1)
    (h2 : s.chan ≠ [] → 1 ≤ c ∧ c ≤ s.chan.length) (h : Cut (advance s c) col) : Cut s (chunkOf s c :: col) := by
  obtain ⟨own, rest, e1, e2, e3, e4⟩ := h
  by_cases hs : s.chan = []
  · have hc := h1 hs
    have ha : advance s c = s := by
      unfold advance
      by_cases hh : c ≤ s.chan.length
      · rw [if_pos hh]; cases s; simp_all
      · rw [if_neg hh]
    rw [ha] at e2 e4
    have how : own = [] := by
      cases own with
      | nil => rfl
      | cons o l =>
        rw [hs, List.flatten_cons, List.append_eq_nil_iff] at e2
        exact absurd e2.1 (e3 o (by simp))
    refine ⟨[], chunkOf s c :: col, rfl, by simp [hs], by simp, ?_⟩
    intro r hr
    rcases List.mem_cons.mp hr with rfl | hr
    · unfold chunkOf
      rw [hs, List.nil_append]
      rcases Nat.le_one_iff_eq_zero_or_eq_one.mp hc with rfl | rfl
      · left; simp
      · right; rfl
    · rw [e1, how, List.nil_append] at hr
      exact e4 r hr
  · have hc := h2 hs
    have ha : advance s c = { s with chan := s.chan.drop c } := by unfold advance; rw [if_pos hc.2]
    rw [ha] at e2 e4
    refine ⟨chunkOf s c :: own, rest, by rw [e1]; rfl, ?_, ?_, e4⟩
    · rw [List.flatten_cons, e2, chunkOf_own s c hc.2, List.take_append_drop]
    · intro o ho
      rcases List.mem_cons.mp ho with rfl | ho
      · rw [chunkOf_own s c hc.2]
        intro hh
        have := congrArg List.length hh
        rw [List.length_take] at this
        simp only [List.length_nil] at this
        omega
      · exact e3 o ho

theorem remaining_cons (s : Sys) (ss : List Sys) : remaining (s :: ss) = s.chan.length + remaining ss := rfl

theorem advance_le (s : Sys) (c : Nat) : (advance s c).chan.length ≤ s.chan.length := by
  unfold advance; split <;> simp

theorem remaining_le : ∀ (ss : List Sys) (cs : List Nat), remaining (List.zipWith advance ss cs) ≤ remaining ss
  | [], _ => by simp [remaining]
  | _ :: _, [] => by simp [remaining]
  | s :: ss, c :: cs => by
    rw [List.zipWith_cons_cons, remaining_cons, remaining_cons]
    have := advance_le s c
    have := remaining_le ss cs
    omega

theorem remaining_lt : ∀ (ss : List Sys) (cs : List Nat), Counts (ss.map (·.chan)) cs →
    (∃ (i : Nat) (ws : List Word), (ss.map (·.chan))[i]? = some ws ∧ ws ≠ []) →
    remaining (List.zipWith advance ss cs) < remaining ss
  | [], _, _, ⟨i, ws, h, _⟩ => by simp at h
  | _ :: _, [], h, _ => by simp [Counts] at h
  | s :: ss, c :: cs, h, ⟨i, ws, hi, hw⟩ => by
    rw [List.zipWith_cons_cons, remaining_cons, remaining_cons]
    have ha := advance_le s c
    cases i with
    | zero =>
      simp only [List.map_cons, List.getElem?_cons_zero, Option.some.injEq] at hi
      subst hi
      have hc := (h.2 0 s.chan c rfl rfl).2 hw
      have hl := remaining_le ss cs
      have : (advance s c).chan.length < s.chan.length := by
        unfold advance; rw [if_pos hc.2]; simp only [List.length_drop]; omega
      omega
    | succ i =>
      have := remaining_lt ss cs ⟨by have := h.1; simpa using this, fun j => h.2 (j + 1)⟩ ⟨i, ws, hi, hw⟩
      omega

theorem advance_after (s : Sys) (c : Nat) : (advance s c).after = s.after := by unfold advance; split <;> rfl

theorem chunks_spec (dur : Rat) (hd : 0 ≤ dur) : ∀ (f : Nat) (ss : List Sys), remaining ss < f →
    ∃ out ss', chunks dur f ss = some (out, ss') ∧ ss' = ss.map (fun s => ⟨[], s.after⟩) ∧
      (∀ ch ∈ out, ch.length = ss.length ∧ ∃ ws ∈ ch, ws ≠ []) ∧
      ∀ (i : Nat) (s : Sys), ss[i]? = some s → Cut s (column i out)
  | 0, _, h => by omega
  | f + 1, ss, hf => by
    unfold chunks
    cases hs : findSilence dur (ss.map (·.chan)) with
    | none =>
      have hn := findSilence_none dur _ hs
      refine ⟨[], ss, rfl, ?_, by simp, ?_⟩
      · conv => lhs; rw [← List.map_id ss]
        apply List.map_congr_left
        intro s hm
        have : s.chan = [] := hn _ (List.mem_map.mpr ⟨s, hm, rfl⟩)
        cases s; simp at this; simp [this]
      · intro i s hi
        have : s.chan = [] := hn _ (List.mem_map.mpr ⟨s, List.mem_of_getElem? hi, rfl⟩)
        exact ⟨[], [], rfl, by simp [this], by simp, by simp⟩
    | some cs =>
      obtain ⟨hc, hne⟩ := findSilence_counts dur hd _ cs hs
      have hlt := remaining_lt ss cs hc hne
      obtain ⟨out, ss', h1, h2, h3, h4⟩ := chunks_spec dur hd f (List.zipWith advance ss cs) (by omega)
      have hlen : cs.length = ss.length := by simpa using hc.1
      have getC : ∀ (i : Nat) (s : Sys), ss[i]? = some s → ∃ c, cs[i]? = some c := by
        intro i s hi
        have : i < cs.length := by rw [hlen]; exact (List.getElem?_eq_some_iff.mp hi).1
        exact ⟨cs[i], List.getElem?_eq_getElem this⟩
      simp only [h1, Option.map_some]
      refine ⟨_, _, rfl, ?_, ?_, ?_⟩
      · rw [h2]
        apply List.ext_getElem?
        intro i
        rw [List.getElem?_map, List.getElem?_map, List.getElem?_zipWith]
        cases hi : ss[i]? with
        | none => rfl
        | some s =>
          obtain ⟨c, hcc⟩ := getC i s hi
          rw [hcc]
          simp [advance_after]
      · intro ch hch
        rcases List.mem_cons.mp hch with rfl | hch
        · refine ⟨by simp [hlen], ?_⟩
          obtain ⟨i, ws, hi, hw⟩ := hne
          rw [List.getElem?_map] at hi
          cases hsi : ss[i]? with
          | none => rw [hsi] at hi; cases hi
          | some s =>
            rw [hsi] at hi
            simp only [Option.map_some, Option.some.injEq] at hi
            subst hi
            obtain ⟨c, hcc⟩ := getC i s hsi
            refine ⟨chunkOf s c, List.mem_of_getElem? (i := i) (by rw [List.getElem?_zipWith, hsi, hcc]), ?_⟩
            have := (hc.2 i s.chan c (by rw [List.getElem?_map, hsi]; rfl) hcc).2 hw
            rw [chunkOf_own s c this.2]
            intro hh
            have := congrArg List.length hh
            rw [List.length_take] at this
            simp only [List.length_nil] at this
            omega
        · have := h3 ch hch
          exact ⟨by rw [this.1]; simp [hlen], this.2⟩
      · intro i s hi
        obtain ⟨c, hcc⟩ := getC i s hi
        have hk := hc.2 i s.chan c (by rw [List.getElem?_map, hi]; rfl) hcc
        have := h4 i (advance s c) (by rw [List.getElem?_zipWith, hi, hcc])
        have hcol : column i (List.zipWith chunkOf ss cs :: out) = chunkOf s c :: column i out := by
          unfold column
          rw [List.map_cons, List.getD_eq_getElem?_getD, List.getElem?_zipWith, hi, hcc]
          rfl
        rw [hcol]
        exact cut_step s c _ hk.1 hk.2 this

/-- **C38** (partial: see `foreign_word`) Cutting a file and channel always ends, leaves no words of it, gives every system a
part of every chunk, and no chunk is empty.  A system's parts are first its own words, in order and each exactly once, a
non-empty run in every chunk; after that they are empty or consist of the word that follows in its file. -/
theorem chunks_words_partial (dur : Rat) (hd : 0 ≤ dur) (ss : List Sys) :
    ∃ out ss', channelChunks dur ss = some (out, ss') ∧ ss' = ss.map (fun s => ⟨[], s.after⟩) ∧
      (∀ ch ∈ out, ch.length = ss.length ∧ ∃ ws ∈ ch, ws ≠ []) ∧
      ∀ (i : Nat) (s : Sys), ss[i]? = some s → ∃ own rest, column i out = own ++ rest ∧ own.flatten = s.chan ∧
        (∀ o ∈ own, o ≠ []) ∧ ∀ r ∈ rest, r = [] ∨ r = s.after.take 1 :=
  chunks_spec dur hd _ ss (by omega)

/-- **C38** In the last file and channel of the inputs the chunks partition every system's words. -/
theorem last_channel_partition (dur : Rat) (hd : 0 ≤ dur) (ss : List Sys) (hlast : ∀ s ∈ ss, s.after = []) :
    ∃ out, channelChunks dur ss = some (out, ss.map (fun _ => ⟨[], []⟩)) ∧
      ∀ (i : Nat) (s : Sys), ss[i]? = some s → (column i out).flatten = s.chan := by
  obtain ⟨out, ss', h1, h2, h3, h4⟩ := chunks_spec dur hd _ ss (Nat.lt_succ_self _)
  refine ⟨out, ?_, ?_⟩
  · unfold channelChunks
    rw [h1, h2]
    congr 2
    apply List.map_congr_left
    intro s hs; rw [hlast s hs]
  · intro i s hi
    obtain ⟨own, rest, e1, e2, e3, e4⟩ := h4 i s hi
    rw [e1, List.flatten_append, e2]
    have : rest.flatten = [] := by
      rw [List.flatten_eq_nil_iff]
      intro r hr
      rcases e4 r hr with h | h
      · exact h
      · rw [h, hlast s (List.mem_of_getElem? hi)]; rfl
    rw [this, List.append_nil]

theorem findSilence_empty (dur : Rat) (l : List (List Word)) (h : ∀ ws ∈ l, ws = []) : findSilence dur l = none := by
  unfold findSilence
  cases l with
  | nil => rfl
  | cons m others =>
    simp only
    have hm : m = [] := h m (by simp)
    rw [hm]
    unfold findCommon
    simp only
    rw [if_neg]
    rw [List.any_eq_true]
    rintro ⟨ws, h1, h2⟩
    rw [h ws (by rw [hm]; exact h1)] at h2
    simp at h2

theorem findSilence_cases (dur : Rat) (hd : 0 ≤ dur) (l : List (List Word)) (cs : List Nat) (h : findSilence dur l = some cs) :
    cs = l.map List.length ∨ ∃ lo hi, lo < hi ∧
      (∀ (i : Nat) (ws : List Word) (c : Nat), l[i]? = some ws → cs[i]? = some c → Part lo hi ws c) ∧
      ∃ m c0 w, l[0]? = some m ∧ cs[0]? = some c0 ∧ m[c0 - 1]? = some w ∧ ∀ v, m[c0]? = some v → w.t1 + w.dur + dur < v.t1 := by
  unfold findSilence at h
  cases l with
  | nil => cases h
  | cons m others =>
    simp only at h
    cases hf : findCommon dur others 0 m with
    | some x =>
      rw [hf] at h
      simp only [Option.some.injEq] at h
      subst h
      obtain ⟨lo, hi, a, _, b, c0, w, d1, d2, d3⟩ := findCommon_spec dur hd others m [] x hf
      simp only [List.nil_append] at b d2 d3
      exact Or.inr ⟨lo, hi, a, b, m, c0, w, rfl, d1, d2, d3⟩
    | none =>
      rw [hf] at h
      simp only at h
      by_cases ha : ((m :: others).any (fun ws => !ws.isEmpty)) = true
      · rw [if_pos ha] at h
        simp only [Option.some.injEq] at h
        exact Or.inl h.symm
      · rw [if_neg ha] at h; cases h

theorem chunks_all (dur : Rat) (f : Nat) (ss : List Sys) (out : List (List (List Word))) (ss' : List Sys)
    (h : chunks dur f (List.zipWith advance ss ((ss.map (·.chan)).map List.length)) = some (out, ss')) : out = [] := by
  cases f with
  | zero => cases h
  | succ f =>
    unfold chunks at h
    rw [findSilence_empty] at h
    · simp only [Option.some.injEq, Prod.mk.injEq] at h; exact h.1.symm
    · intro ws hw
      obtain ⟨s, hs, e⟩ := List.mem_map.mp hw
      obtain ⟨i, hi⟩ := List.getElem?_of_mem hs
      rw [List.getElem?_zipWith, List.getElem?_map, List.getElem?_map] at hi
      cases hsi : ss[i]? with
      | none => rw [hsi] at hi; cases hi
      | some t =>
        rw [hsi] at hi
        simp only [Option.map_some, Option.some.injEq] at hi
        rw [← e, ← hi]
        unfold advance
        rw [if_pos (Nat.le_refl _)]
        simp

theorem chunks_silence (dur : Rat) (hd : 0 ≤ dur) : ∀ (f : Nat) (ss : List Sys) (out : List (List (List Word))) (ss' : List Sys),
    chunks dur f ss = some (out, ss') → ∀ k, k + 1 < out.length → ∃ lo hi, lo < hi ∧
      (∀ (i : Nat) (s : Sys), ss[i]? = some s → ((column i out).take k).flatten.length < s.chan.length →
        SilentAfter lo hi s.chan ((column i out).take (k + 1)).flatten.length) ∧
      ∃ s w, ss[0]? = some s ∧ ((column 0 out).take k).flatten.length < s.chan.length ∧
        s.chan[((column 0 out).take (k + 1)).flatten.length - 1]? = some w ∧
        ∀ v, s.chan[((column 0 out).take (k + 1)).flatten.length]? = some v → w.t1 + w.dur + dur < v.t1
  | 0, ss, out, ss', h => by unfold chunks at h; cases h
  | f + 1, ss, out, ss', h => by
    unfold chunks at h
    intro k hk
    cases hs : findSilence dur (ss.map (·.chan)) with
    | none => rw [hs] at h; simp only [Option.some.injEq, Prod.mk.injEq] at h; rw [← h.1] at hk; simp at hk
    | some cs =>
      rw [hs] at h
      simp only [Option.map_eq_some_iff, Prod.mk.injEq] at h
      obtain ⟨⟨out', ss''⟩, h1, h2, h3⟩ := h
      simp only at h2 h3
      obtain ⟨hc, hne⟩ := findSilence_counts dur hd _ cs hs
      have hlen : cs.length = ss.length := by simpa using hc.1
      have getC : ∀ (i : Nat) (s : Sys), ss[i]? = some s → ∃ c, cs[i]? = some c := by
        intro i s hi
        have : i < cs.length := by rw [hlen]; exact (List.getElem?_eq_some_iff.mp hi).1
        exact ⟨cs[i], List.getElem?_eq_getElem this⟩
      have hcol : ∀ (i : Nat) (s : Sys) (c : Nat), ss[i]? = some s → cs[i]? = some c →
          column i out = chunkOf s c :: column i out' := by
        intro i s c hi hcc
        rw [← h2]
        unfold column
        rw [List.map_cons, List.getD_eq_getElem?_getD, List.getElem?_zipWith, hi, hcc]
        rfl
      cases k with
      | zero =>
        rcases findSilence_cases dur hd _ cs hs with e | ⟨lo, hi, hl, hp, m, c0, w, m1, m2, m3, m4⟩
        · rw [e] at h1
          have := chunks_all dur f ss out' ss'' h1
          rw [← h2, this] at hk
          simp at hk
        · have one : ∀ (i : Nat) (s : Sys) (c : Nat), ss[i]? = some s → cs[i]? = some c → s.chan ≠ [] →
              ((column i out).take (0 + 1)).flatten.length = c := by
            intro i s c hi hcc hne
            have hb := ((hc.2 i s.chan c (by rw [List.getElem?_map, hi]; rfl) hcc).2 hne).2
            rw [hcol i s c hi hcc]
            simp [chunkOf_own s c hb, hb]
          refine ⟨lo, hi, hl, ?_, ?_⟩
          · intro i s hsi hlt
            obtain ⟨c, hcc⟩ := getC i s hsi
            have hne : s.chan ≠ [] := by intro hh; rw [hh] at hlt; simp at hlt
            rw [one i s c hsi hcc hne]
            exact ((hp i s.chan c (by rw [List.getElem?_map, hsi]; rfl) hcc).2 hne).2
          · rw [List.getElem?_map] at m1
            cases hs0 : ss[0]? with
            | none => rw [hs0] at m1; cases m1
            | some s =>
              rw [hs0] at m1
              simp only [Option.map_some, Option.some.injEq] at m1
              subst m1
              have hne : s.chan ≠ [] := by intro hh; rw [hh] at m3; simp at m3
              refine ⟨s, w, rfl, ?_, ?_, ?_⟩
              · simp; exact List.length_pos_iff.mpr hne
              · rw [one 0 s c0 hs0 m2 hne]; exact m3
              · rw [one 0 s c0 hs0 m2 hne]; exact m4
      | succ k =>
        rw [← h2, List.length_cons] at hk
        obtain ⟨lo, hi, hl, hp, s0, w, q1, q2, q3, q4⟩ := chunks_silence dur hd f _ out' ss'' h1 k (by omega)
        have stepL : ∀ (i : Nat) (s : Sys) (c n : Nat), ss[i]? = some s → cs[i]? = some c → s.chan ≠ [] →
            ((column i out).take (n + 1)).flatten.length = c + ((column i out').take n).flatten.length := by
          intro i s c n hsi hcc hne
          have hb := ((hc.2 i s.chan c (by rw [List.getElem?_map, hsi]; rfl) hcc).2 hne).2
          rw [hcol i s c hsi hcc, List.take_succ_cons, List.flatten_cons, List.length_append, chunkOf_own s c hb,
            List.length_take, Nat.min_eq_left hb]
        refine ⟨lo, hi, hl, ?_, ?_⟩
        · intro i s hsi hlt
          obtain ⟨c, hcc⟩ := getC i s hsi
          have hne : s.chan ≠ [] := by intro hh; rw [hh] at hlt; simp at hlt
          have hb := ((hc.2 i s.chan c (by rw [List.getElem?_map, hsi]; rfl) hcc).2 hne).2
          have ha : (advance s c).chan = s.chan.drop c := by unfold advance; rw [if_pos hb]
          rw [stepL i s c k hsi hcc hne] at hlt
          have := hp i (advance s c) (by rw [List.getElem?_zipWith, hsi, hcc]) (by rw [ha, List.length_drop]; omega)
          rw [stepL i s c (k + 1) hsi hcc hne]
          rw [ha] at this
          obtain ⟨b1, ⟨w, b2, b3⟩, b4⟩ := this
          refine ⟨by omega, ⟨w, ?_, b3⟩, ?_⟩
          · rw [List.getElem?_drop] at b2
            rw [← b2]; congr 1; omega
          · intro v hv
            apply b4
            rw [List.getElem?_drop]; exact hv
        · rw [List.getElem?_zipWith] at q1
          cases hs0 : ss[0]? with
          | none => rw [hs0] at q1; cases q1
          | some s =>
            obtain ⟨c, hcc⟩ := getC 0 s hs0
            rw [hs0, hcc] at q1
            simp only [Option.some.injEq] at q1
            subst q1
            have hne : s.chan ≠ [] := by
              intro hh
              have := advance_le s c
              rw [hh] at this; simp at this
              rw [this] at q2; simp at q2
            have hb := ((hc.2 0 s.chan c (by rw [List.getElem?_map, hs0]; rfl) hcc).2 hne).2
            have ha : (advance s c).chan = s.chan.drop c := by unfold advance; rw [if_pos hb]
            rw [ha] at q2 q3 q4
            rw [List.length_drop] at q2
            rw [List.getElem?_drop] at q3
            have hpos : 1 ≤ ((column 0 out').take (k + 1)).flatten.length := by
              have := hp 0 (advance s c) (by rw [List.getElem?_zipWith, hs0, hcc]) (by rw [ha, List.length_drop]; exact q2)
              exact this.1
            refine ⟨s, w, rfl, ?_, ?_, ?_⟩
            · rw [stepL 0 s c k hs0 hcc hne]; omega
            · rw [stepL 0 s c (k + 1) hs0 hcc hne, ← q3]; congr 1; omega
            · rw [stepL 0 s c (k + 1) hs0 hcc hne]
              intro v hv
              apply q4
              rw [List.getElem?_drop]; exact hv

/-- **C38** Every chunk but the last ends in a silence common to all systems that still have words of the file and channel: there
is an interval of positive length that lies, in every such system, between its last word in the chunk and its next word.  In the first
system that silence is longer than the required duration. -/
theorem chunks_end_in_silence (dur : Rat) (hd : 0 ≤ dur) (ss ss' : List Sys) (out : List (List (List Word)))
    (h : channelChunks dur ss = some (out, ss')) (k : Nat) (hk : k + 1 < out.length) : ∃ lo hi, lo < hi ∧
      (∀ (i : Nat) (s : Sys), ss[i]? = some s → ((column i out).take k).flatten.length < s.chan.length →
        SilentAfter lo hi s.chan ((column i out).take (k + 1)).flatten.length) ∧
      ∃ s w, ss[0]? = some s ∧ ((column 0 out).take k).flatten.length < s.chan.length ∧
        s.chan[((column 0 out).take (k + 1)).flatten.length - 1]? = some w ∧
        ∀ v, s.chan[((column 0 out).take (k + 1)).flatten.length]? = some v → w.t1 + w.dur + dur < v.t1 :=
  chunks_silence dur hd _ ss out ss' h k hk

theorem split_append (l : List Word) : (split l).chan ++ (split l).after = l := by
  cases l with
  | nil => rfl
  | cons w ws => simp [split, List.takeWhile_append_dropWhile]

theorem column_append (i : Nat) (a b : List (List (List Word))) : column i (a ++ b) = column i a ++ column i b := by
  simp [column]

theorem alignFiles_words (dur : Rat) (hd : 0 ≤ dur) : ∀ (f : Nat) (files : List (List Word)) (chs : List (List (List Word)))
    (left : List (List Word)), alignFiles dur f files = .ok chs left → left.length = files.length ∧
      (∀ l ∈ left, l.length ≤ 1) ∧ ∀ (i : Nat) (ws l : List Word), files[i]? = some ws → left[i]? = some l →
        ∃ own : List (List Word), own.Sublist (column i chs) ∧ own.flatten ++ l = ws ∧ ∀ p ∈ column i chs, ∀ w ∈ p, w ∈ ws
  | 0, _, _, _, h => by unfold alignFiles at h; cases h
  | f + 1, files, chs, left, h => by
    unfold alignFiles at h
    cases files with
    | nil => cases h
    | cons ff others =>
      cases ff with
      | nil => cases h
      | cons m ms =>
        simp only at h
        by_cases hc : others.all (sameConv m) = true
        · rw [if_pos hc] at h
          obtain ⟨out, ss', h1, h2, _, h4⟩ := chunks_spec dur hd _ (((m :: ms) :: others).map split) (Nat.lt_succ_self _)
          rw [show channelChunks dur (((m :: ms) :: others).map split) = some (out, ss') from h1] at h
          simp only at h
          have hleft : ss'.map (fun s => s.chan ++ s.after) = ((m :: ms) :: others).map (fun l => (split l).after) := by
            rw [h2, List.map_map, List.map_map]; rfl
          rw [hleft] at h
          have step : ∀ (i : Nat) (ws : List Word), ((m :: ms) :: others)[i]? = some ws →
              ∃ own : List (List Word), own.Sublist (column i out) ∧ own.flatten ++ (split ws).after = ws ∧
                ∀ p ∈ column i out, ∀ w ∈ p, w ∈ ws := by
            intro i ws hi
            obtain ⟨own, rest, e1, e2, e3, e4⟩ := h4 i (split ws) (by rw [List.getElem?_map, hi]; rfl)
            refine ⟨own, by rw [e1]; exact List.sublist_append_left _ _, by rw [e2, split_append], ?_⟩
            intro p hp w hw
            rw [← split_append ws, List.mem_append]
            rw [e1] at hp
            rcases List.mem_append.mp hp with hp | hp
            · left; rw [← e2]; exact List.mem_flatten.mpr ⟨p, hp, hw⟩
            · right
              rcases e4 p hp with e | e
              · rw [e] at hw; simp at hw
              · rw [e] at hw; exact List.mem_of_mem_take hw
          by_cases ha : ((((m :: ms) :: others).map (fun l => (split l).after)).all (fun l => decide (l.length ≤ 1))) = true
          · rw [if_pos ha] at h
            simp only [Out.ok.injEq] at h
            obtain ⟨rfl, rfl⟩ := h
            refine ⟨by simp, ?_, ?_⟩
            · intro l hl
              have := List.all_eq_true.mp ha l hl
              simpa using this
            · intro i ws l hi hl
              rw [List.getElem?_map, hi] at hl
              simp only [Option.map_some, Option.some.injEq] at hl
              subst hl
              exact step i ws hi
          · rw [if_neg ha] at h
            cases hr : alignFiles dur f (((m :: ms) :: others).map (fun l => (split l).after)) with
            | undefined => rw [hr] at h; cases h
            | mismatch => rw [hr] at h; cases h
            | ok cs' l' =>
              rw [hr] at h
              simp only [Out.ok.injEq] at h
              obtain ⟨rfl, rfl⟩ := h
              obtain ⟨g1, g2, g3⟩ := alignFiles_words dur hd f _ _ _ hr
              refine ⟨by rw [g1]; simp, g2, ?_⟩
              intro i ws l hi hl
              obtain ⟨own, o1, o2, o3⟩ := step i ws hi
              obtain ⟨own', p1, p2, p3⟩ := g3 i (split ws).after l (by rw [List.getElem?_map, hi]; rfl) hl
              refine ⟨own ++ own', by rw [column_append]; exact List.Sublist.append o1 p1, ?_, ?_⟩
              · rw [List.flatten_append, List.append_assoc, p2, o2]
              · intro p hp w hw
                rw [column_append] at hp
                rcases List.mem_append.mp hp with hp | hp
                · exact o3 p hp w hw
                · have := p3 p hp w hw
                  rw [← split_append ws]; exact List.mem_append_right _ this
        · rw [if_neg hc] at h; cases h

/-- **C70** (partial: see `last_word_lost`, `channels_mixed`, `first_ends_early`) When the files have been aligned, each file is made
up of its parts in some of the chunks, in order, and at most one word at its end; the parts in the other chunks hold no words of any
other file. -/
theorem files_words_partial (dur : Rat) (hd : 0 ≤ dur) (f : Nat) (files : List (List Word)) (chs : List (List (List Word)))
    (left : List (List Word)) (h : alignFiles dur f files = .ok chs left) : left.length = files.length ∧
      (∀ l ∈ left, l.length ≤ 1) ∧ ∀ (i : Nat) (ws l : List Word), files[i]? = some ws → left[i]? = some l →
        ∃ own : List (List Word), own.Sublist (column i chs) ∧ own.flatten ++ l = ws ∧ ∀ p ∈ column i chs, ∀ w ∈ p, w ∈ ws :=
  alignFiles_words dur hd f files chs left h

/-- **C70** Files that continue with different recordings are not aligned: the mismatch is reported. -/
theorem recordings_compared (dur : Rat) (f : Nat) (m w : Word) (ms ws : List Word) (others : List (List Word))
    (hw : (w :: ws) ∈ others) (hne : w.conv ≠ m.conv) : alignFiles dur (f + 1) ((m :: ms) :: others) = .mismatch := by
  unfold alignFiles
  simp only
  rw [if_neg]
  rw [List.all_eq_true]
  intro h
  have := h _ hw
  simp [sameConv] at this
  exact hne this.symm

theorem whileAll {A : Type} (p : A → Bool) : ∀ l : List A, (∀ x ∈ l, p x = true) → l.takeWhile p = l ∧ l.dropWhile p = []
  | [], _ => ⟨rfl, rfl⟩
  | a :: l, h => by
    have ha := h a (by simp)
    obtain ⟨h1, h2⟩ := whileAll p l (fun x hx => h x (by simp [hx]))
    simp [List.takeWhile_cons, List.dropWhile_cons, ha, h1, h2]

theorem split_uniform (ws : List Word) (cv ch : Nat) (h : ∀ w ∈ ws, w.conv = cv ∧ w.chan = ch) : split ws = ⟨ws, []⟩ := by
  cases ws with
  | nil => rfl
  | cons w ws =>
    have hw := h w (by simp)
    have : ∀ v ∈ ws, decide (v.conv = w.conv ∧ v.chan = w.chan) = true := by
      intro v hv
      have := h v (by simp [hv])
      simp [this, hw]
    unfold split
    simp only
    rw [(whileAll _ ws this).1, (whileAll _ ws this).2]

/-- **C70** Files of a single recording and channel, of which the first is not empty, are aligned, and the chunks partition the words
of every file. -/
theorem single_recording (dur : Rat) (hd : 0 ≤ dur) (f : Nat) (m : Word) (ms : List Word) (others : List (List Word))
    (h : ∀ ws ∈ (m :: ms) :: others, ∀ w ∈ ws, w.conv = m.conv ∧ w.chan = m.chan) :
    ∃ chs, alignFiles dur (f + 1) ((m :: ms) :: others) = .ok chs (((m :: ms) :: others).map (fun _ => [])) ∧
      ∀ (i : Nat) (ws : List Word), ((m :: ms) :: others)[i]? = some ws → (column i chs).flatten = ws := by
  have hs : ((m :: ms) :: others).map split = ((m :: ms) :: others).map (fun ws => ⟨ws, []⟩) := by
    apply List.map_congr_left
    intro ws hw
    exact split_uniform ws _ _ (h ws hw)
  obtain ⟨out, h1, h2⟩ := last_channel_partition dur hd (((m :: ms) :: others).map (fun ws => ⟨ws, []⟩)) (by
    intro s hh
    obtain ⟨ws, _, rfl⟩ := List.mem_map.mp hh
    rfl)
  refine ⟨out, ?_, ?_⟩
  · unfold alignFiles
    simp only
    have hc : others.all (sameConv m) = true := by
      rw [List.all_eq_true]
      intro ws hw
      cases ws with
      | nil => rfl
      | cons w ws => simp [sameConv, (h (w :: ws) (by simp [hw]) w (by simp)).1]
    rw [if_pos hc, hs, h1]
    simp only
    rw [if_pos]
    · simp
    · rw [List.all_eq_true]
      intro l hl
      obtain ⟨s, hs1, rfl⟩ := List.mem_map.mp hl
      obtain ⟨s', _, rfl⟩ := List.mem_map.mp hs1
      rfl
  · intro i ws hi
    exact h2 i ⟨ws, []⟩ (by rw [List.getElem?_map, hi]; rfl)

def wd (conv chan : Nat) (t1 dur : Rat) (text : Nat) : Word := ⟨conv, chan, t1, dur, text⟩

/-- Two systems, two chunks. -/
example : channelChunks 1 [⟨[wd 0 0 0 1 10, wd 0 0 5 1 11], []⟩, ⟨[wd 0 0 0 1 12, wd 0 0 (1/2) 1 13, wd 0 0 6 1 14], []⟩] =
    some ([[[wd 0 0 0 1 10], [wd 0 0 0 1 12, wd 0 0 (1/2) 1 13]], [[wd 0 0 5 1 11], [wd 0 0 6 1 14]]], [⟨[], []⟩, ⟨[], []⟩]) := by
  decide +kernel

/-- C38 fails as stated: when a system has no words left in the file and channel, the next word of its file, which belongs to
another file, is aligned with the rest of the other systems' words, and it is aligned again later. -/
theorem foreign_word : ∃ (files : List (List Word)) (chs : List (List (List Word))) (left : List (List Word)),
    alignFiles 1 9 files = .ok chs left ∧
    ∃ ch w, ch ∈ chs ∧ (∃ x ∈ ch, ∃ y ∈ ch, ∃ v ∈ x, w ∈ y ∧ v.conv ≠ w.conv) ∧ 2 ≤ (column 1 chs).flatten.count w :=
  ⟨[[wd 0 0 0 1 10, wd 0 0 5 1 11, wd 1 0 0 1 12, wd 1 0 1 1 13], [wd 0 0 0 1 20, wd 1 0 0 1 22, wd 1 0 1 1 23]], _, _,
    (by decide +kernel : alignFiles 1 9 _ = .ok
      [[[wd 0 0 0 1 10], [wd 0 0 0 1 20]], [[wd 0 0 5 1 11], [wd 1 0 0 1 22]],
       [[wd 1 0 0 1 12, wd 1 0 1 1 13], [wd 1 0 0 1 22, wd 1 0 1 1 23]]] [[], []]),
    [[wd 0 0 5 1 11], [wd 1 0 0 1 22]], wd 1 0 0 1 22, by decide +kernel, by decide +kernel, by decide +kernel⟩

/-- The required duration is only asked of the first system: the silence common to all can be shorter. -/
theorem short_common_silence : ∃ (ss ss' : List Sys) (a b : List (List Word)),
    channelChunks 1 ss = some ([a, b], ss') ∧
    ss.map (·.chan) = [[wd 0 0 0 1 10, wd 0 0 5 1 11], [wd 0 0 0 (48/10) 20, wd 0 0 (49/10) 1 21]] ∧
    a = [[wd 0 0 0 1 10], [wd 0 0 0 (48/10) 20]] :=
  ⟨[⟨[wd 0 0 0 1 10, wd 0 0 5 1 11], []⟩, ⟨[wd 0 0 0 (48/10) 20, wd 0 0 (49/10) 1 21], []⟩], [⟨[], []⟩, ⟨[], []⟩],
    [[wd 0 0 0 1 10], [wd 0 0 0 (48/10) 20]], [[wd 0 0 5 1 11], [wd 0 0 (49/10) 1 21]], by decide +kernel, rfl, rfl⟩

/-- A last recording with a single word in every file is never aligned. -/
theorem last_word_lost : ∃ (files : List (List Word)) (chs : List (List (List Word))) (w : Word),
    alignFiles 1 9 files = .ok chs [[w], [w]] ∧ ∀ i, w ∉ (column i chs).flatten :=
  ⟨[[wd 0 0 0 1 10, wd 1 0 0 1 12], [wd 0 0 0 1 10, wd 1 0 0 1 12]], [[[wd 0 0 0 1 10], [wd 0 0 0 1 10]]], wd 1 0 0 1 12,
    by decide +kernel, by
      intro i
      match i with
      | 0 => decide +kernel
      | 1 => decide +kernel
      | i + 2 => simp [column]⟩

/-- Different channels of a recording are aligned with each other. -/
theorem channels_mixed : ∃ (files : List (List Word)) (v w : Word), v.chan ≠ w.chan ∧
    alignFiles 1 9 files = .ok [[[v], [w]]] [[], []] :=
  ⟨[[wd 0 0 0 1 10], [wd 0 1 0 1 10]], wd 0 0 0 1 10, wd 0 1 0 1 10, by decide +kernel, by decide +kernel⟩

/-- When the first file ends before the others, its recording is read from beyond its words. -/
theorem first_ends_early : ∃ (files : List (List Word)), files.head? = some [wd 0 0 0 1 10] ∧
    ∀ f, alignFiles 1 f files = .undefined := by
  refine ⟨[[wd 0 0 0 1 10], [wd 0 0 0 1 10, wd 1 0 0 1 12, wd 1 0 1 1 13]], rfl, ?_⟩
  intro f
  match f with
  | 0 => rfl
  | 1 => decide +kernel
  | f + 2 =>
    unfold alignFiles
    have h1 : ([[wd 0 0 0 1 10, wd 1 0 0 1 12, wd 1 0 1 1 13]] : List (List Word)).all (sameConv (wd 0 0 0 1 10)) = true := by
      decide +kernel
    have h2 : channelChunks 1 (([[wd 0 0 0 1 10], [wd 0 0 0 1 10, wd 1 0 0 1 12, wd 1 0 1 1 13]] : List (List Word)).map split) =
        some ([[[wd 0 0 0 1 10], [wd 0 0 0 1 10]]], [⟨[], []⟩, ⟨[], [wd 1 0 0 1 12, wd 1 0 1 1 13]⟩]) := by decide +kernel
    simp only
    rw [if_pos h1, h2]
    simp only [List.map_cons, List.map_nil, List.nil_append]
    rw [if_neg (by decide)]
    unfold alignFiles
    rfl

/-- Two recordings of two systems. -/
example : alignFiles 1 9 [[wd 0 0 0 1 10, wd 1 0 0 1 12, wd 1 0 2 1 13], [wd 0 0 0 1 20, wd 1 0 0 1 22, wd 1 0 1 1 23]] = .ok
    [[[wd 0 0 0 1 10], [wd 0 0 0 1 20]], [[wd 1 0 0 1 12, wd 1 0 2 1 13], [wd 1 0 0 1 22, wd 1 0 1 1 23]]] [[], []] := by
  decide +kernel

end Verif.Mfa
