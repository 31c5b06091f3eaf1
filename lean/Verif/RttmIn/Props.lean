import Verif.RttmIn.Speaker
import Verif.CtmIn.Props
/-!
# Reading RTTM files: properties
-/
set_option autoImplicit false
namespace Verif.RttmIn
open Verif.CtmIn (Fields Word Out wordsFrom)
open Verif.StmIn (Grouped under under_mem attach attach_none)

/-! ## C117: one word per segment -/

theorem under_self {α : Type} {m : List (List Nat × List α)} (hs : (m.map Prod.fst).Pairwise (· < ·)) {k : List Nat} {xs : List α}
    (h : (k, xs) ∈ m) : under k m = xs := under_mem hs h

/-- **C117**.  With one word per segment, an RTTM file is read into one speech for each speaker, ordered by name, with one segment for
each `LEXEME` line of a kind that is scored, in the order of the file, with its file, channel, times, word, and whether it may be missed;
all other lines are passed over. -/
theorem lexeme_file (ms : List Nat → Int) (lines : List (List Nat)) (rs : List (Nat × Lex × Option (List Nat))) (h : LexFile ms 0 lines rs)
    (hr : rs ≠ []) : ∃ sp, lexLoad ms lines = .ok sp ∧
      Grouped (fun x : Nat × Lex => x.2.spkr) (fun s : LSeg => (s.line, s.lex)) (rs.map (fun x => (x.1, x.2.1))) sp := by
  obtain ⟨st, h1, h2⟩ := lexLoad_ok h hr
  refine ⟨st.res, h1, h2.sorted, ?_, ?_⟩
  · intro k
    rw [h2.keys]
    constructor
    · rintro ⟨x, hx, e⟩
      exact ⟨(x.1, x.2.1), List.mem_map.2 ⟨x, hx, rfl⟩, e⟩
    · rintro ⟨y, hy, e⟩
      obtain ⟨x, hx, rfl⟩ := List.mem_map.1 hy
      exact ⟨x, hx, e⟩
  · intro k xs hx
    have := h2.segs k
    rw [under_self h2.sorted hx] at this
    have e := congrArg (List.map (fun x : Nat × Lex × Option (List Nat) => (x.1, x.2.1))) this
    rw [List.map_map] at e
    rw [show (fun s : LSeg => (s.line, s.lex)) = (fun x : Nat × Lex × Option (List Nat) => (x.1, x.2.1)) ∘ (fun s : LSeg => (s.line, s.lex, s.conf))
      from rfl, e, ← given_spkr true rs, List.filter_map]
    rfl

/-- A file without such lines is refused. -/
theorem lexeme_no_data (ms : List Nat → Int) (lines : List (List Nat)) (h : LexFile ms 0 lines []) : lexLoad ms lines = .fatal := by
  obtain ⟨st, h1, h2⟩ := lexRun_inv h linv_start
  have : st.res = [] := by
    cases hr : st.res with
    | nil => rfl
    | cons p m =>
      have := (h2.keys p.1).1 (by rw [hr]; simp)
      obtain ⟨x, hx, _⟩ := this
      cases hx
  rw [lexLoad, h1]
  dsimp only
  rw [if_pos this]

theorem lexRun_append (ms : List Nat → Int) (a b : List (List Nat)) (st st' : LSt) (h : lexRun ms st a = .ok st') :
    lexRun ms st (a ++ b) = lexRun ms st' b := by
  induction a generalizing st with
  | nil => cases h; rfl
  | cons l a ih =>
    rw [lexRun] at h
    rw [List.cons_append, lexRun]
    split at h
    · rename_i s e
      exact ih s h
    · cases h
    · cases h

/-- A word with a quote makes the program refuse the file. -/
theorem lexeme_quote (ms : List Nat → Int) (before after : List (List Nat)) (rs : List (Nat × Lex × Option (List Nat))) (h : LexFile ms 0 before rs)
    (l y f c s d w t k cf : List Nat) (more : List (List Nat)) (h1 : txt "LEXEME" <+: l)
    (h2 : Line 10 l (y :: f :: c :: s :: d :: w :: t :: k :: cf :: more)) (h3 : OneOf wordKinds t) (h4 : 34 ∈ w) :
    lexLoad ms (before ++ l :: after) = .fatal := by
  obtain ⟨st, e1, _⟩ := lexRun_inv h linv_start
  rw [lexLoad, lexRun_append ms before (l :: after) lst0 st e1, lexRun, lexStep, lexLine, if_neg (fun e => e (lexeme_iff.2 h1)), scanN_line h2]
  simp only [List.take_succ_cons]
  rw [if_pos ((kind_iff t).2 h3), if_pos h4]

/-! ## C118: confidences -/

theorem given_same {rs : List (Nat × Lex × Option (List Nat))} {i : Nat} (h1 : ∀ x ∈ rs.take i, x.2.2.isSome = true)
    (h2 : ∀ x ∈ rs.drop i, x.2.2 = none) : given true rs = rs := by
  have all : ∀ qs : List (Nat × Lex × Option (List Nat)), (∀ x ∈ qs, x.2.2.isSome = true) → given true qs = qs := by
    intro qs
    induction qs with
    | nil => intro _; rfl
    | cons x qs ih =>
      intro hq
      obtain ⟨n, x, c⟩ := x
      have hc : c.isSome = true := hq (n, x, c) (by simp)
      rw [given, if_pos rfl, hc, Bool.and_true, ih (fun y hy => hq y (by simp [hy]))]
  have no : ∀ (b : Bool) (qs : List (Nat × Lex × Option (List Nat))), (∀ x ∈ qs, x.2.2 = none) → given b qs = qs := by
    intro b qs
    induction qs generalizing b with
    | nil => intro _; rfl
    | cons x qs ih =>
      intro hq
      obtain ⟨n, x, c⟩ := x
      have hc : c = none := hq (n, x, c) (by simp)
      subst hc
      rw [given, ih _ (fun y hy => hq y (by simp [hy]))]
      split <;> rfl
  have e : rs = rs.take i ++ rs.drop i := (List.take_append_drop i rs).symm
  conv => lhs; rw [e]
  rw [given_append, all _ h1, no _ _ h2]
  exact e.symm

/-- **C118** (partial).  Each word has the confidence of its line, and none if the line has `<NA>`.  *Missing:* words with a confidence
that come after one with `<NA>`, see below. -/
theorem lexeme_confidence_partial (ms : List Nat → Int) (lines : List (List Nat)) (rs : List (Nat × Lex × Option (List Nat))) (h : LexFile ms 0 lines rs)
    (hr : rs ≠ []) (i : Nat) (h1 : ∀ x ∈ rs.take i, x.2.2.isSome = true) (h2 : ∀ x ∈ rs.drop i, x.2.2 = none) :
    ∃ sp, lexLoad ms lines = .ok sp ∧
      Grouped (fun x : Nat × Lex × Option (List Nat) => x.2.1.spkr) (fun s : LSeg => (s.line, s.lex, s.conf)) rs sp := by
  obtain ⟨st, e1, e2⟩ := lexLoad_ok h hr
  refine ⟨st.res, e1, e2.sorted, e2.keys, fun k xs hx => ?_⟩
  have := e2.segs k
  rw [under_self e2.sorted hx, given_same h1 h2] at this
  exact this

theorem given_off (qs : List (Nat × Lex × Option (List Nat))) : ∀ x ∈ given false qs, x.2.2 = none := by
  induction qs with
  | nil => intro x hx; cases hx
  | cons x qs ih =>
    obtain ⟨n, x, c⟩ := x
    rw [given]
    intro y hy
    rcases List.mem_cons.1 hy with e | e
    · rw [e]; rfl
    · exact ih y e

/-- After a line with `<NA>`, all confidences are lost, of whatever speaker. -/
theorem lexeme_confidence_lost (ms : List Nat → Int) (lines : List (List Nat)) (a b : List (Nat × Lex × Option (List Nat))) (n : Nat) (x : Lex)
    (h : LexFile ms 0 lines (a ++ (n, x, none) :: b)) (sp : List (List Nat × List LSeg)) (hl : lexLoad ms lines = .ok sp) (k : List Nat) (xs : List LSeg)
    (hx : (k, xs) ∈ sp) (s : LSeg) (hs : s ∈ xs) (hn : n ≤ s.line) : s.conf = none := by
  obtain ⟨st, e1, e2⟩ := lexLoad_ok h (by simp)
  rw [hl] at e1
  cases e1
  have := e2.segs k
  rw [under_self e2.sorted hx] at this
  have hm : (s.line, s.lex, s.conf) ∈ given true (a ++ (n, x, none) :: b) := by
    have h1 : (s.line, s.lex, s.conf) ∈ xs.map (fun s => (s.line, s.lex, s.conf)) := List.mem_map.2 ⟨s, hs, rfl⟩
    rw [this] at h1
    exact (List.mem_filter.1 h1).1
  rw [given_append] at hm
  have hp := (lexFile_lt h).2
  rcases List.mem_append.1 hm with hm | hm
  · have h1 : (s.line, s.lex) ∈ (given true a).map (fun x => (x.1, x.2.1)) := List.mem_map.2 ⟨_, hm, rfl⟩
    rw [given_spkr] at h1
    obtain ⟨y, hy, he⟩ := List.mem_map.1 h1
    have h2 := (List.pairwise_append.1 hp).2.2 y hy (n, x, none) (by simp)
    have : y.1 = s.line := congrArg Prod.fst he
    simp only at h2
    omega
  · have : ∀ c, given c ((n, x, none) :: b) = (n, x, none) :: given false b := by
      intro c
      rw [given]
      cases c <;> rfl
    rw [this] at hm
    rcases List.mem_cons.1 hm with e | e
    · exact congrArg (fun y => y.2.2) e
    · exact given_off b _ e

/-! ## C119: numbers and identifiers -/

theorem idText_inj {k k' : List Nat} {n m : Nat} (h : idText k n = idText k' m) : k = k' ∧ n = m := by
  unfold idText at h
  have h1 : [40] ++ k ++ ([45] ++ (StmIn.pad3 n).map Char.toNat) = [40] ++ k' ++ ([45] ++ (StmIn.pad3 m).map Char.toNat) := by
    refine (List.append_inj' (t₁ := [41]) (t₂ := [41]) ?_ rfl).1
    simpa using h
  obtain ⟨h2, h3⟩ := StmIn.split_last (StmIn.pad3_nodash n) (StmIn.pad3_nodash m) h1
  exact ⟨by simpa using h2, StmIn.pad3_inj (StmIn.toNat_map_inj h3)⟩

theorem ids_nodup {α : Type} (num : α → Nat) {sp : List (List Nat × List α)} (hs : (sp.map Prod.fst).Pairwise (· < ·))
    (hn : ∀ k xs, (k, xs) ∈ sp → xs.map num = List.range xs.length) :
    (sp.flatMap (fun p => p.2.map (fun s => idText p.1 (num s)))).Nodup := by
  induction sp with
  | nil => simp
  | cons p m ih =>
    obtain ⟨k, xs⟩ := p
    rw [List.map_cons, List.pairwise_cons] at hs
    rw [List.flatMap_cons, List.nodup_append]
    refine ⟨?_, ih hs.2 (fun k xs h => hn k xs (by simp [h])), ?_⟩
    · have e : xs.map (fun s => idText k (num s)) = (xs.map num).map (idText k) := by rw [List.map_map]; rfl
      rw [e, hn k xs (by simp), List.Nodup, List.pairwise_map]
      exact (List.nodup_range (n := xs.length)).imp (fun {a b} hab he => hab (idText_inj he).2)
    · intro a ha b hb he
      obtain ⟨s, hs1, rfl⟩ := List.mem_map.1 ha
      obtain ⟨⟨k2, ys⟩, hq, hq'⟩ := List.mem_flatMap.1 hb
      obtain ⟨t, ht, rfl⟩ := List.mem_map.1 hq'
      have hk : k = k2 := (idText_inj he).1
      have hlt : k < k2 := hs.1 k2 (List.mem_map.2 ⟨(k2, ys), hq, rfl⟩)
      rw [hk] at hlt
      exact List.lt_irrefl _ hlt

/-- **C119**.  With one word per segment: the segments of a speaker are numbered from 0 on, the segments of the file are numbered by their
words, and no two segments have the same identifier. -/
theorem lexeme_numbers (ms : List Nat → Int) (lines : List (List Nat)) (rs : List (Nat × Lex × Option (List Nat))) (h : LexFile ms 0 lines rs)
    (sp : List (List Nat × List LSeg)) (hl : lexLoad ms lines = .ok sp) :
    (∀ k xs, (k, xs) ∈ sp → xs.map (·.num) = List.range xs.length ∧ ∀ s ∈ xs, ∃ c, rs[s.elem]? = some (s.line, s.lex, c)) ∧
      (sp.flatMap (fun p => p.2.map (fun s => idText p.1 s.num))).Nodup := by
  have hr : rs ≠ [] := by
    intro e
    subst e
    rw [lexeme_no_data ms lines h] at hl
    cases hl
  obtain ⟨st, e1, e2⟩ := lexLoad_ok h hr
  rw [hl] at e1
  cases e1
  have hn : ∀ k xs, (k, xs) ∈ st.res → xs.map (·.num) = List.range xs.length := by
    intro k xs hx
    have := e2.nums k
    rw [under_self e2.sorted hx] at this
    exact this
  have hd := ids_nodup (fun s : LSeg => s.num) e2.sorted hn
  refine ⟨fun k xs hx => ⟨hn k xs hx, fun s hs => ?_⟩, hd⟩
  exact e2.elems k s (by rw [under_self e2.sorted hx]; exact hs)

/-- **C119**.  The same for segments of several words. -/
theorem speaker_numbers (ms : List Nat → Int) (lines : List (List Nat)) (evs : List (Nat × Event)) (h : SpkFile ms 0 lines evs)
    (ht : ∀ x ∈ evs, Tellable x) (sp : List (List Nat × List SSeg)) (hl : spkLoad ms lines = .ok sp) :
    (∀ k xs, (k, xs) ∈ sp → xs.map (·.num) = List.range xs.length) ∧ (sp.flatMap (fun p => p.2.map (fun s => idText p.1 s.num))).Nodup := by
  rcases spkLoad_cases h ht with ⟨st, h1, h2, _⟩ | ⟨h1, _⟩
  · rw [hl] at h1
    cases h1
    have hn : ∀ k xs, (k, xs) ∈ st.res → xs.map (·.num) = List.range xs.length := by
      intro k xs hx
      have := h2.nums k
      rw [under_self h2.sorted hx] at this
      exact this
    have hd := ids_nodup (fun s : SSeg => s.num) h2.sorted hn
    exact ⟨hn, hd⟩
  · rw [hl] at h1
    cases h1

/-! ## C120: segments of several words -/

/-- **C120**.  With segments of several words, each `SPEAKER` line of an RTTM file gives a segment with its file, channel and times; its
words are those of the `LEXEME` lines for its speaker up to the speaker's next `SPEAKER` line, in the order of the file, with their
confidences, and in parentheses if they may be missed; words of a speaker before the first segment are dropped.  The speeches are ordered
by the names of the speakers.  The file is refused exactly if in some segment the first word begins too early or the last one ends too
late. -/
theorem speaker_file (ms : List Nat → Int) (lines : List (List Nat)) (evs : List (Nat × Event)) (h : SpkFile ms 0 lines evs)
    (ht : ∀ x ∈ evs, Tellable x) :
    ((∀ k segs, Says k evs segs → ∀ x ∈ segs, Fits x) → ∃ sp, spkLoad ms lines = .ok sp ∧ (sp.map Prod.fst).Pairwise (· < ·) ∧
      (∀ k, k ∈ sp.map Prod.fst ↔ ∃ n t, (n, Event.turn t) ∈ evs ∧ t.spkr = k) ∧
      ∀ k xs, (k, xs) ∈ sp → Says k evs (xs.map (fun s => (s.line, s.turn, s.toks)))) ∧
    ((∃ k segs x, Says k evs segs ∧ x ∈ segs ∧ ¬ Fits x) → spkLoad ms lines = .fatal) := by
  rcases spkLoad_cases h ht with ⟨st, h1, h2, h3⟩ | ⟨h1, k, segs, x, h2, h3, h4⟩
  · refine ⟨fun _ => ⟨st.res, h1, h2.sorted, h2.keys, fun k xs hx => ?_⟩, ?_⟩
    · have := h2.says k
      rw [under_self h2.sorted hx] at this
      exact this
    · rintro ⟨k, segs, x, q1, q2, q3⟩
      exact absurd (h3 k segs q1 x q2) q3
  · exact ⟨fun hf => absurd (hf k segs h2 x h3) h4, fun _ => h1⟩

/-- Each speaker's lines can be read in only one way. -/
theorem says_one (k : List Nat) (evs : List (Nat × Event)) (a b : List (Nat × Turn × List Word)) (ha : Says k evs a) (hb : Says k evs b) : a = b :=
  says_unique ha hb

/-! ## C121: words within their segments -/

theorem within_of_order {t : Turn} {ws : List Word} (h : ws.Pairwise (fun v w => v.start ≤ w.start ∧ v.stop ≤ w.stop))
    (h1 : ∀ w ∈ ws, 0 ≤ w.start ∧ 0 ≤ w.stop) (n : Nat) (hf : Fits (n, t, ws)) : ∀ w ∈ ws, t.start ≤ w.start ∧ w.stop ≤ t.stop := by
  intro w hw
  obtain ⟨a, b, rfl⟩ := List.append_of_mem hw
  constructor
  · cases a with
    | nil =>
      have := hf.1 w rfl
      have := h1 w hw
      simp only at *
      omega
    | cons v a =>
      have e1 := hf.1 v rfl
      have e2 := h1 v (by simp)
      rw [List.cons_append, List.pairwise_cons] at h
      have e3 := h.1 w (by simp)
      simp only at e1
      omega
  · rcases List.eq_nil_or_concat b with rfl | ⟨b', v, rfl⟩
    · have := hf.2 w (by simp)
      have := h1 w hw
      simp only at *
      omega
    · rw [List.concat_eq_append] at hf h1 h
      have e1 := hf.2 v (by
        show (a ++ w :: (b' ++ [v])).getLast? = some v
        rw [show a ++ w :: (b' ++ [v]) = (a ++ w :: b') ++ [v] from by simp, List.getLast?_concat])
      have e2 := h1 v (by simp)
      have e3 : w.stop ≤ v.stop := by
        have h' := (List.pairwise_append.1 h).2.1
        rw [List.pairwise_cons] at h'
        exact (h'.1 v (by simp)).2
      simp only at e1
      omega

/-- **C121** (partial).  The words of a segment are within its time.  *Missing:* words that are not in the order of their times, see
`word_outside`. -/
theorem words_within_partial (ms : List Nat → Int) (lines : List (List Nat)) (evs : List (Nat × Event)) (h : SpkFile ms 0 lines evs)
    (ht : ∀ x ∈ evs, Tellable x) (sp : List (List Nat × List SSeg)) (hl : spkLoad ms lines = .ok sp) (k : List Nat) (xs : List SSeg) (hx : (k, xs) ∈ sp)
    (s : SSeg) (hs : s ∈ xs) (ho : s.toks.Pairwise (fun v w => v.start ≤ w.start ∧ v.stop ≤ w.stop)) (h0 : ∀ w ∈ s.toks, 0 ≤ w.start ∧ 0 ≤ w.stop) :
    ∀ w ∈ s.toks, s.turn.start ≤ w.start ∧ w.stop ≤ s.turn.stop := by
  rcases spkLoad_cases h ht with ⟨st, h1, h2, h3⟩ | ⟨h1, _⟩
  · rw [hl] at h1
    cases h1
    refine within_of_order ho h0 s.line (h3 k _ (h2.says k) _ (List.mem_map.2 ⟨s, ?_, rfl⟩))
    rw [under_self h2.sorted hx]
    exact hs
  · rw [hl] at h1
    cases h1

theorem runs_mem {evs : List (Nat × Event)} {out : List (Nat × Turn × List Word)} (h : Runs evs out) :
    ∀ x ∈ out, (x.1, Event.turn x.2.1) ∈ evs ∧ ∀ w ∈ x.2.2, ∃ y ∈ evs, y.2.word? = some w := by
  induction h with
  | nil => intro x hx; cases hx
  | cons n t ws rest vs out h1 _ ih =>
    intro x hx
    rcases List.mem_cons.1 hx with e | e
    · subst e
      refine ⟨by simp, fun w hw => ?_⟩
      have : some w ∈ vs.map some := List.mem_map.2 ⟨w, hw, rfl⟩
      rw [← h1] at this
      obtain ⟨y, hy, he⟩ := List.mem_map.1 this
      exact ⟨y, by simp [hy], he⟩
    · obtain ⟨e1, e2⟩ := ih x e
      refine ⟨by simp [e1], fun w hw => ?_⟩
      obtain ⟨y, hy, he⟩ := e2 w hw
      exact ⟨y, by simp [hy], he⟩

/-- **C121** (partial).  The words of a segment are from its file and channel.  *Missing:* files in which a speaker appears in several
recordings or channels, see `word_of_other_file`. -/
theorem words_own_file_partial (ms : List Nat → Int) (lines : List (List Nat)) (evs : List (Nat × Event)) (h : SpkFile ms 0 lines evs)
    (ht : ∀ x ∈ evs, Tellable x) (sp : List (List Nat × List SSeg)) (hl : spkLoad ms lines = .ok sp)
    (hone : ∀ n t m f c k w, (n, Event.turn t) ∈ evs → (m, Event.word f c k w) ∈ evs → t.spkr = k → f = t.file ∧ c = t.chan)
    (k : List Nat) (xs : List SSeg) (hx : (k, xs) ∈ sp) (s : SSeg) (hs : s ∈ xs) :
    ∀ w ∈ s.toks, ∃ m, (m, Event.word s.turn.file s.turn.chan k w) ∈ evs := by
  rcases spkLoad_cases h ht with ⟨st, h1, h2, h3⟩ | ⟨h1, _⟩
  · rw [hl] at h1
    cases h1
    obtain ⟨pre, rest, q1, q2, q3⟩ := h2.says k
    rw [under_self h2.sorted hx] at q3
    obtain ⟨r1, r2⟩ := runs_mem q3 (s.line, s.turn, s.toks) (List.mem_map.2 ⟨s, hs, rfl⟩)
    intro w hw
    obtain ⟨⟨m, e⟩, hy, he⟩ := r2 w hw
    have mem : ∀ x ∈ rest, x ∈ evs ∧ x.2.spkr = k := by
      intro x hx
      have : x ∈ evs.filter (fun x => x.2.spkr = k) := by rw [q1]; simp [hx]
      have := List.mem_filter.1 this
      exact ⟨this.1, by simpa using this.2⟩
    obtain ⟨m1, m2⟩ := mem _ hy
    obtain ⟨m3, m4⟩ := mem _ r1
    cases e with
    | turn t => cases he
    | word f c k' v =>
      cases he
      have hk : k' = k := m2
      subst hk
      obtain ⟨e1, e2⟩ := hone _ _ _ _ _ _ _ m3 m1 m4
      rw [← e1, ← e2]
      exact ⟨m, m1⟩
  · rw [hl] at h1
    cases h1

/-! ## C122: chains -/

theorem chain_eq {α : Type} (l : List α) : lexAttach l = l.zip l.tail := by
  induction l with
  | nil => rfl
  | cons x l ih =>
    cases l with
    | nil => rfl
    | cons y l => rw [lexAttach, ih]; rfl

theorem chain_append {α : Type} (l r : List α) (x y : α) (hx : l.getLast? = some x) (hy : r.head? = some y) :
    lexAttach (l ++ r) = lexAttach l ++ (x, y) :: lexAttach r := by
  induction l with
  | nil => cases hx
  | cons a l ih =>
    cases l with
    | nil =>
      cases hx
      cases r with
      | nil => cases hy
      | cons b r => cases hy; rfl
    | cons b l =>
      have := ih (by simpa using hx)
      rw [List.cons_append] at this
      rw [List.cons_append, List.cons_append, lexAttach, lexAttach, this]
      rfl

/-- The link between two segments with tokens. -/
def cross (p : SSeg × SSeg) : List (Word × Word) :=
  match p.1.toks.getLast?, p.2.toks.head? with
  | some x, some y => [(x, y)]
  | _, _ => []

theorem links_perm (l : List SSeg) (h : ∀ s ∈ l, s.toks ≠ []) :
    (l.flatMap (fun s => lexAttach s.toks) ++ (l.zip l.tail).flatMap cross).Perm (lexAttach (l.flatMap (·.toks))) := by
  induction l with
  | nil => exact .refl _
  | cons a l ih =>
    cases l with
    | nil => simp
    | cons b l =>
      have ih := ih (fun s hs => h s (by simp [hs]))
      obtain ⟨x, hx⟩ := Option.ne_none_iff_exists'.1 (mt List.getLast?_eq_none_iff.1 (h a (by simp)))
      obtain ⟨y, ys, hy⟩ := List.exists_cons_of_ne_nil (h b (by simp))
      have hc : cross (a, b) = [(x, y)] := by
        unfold cross
        rw [hx, hy]
        rfl
      have e1 : lexAttach ((a :: b :: l).flatMap (·.toks)) = lexAttach a.toks ++ (x, y) :: lexAttach ((b :: l).flatMap (·.toks)) := by
        rw [List.flatMap_cons]
        exact chain_append _ _ x y hx (by rw [List.flatMap_cons, hy]; rfl)
      have e2 : ((a :: b :: l).zip (a :: b :: l).tail).flatMap cross = (x, y) :: ((b :: l).zip (b :: l).tail).flatMap cross := by
        rw [List.tail_cons, List.zip_cons_cons, List.flatMap_cons, hc]
        rfl
      rw [e1, e2, List.flatMap_cons, List.append_assoc]
      refine List.Perm.append_left _ ?_
      refine List.Perm.trans ?_ (List.Perm.cons _ ih)
      exact List.perm_middle

/-- **C122** (partial).  The words of a speaker form one chain, in the order of the segments and of the words in them: exactly the
neighbours are linked. -/
theorem speaker_chain_partial (segs : List SSeg) : (wordLinks segs).Perm ((segs.flatMap (·.toks)).zip (segs.flatMap (·.toks)).tail) := by
  rw [← chain_eq]
  have e1 : segs.flatMap (·.toks) = (segs.filter (fun s => !s.toks.isEmpty)).flatMap (·.toks) := by
    induction segs with
    | nil => rfl
    | cons s segs ih =>
      rw [List.flatMap_cons, List.filter_cons, ih]
      split
      · rfl
      · rename_i hs
        simp only [Bool.not_eq_true', Bool.not_eq_false, List.isEmpty_iff] at hs
        rw [hs]; rfl
  have e2 : segs.flatMap (fun s => lexAttach s.toks) = (segs.filter (fun s => !s.toks.isEmpty)).flatMap (fun s => lexAttach s.toks) := by
    clear e1
    induction segs with
    | nil => rfl
    | cons s segs ih =>
      rw [List.flatMap_cons, List.filter_cons, ih]
      split
      · rfl
      · rename_i hs
        simp only [Bool.not_eq_true', Bool.not_eq_false, List.isEmpty_iff] at hs
        rw [hs]; rfl
  unfold wordLinks
  rw [attach_none, e1, e2]
  exact links_perm _ (fun s hs => by simpa using (List.mem_filter.1 hs).2)

/-- **C122** (partial).  With one word per segment, each segment is attached to the one before it. -/
theorem lexeme_chain_partial {α : Type} (segs : List α) : lexAttach segs = segs.zip segs.tail := chain_eq segs

/-- But a segment without tokens (the word `@`) interrupts the chain: its neighbours are not attached to each other. -/
theorem lexeme_chain_broken {α : Type} (a x b : α) (l : List α) (full : α → Bool) (ha : full a = true) (hx : full x = false) (hb : full b = true) :
    (lexAttach (a :: x :: b :: l)).filter (fun p => full p.1 && full p.2) = (lexAttach (b :: l)).filter (fun p => full p.1 && full p.2) ∧
      (a, b) ∈ attach full none (a :: x :: b :: l) := by
  constructor
  · rw [lexAttach, lexAttach, List.filter_cons, List.filter_cons]
    simp [hx]
  · simp [attach, ha, hx, hb]

/-! ## Cases that meet the hypotheses -/

/-- Whole numbers. -/
def exMs (s : List Nat) : Int := s.foldl (fun (a : Int) (c : Nat) => 10 * a + (Int.ofNat c - 48)) 0

theorem line_of {n : Nat} {l : List Nat} {fs : List (List Nat)} (h : wordsFrom [] l = fs) (h0 : 0 ∉ l) (hl : ∀ f ∈ fs.take n, f.length < 255) :
    Line n l fs := by
  refine ⟨?_, h0, hl⟩
  have := Verif.CtmIn.fields_words l [] (by simp)
  rw [List.nil_append, h] at this
  exact this

def exLex1 : List Nat := txt "LEXEME f 1 10 5 uh FP bob 0.5 <NA>"
def exLex2 : List Nat := txt "LEXEME f 1 20 5 two lex amy <NA>"
def exLex3 : List Nat := txt "LEXEME f 1 30 5 three lex bob 0.9"
def exTurn : List Nat := txt "SPEAKER f 1 5 50 <NA> <NA> bob <NA>"

theorem exLex1_says : LexSays exMs exLex1 (some (⟨txt "f", txt "1", txt "bob", 10, 15, txt "uh", true⟩, some (txt "0.5"))) :=
  LexSays.word (ms := exMs) exLex1 (txt "LEXEME") (txt "f") (txt "1") (txt "10") (txt "5") (txt "uh") (txt "FP") (txt "bob") (txt "0.5") [txt "<NA>"] true
    (some (txt "0.5")) (by decide) (line_of (by decide +kernel) (by decide) (by decide)) ((kind_iff _).1 (by decide))
    ⟨fun _ => (opt_iff _).1 (by decide), fun _ => rfl⟩ (.inr ⟨by decide, rfl⟩) (by decide)

theorem exLex2_says : LexSays exMs exLex2 (some (⟨txt "f", txt "1", txt "amy", 20, 25, txt "two", false⟩, none)) :=
  LexSays.word (ms := exMs) exLex2 (txt "LEXEME") (txt "f") (txt "1") (txt "20") (txt "5") (txt "two") (txt "lex") (txt "amy") (txt "<NA>") [] false none
    (by decide) (line_of (by decide +kernel) (by decide) (by decide)) ((kind_iff _).1 (by decide))
    ⟨fun h => by (cases h), fun h => absurd ((opt_iff _).2 h) (by decide)⟩ (.inl ⟨rfl, rfl⟩) (by decide)

theorem exLex3_says : LexSays exMs exLex3 (some (⟨txt "f", txt "1", txt "bob", 30, 35, txt "three", false⟩, some (txt "0.9"))) :=
  LexSays.word (ms := exMs) exLex3 (txt "LEXEME") (txt "f") (txt "1") (txt "30") (txt "5") (txt "three") (txt "lex") (txt "bob") (txt "0.9") [] false (some (txt "0.9"))
    (by decide) (line_of (by decide +kernel) (by decide) (by decide)) ((kind_iff _).1 (by decide))
    ⟨fun h => by (cases h), fun h => absurd ((opt_iff _).2 h) (by decide)⟩ (.inr ⟨by decide, rfl⟩) (by decide)

theorem exTurn_lex : LexSays exMs exTurn none := LexSays.other _ (by decide)

/-- The hypotheses of C117 to C119 for a file of two speakers. -/
example : LexFile exMs 0 [exTurn, exLex1, exLex3, exLex2]
    [(1, ⟨txt "f", txt "1", txt "bob", 10, 15, txt "uh", true⟩, some (txt "0.5")), (2, ⟨txt "f", txt "1", txt "bob", 30, 35, txt "three", false⟩, some (txt "0.9")),
      (3, ⟨txt "f", txt "1", txt "amy", 20, 25, txt "two", false⟩, none)] :=
  .skip 0 _ _ _ exTurn_lex (.word 1 _ _ _ _ _ exLex1_says (.word 2 _ _ _ _ _ exLex3_says (.word 3 _ _ _ _ _ exLex2_says (.nil 4))))

/-- The confidence 0.9 is lost if the line without confidence, of another speaker, comes before. -/
theorem confidence_lost_case : (match lexLoad exMs [exLex1, exLex2, exLex3] with
    | .ok sp => sp.map (fun p => p.2.map (fun s => (s.lex.word, s.conf)))
    | _ => []) = [[(txt "two", none)], [(txt "uh", some (txt "0.5")), (txt "three", none)]] := by decide +kernel

theorem exTurn_says : SpkSays exMs exTurn (some (.turn ⟨txt "f", txt "1", txt "bob", 5, 55⟩)) :=
  SpkSays.turn (ms := exMs) exTurn (txt "SPEAKER") (txt "f") (txt "1") (txt "5") (txt "50") (txt "<NA>") (txt "<NA>") (txt "bob") [txt "<NA>"] (by decide)
    (line_of (by decide +kernel) (by decide) (by decide))

theorem exLex1_spk : SpkSays exMs exLex1 (some (.word (txt "f") (txt "1") (txt "bob") ⟨10, 15, txt "(uh)", some (txt "0.5")⟩)) :=
  SpkSays.word (ms := exMs) exLex1 (txt "LEXEME") (txt "f") (txt "1") (txt "10") (txt "5") (txt "uh") (txt "FP") (txt "bob") (txt "0.5") [txt "<NA>"]
    (some (txt "0.5")) (txt "(uh)") (by decide) (line_of (by decide +kernel) (by decide) (by decide)) ((kind_iff _).1 (by decide)) (.inr ⟨by decide, rfl⟩)
    (.inl ⟨(opt_iff _).1 (by decide), by decide⟩)

theorem exLex2_spk : SpkSays exMs exLex2 (some (.word (txt "f") (txt "1") (txt "amy") ⟨20, 25, txt "two", none⟩)) :=
  SpkSays.word (ms := exMs) exLex2 (txt "LEXEME") (txt "f") (txt "1") (txt "20") (txt "5") (txt "two") (txt "lex") (txt "amy") (txt "<NA>") [] none (txt "two")
    (by decide) (line_of (by decide +kernel) (by decide) (by decide)) ((kind_iff _).1 (by decide)) (.inl ⟨rfl, rfl⟩)
    (.inr ⟨fun h => absurd ((opt_iff _).2 h) (by decide), rfl⟩)

theorem exLex3_spk : SpkSays exMs exLex3 (some (.word (txt "f") (txt "1") (txt "bob") ⟨30, 35, txt "three", some (txt "0.9")⟩)) :=
  SpkSays.word (ms := exMs) exLex3 (txt "LEXEME") (txt "f") (txt "1") (txt "30") (txt "5") (txt "three") (txt "lex") (txt "bob") (txt "0.9") [] (some (txt "0.9"))
    (txt "three") (by decide) (line_of (by decide +kernel) (by decide) (by decide)) ((kind_iff _).1 (by decide)) (.inr ⟨by decide, rfl⟩)
    (.inr ⟨fun h => absurd ((opt_iff _).2 h) (by decide), rfl⟩)

/-- What the file says: a turn, two words of its speaker and one of a speaker without a turn. -/
def exEvs : List (Nat × Event) :=
  [(0, .turn ⟨txt "f", txt "1", txt "bob", 5, 55⟩), (1, .word (txt "f") (txt "1") (txt "bob") ⟨10, 15, txt "(uh)", some (txt "0.5")⟩),
    (2, .word (txt "f") (txt "1") (txt "amy") ⟨20, 25, txt "two", none⟩), (3, .word (txt "f") (txt "1") (txt "bob") ⟨30, 35, txt "three", some (txt "0.9")⟩)]

theorem exEvs_file : SpkFile exMs 0 [exTurn, exLex1, exLex2, exLex3] exEvs :=
  .event 0 _ _ _ _ exTurn_says (.event 1 _ _ _ _ exLex1_spk (.event 2 _ _ _ _ exLex2_spk (.event 3 _ _ _ _ exLex3_spk (.nil 4))))

example : ∀ x ∈ exEvs, Tellable x := by unfold Tellable; decide +kernel

example : Says (txt "bob") exEvs [(0, ⟨txt "f", txt "1", txt "bob", 5, 55⟩, [⟨10, 15, txt "(uh)", some (txt "0.5")⟩, ⟨30, 35, txt "three", some (txt "0.9")⟩])] :=
  ⟨[], [(0, .turn ⟨txt "f", txt "1", txt "bob", 5, 55⟩), (1, .word (txt "f") (txt "1") (txt "bob") ⟨10, 15, txt "(uh)", some (txt "0.5")⟩),
    (3, .word (txt "f") (txt "1") (txt "bob") ⟨30, 35, txt "three", some (txt "0.9")⟩)], by decide +kernel, by simp,
    Runs.cons 0 _ [(1, .word (txt "f") (txt "1") (txt "bob") ⟨10, 15, txt "(uh)", some (txt "0.5")⟩),
      (3, .word (txt "f") (txt "1") (txt "bob") ⟨30, 35, txt "three", some (txt "0.9")⟩)] [] _ [] rfl .nil⟩

/-- Amy's word is dropped. -/
example : spkLoad exMs [exTurn, exLex1, exLex2, exLex3] = .ok [(txt "bob", [⟨⟨txt "f", txt "1", txt "bob", 5, 55⟩, 0, 0,
    [⟨10, 15, txt "(uh)", some (txt "0.5")⟩, ⟨30, 35, txt "three", some (txt "0.9")⟩]⟩])] := by decide +kernel

/-! ## Where the claims fail -/

/-- A word of the recording g is put into a segment of the recording f. -/
theorem word_of_other_file : spkLoad exMs [exTurn, txt "LEXEME g 2 10 5 uh lex bob <NA>"] =
    .ok [(txt "bob", [⟨⟨txt "f", txt "1", txt "bob", 5, 55⟩, 0, 0, [⟨10, 15, txt "uh", none⟩]⟩])] := by decide +kernel

/-- A word between the first and the last one may be anywhere in time. -/
theorem word_outside : spkLoad exMs [exTurn, txt "LEXEME f 1 10 5 a lex bob <NA>", txt "LEXEME f 1 90 5 b lex bob <NA>", txt "LEXEME f 1 20 5 c lex bob <NA>"] =
    .ok [(txt "bob", [⟨⟨txt "f", txt "1", txt "bob", 5, 55⟩, 0, 0, [⟨10, 15, txt "a", none⟩, ⟨90, 95, txt "b", none⟩, ⟨20, 25, txt "c", none⟩]⟩])] := by
  decide +kernel

/-- Two segments of a speaker before their words: all words go to the second one, and the file is refused. -/
theorem turns_before_words : spkLoad exMs [exTurn, txt "SPEAKER f 1 60 20 <NA> <NA> bob <NA>", txt "LEXEME f 1 10 5 a lex bob <NA>",
    txt "LEXEME f 1 65 5 b lex bob <NA>"] = .fatal := by decide +kernel

/-- A line that is too short uses buffers that were not filled, or were filled by an earlier line. -/
theorem short_line : lexLoad exMs [txt "LEXEME f 1 10 5 a lex bob"] = .undef ∧ lexLoad exMs [txt "LEXEME f 1 10 5 a"] = .undef ∧
    spkLoad exMs [txt "SPEAKER f 1 60 20 <NA> <NA>"] = .undef := by decide +kernel

/-- A file without data is refused in the one mode and accepted in the other. -/
theorem no_data_modes : lexLoad exMs [] = .fatal ∧ spkLoad exMs [] = .ok [] := by decide

end Verif.RttmIn
