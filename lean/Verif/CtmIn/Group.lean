import Verif.CtmIn.State
/-!
# The words of a group
-/
set_option autoImplicit false
namespace Verif.CtmIn

theorem segFor_stop {toks : List Tok} {done : List (List Entry)} {cur : List Entry} {s : Seg} {t : Nat}
    (h : SegFor toks (.group (done ++ [cur])) (closeSeg s t)) {e : Entry} (he : e ∈ cur) : e.word.stop ≤ s.stop := by
  obtain ⟨_, h2, _⟩ := h
  exact h2 cur (by simp) e he

theorem In.tstop {st : St} {items : List Item} {E0 : List Nat} {done : List (List Entry)} {cur : List Entry} {init : List Seg} {s : Seg}
    {t : Nat} (h : In st items E0 done cur init s t) {k : Tok} (hk : st.net.toks[t]? = some k) : k.word.stop ≤ s.stop := by
  have := h.tword k hk
  obtain ⟨e, he, hw⟩ := Option.map_eq_some_iff.1 this
  rw [← hw]
  exact segFor_stop h.seg (List.mem_of_getLast? he)

/-- The first word of a group. -/
theorem begin_step {st : St} {items : List Item} (h : Between st items) (hb : st.altBegin = true) (hi : st.inside = true) (ha : st.alt = false)
    (e : Entry) :
    ∃ st' E0 init s t, onWord st e.file e.chan e.word = .ok st' ∧ In st' items E0 [] [e] init s t ∧ st'.alt = false := by
  rw [onWord, hb]
  simp only [if_true]
  rw [onBegin]
  cases h with
  | start h1 h2 h3 h4 h5 h6 h7 h8 =>
    simp only [h2, if_true]
    refine ⟨_, [], [], ⟨e.file, e.chan, e.word.start, e.word.stop, [0], []⟩, 0, rfl, ?_, ha⟩
    have hp : Pushed st.net (openSeg st.net e.file e.chan e.word) e.word st.net.segs.length [] :=
      pushed_linkAll h8 (m := openSeg st.net e.file e.chan e.word) rfl rfl rfl []
    have hpos : Pos st.net items [] := ⟨h8, by simp, by simp, fun _ => h1⟩
    have htl : st.net.toks.length = 0 := by rw [h6]; rfl
    have hto : (openSeg st.net e.file e.chan e.word).toks = [] ++ [⟨e.word, st.net.segs.length⟩] := by rw [hp.toks, h6]
    refine ⟨?_, ?_, ?_, rfl, h3, rfl, hi, hpos.keep hp (by simp), .inl ⟨h5, by simp, h4⟩, by simp, ?_, ?_, ?_, ?_, ?_, ?_, ?_, ?_, by simp, fun u hu => hp.used hu⟩
    · simp [h7]
    · simp [openSeg, h7, htl]
    · simp [htl]
    · show 0 < (openSeg st.net e.file e.chan e.word).toks.length
      rw [hto]; simp
    · intro k hk
      change (openSeg st.net e.file e.chan e.word).toks[0]? = some k at hk
      rw [hto] at hk
      simp at hk
      rw [← hk]; rfl
    · intro ws
      have := hpos.push hp ws
      rw [htl] at this
      exact this
    · intro ws; simp
    · intro u hu
      change u < (openSeg st.net e.file e.chan e.word).toks.length at hu
      rw [hto] at hu
      have hu0 : u = 0 := by simpa using hu
      subst hu0
      have := hp.ends_new h8 (by simp)
      rw [htl] at this
      simp [this]
    · show Done (openSeg st.net e.file e.chan e.word).toks _ _
      rw [h1]
      exact ⟨.nil, by simp⟩
    · show SegFor (openSeg st.net e.file e.chan e.word).toks _ _
      rw [hto]
      exact segFor_open [] e _
    · show Valid (openSeg st.net e.file e.chan e.word).toks _
      rw [hto]
      exact valid_one [] _ _ _ _ _
  | word t _ _ _ h1 h2 h3 h4 h5 h6 h7 =>
    simp only [h1, h2, h3, Bool.false_eq_true, if_false]
    refine ⟨_, [t], st.net.segs, ⟨e.file, e.chan, e.word.start, e.word.stop, [st.net.toks.length], []⟩, st.net.toks.length, rfl, ?_, ha⟩
    have hp : Pushed st.net (link (openSeg st.net e.file e.chan e.word) t st.net.toks.length) e.word st.net.segs.length [t] :=
      pushed_linkAll h5.ok (m := openSeg st.net e.file e.chan e.word) rfl rfl rfl [t]
    have hto := hp.toks
    refine ⟨rfl, rfl, rfl, rfl, rfl, rfl, hi, h5.keep hp h5.lt, .inl ⟨h4, by simp, by simp⟩, by simp, ?_, ?_, ?_, ?_, ?_, ?_, ?_, ?_, by simp, fun u hu => hp.used hu⟩
    · show _ < (link (openSeg st.net e.file e.chan e.word) t st.net.toks.length).toks.length
      rw [hto]; simp
    · intro k hk
      change (link (openSeg st.net e.file e.chan e.word) t st.net.toks.length).toks[_]? = some k at hk
      rw [hp.get_new] at hk
      rw [← Option.some.inj hk]; rfl
    · exact h5.push hp
    · intro ws; simp
    · intro u hu
      change u < (link (openSeg st.net e.file e.chan e.word) t st.net.toks.length).toks.length at hu
      rw [hto, List.length_append, List.length_singleton] at hu
      show (link (openSeg st.net e.file e.chan e.word) t st.net.toks.length).next u = [] ↔ _
      by_cases hut : u = st.net.toks.length
      · subst hut
        simp only [or_true, iff_true]
        exact hp.ends_new h5.ok h5.lt
      · rw [hp.ends, h6 u (by omega)]
        simp [hut]
    · show Done (link (openSeg st.net e.file e.chan e.word) t st.net.toks.length).toks _ _
      rw [hto]
      exact h7.mono _
    · show SegFor (link (openSeg st.net e.file e.chan e.word) t st.net.toks.length).toks _ _
      rw [hto]
      exact segFor_open _ e _
    · show Valid (link (openSeg st.net e.file e.chan e.word) t st.net.toks.length).toks _
      rw [hto]
      exact valid_one _ _ _ _ _ _
  | group before alts init s t h0 h1 h2 h3 h4 h5 h6 h7 h8 h9 h10 h11 =>
    simp only [h1, h2, h3, h5, Bool.false_eq_true, if_false, if_true, Option.getD_some]
    have htl : t < st.net.toks.length := h7.lt t (by simp)
    obtain ⟨k, hk⟩ : ∃ k, st.net.toks[t]? = some k := ⟨_, List.getElem?_eq_getElem htl⟩
    have hsegs : (openSeg st.net e.file e.chan e.word).segs =
        init ++ s :: [⟨e.file, e.chan, e.word.start, e.word.stop, [st.net.toks.length], []⟩] := by
      show st.net.segs ++ _ = _
      rw [h4]
      simp
    have hk' : (openSeg st.net e.file e.chan e.word).toks[t]? = some k := by
      show (st.net.toks ++ _)[t]? = _
      rw [List.getElem?_append_left htl, hk]
    rw [addLastAt_ok hsegs hk' (h6 k hk)]
    simp only
    rw [lastsOf_mid rfl]
    have hp := pushed_linkAll h7.ok (m := { openSeg st.net e.file e.chan e.word with
      segs := init ++ closeSeg s t :: [⟨e.file, e.chan, e.word.start, e.word.stop, [st.net.toks.length], []⟩] })
      rfl rfl rfl (s.lasts ++ [t]) (w := e.word) (g := st.net.segs.length)
    have hto := hp.toks
    have hsg := (linkAll_toks { openSeg st.net e.file e.chan e.word with
      segs := init ++ closeSeg s t :: [⟨e.file, e.chan, e.word.start, e.word.stop, [st.net.toks.length], []⟩] } (s.lasts ++ [t])
      st.net.toks.length).2
    refine ⟨_, s.lasts ++ [t], init ++ [closeSeg s t], ⟨e.file, e.chan, e.word.start, e.word.stop, [st.net.toks.length], []⟩,
      st.net.toks.length, rfl, ?_, ha⟩
    show In { st with net := (linkAll { openSeg st.net e.file e.chan e.word with
      segs := init ++ closeSeg s t :: [⟨e.file, e.chan, e.word.start, e.word.stop, [st.net.toks.length], []⟩] } (s.lasts ++ [t])
      st.net.toks.length), altEnd := false, isFirst := false, precAltTok := some st.net.toks.length, precAltSeg := some init.length, altSeg := some st.net.segs.length, altBegin := false } _ _ _ _ _ _ _
    generalize linkAll { openSeg st.net e.file e.chan e.word with
      segs := init ++ closeSeg s t :: [⟨e.file, e.chan, e.word.start, e.word.stop, [st.net.toks.length], []⟩] } (s.lasts ++ [t])
      st.net.toks.length = m at hp hto hsg ⊢
    refine ⟨?_, ?_, rfl, rfl, rfl, rfl, hi, h7.keep hp h7.lt, .inr ⟨init.length, closeSeg s t, rfl, ?_, rfl⟩, by simp, ?_, ?_, ?_, ?_, ?_, ?_, ?_, ?_, by simp, fun u hu => hp.used hu⟩
    · simp [h4]
    · show m.segs = _
      rw [hsg]
      simp
    · simp
    · show _ < m.toks.length
      rw [hto]; simp
    · intro k hk
      change m.toks[_]? = some k at hk
      rw [hp.get_new] at hk
      rw [← Option.some.inj hk]; rfl
    · exact h7.push hp
    · intro ws; simp
    · intro u hu
      change u < m.toks.length at hu
      rw [hto, List.length_append, List.length_singleton] at hu
      show m.next u = [] ↔ _
      by_cases hut : u = st.net.toks.length
      · subst hut
        simp only [or_true, iff_true]
        exact hp.ends_new h7.ok h7.lt
      · rw [hp.ends, h8 u (by omega)]
        constructor
        · rintro ⟨a, b⟩; exact absurd a b
        · rintro (a | a)
          · cases a
          · exact absurd a hut
    · show Done m.toks _ _
      rw [hto, h0]
      exact (h9.snoc h10 h11).mono _
    · show SegFor m.toks _ _
      rw [hto]
      exact segFor_open _ e _
    · show Valid m.toks _
      rw [hto]
      exact valid_one _ _ _ _ _ _

/-- A further word of an alternative. -/
theorem inside_step {st : St} {items : List Item} {E0 : List Nat} {done : List (List Entry)} {cur : List Entry} {init : List Seg} {s : Seg}
    {t : Nat} (h : In st items E0 done cur init s t) (ha : st.alt = false) (e : Entry) :
    ∃ st' s' t', onWord st e.file e.chan e.word = .ok st' ∧ In st' items E0 done (cur ++ [e]) init s' t' ∧ st'.alt = false ∧
      s'.start = s.start := by
  rw [onWord, h.altBegin, ha, h.inside]
  simp only [Bool.false_eq_true, if_false, if_true]
  rw [onInside]
  have hg : st.net.segs[init.length]? = some s := by rw [h.segs]; exact get_mid ..
  simp only [h.altSeg, h.precAltTok, hg]
  have hsegs : (setSeg (addTok st.net e.word init.length) init.length (stretch s e.word)).segs = init ++ [stretch s e.word] := by
    show st.net.segs.set _ _ = _
    rw [h.segs, set_mid]
  have hlasts : (stretch s e.word).lasts = s.lasts := by unfold stretch; split <;> rfl
  have hfirsts : (stretch s e.word).firsts = s.firsts := by unfold stretch; split <;> rfl
  have hstart : (stretch s e.word).start = s.start := by unfold stretch; split <;> rfl
  have hfile : (stretch s e.word).file = s.file := by unfold stretch; split <;> rfl
  have hchan : (stretch s e.word).chan = s.chan := by unfold stretch; split <;> rfl
  have hstop : e.word.stop ≤ (stretch s e.word).stop ∧ s.stop ≤ (stretch s e.word).stop ∧
      ((stretch s e.word).stop = e.word.stop ∨ (stretch s e.word).stop = s.stop) := by
    unfold stretch
    split
    · exact ⟨Int.le_refl _, by simp; omega, .inl rfl⟩
    · exact ⟨by omega, Int.le_refl _, .inr rfl⟩
  have hp : Pushed st.net (link (setSeg (addTok st.net e.word init.length) init.length (stretch s e.word)) t st.net.toks.length) e.word
      init.length [t] :=
    pushed_linkAll h.pos.ok (m := setSeg (addTok st.net e.word init.length) init.length (stretch s e.word)) rfl rfl rfl [t]
  have hto := hp.toks
  have hps : ∀ p ∈ [t], p < st.net.toks.length := by simpa using h.tlt
  refine ⟨_, stretch s e.word, st.net.toks.length, rfl, ?_, ha, hstart⟩
  refine ⟨rfl, hsegs, rfl, h.isFirst, h.altEnd, h.altBegin, h.inside, h.pos.keep hp hps, h.preds, by simp, ?_, ?_, ?_, ?_, ?_, ?_, ?_, ?_, ?_,
    fun u hu => hp.used_old (h.used u hu)⟩
  · show _ < (link (setSeg (addTok st.net e.word init.length) init.length (stretch s e.word)) t st.net.toks.length).toks.length
    rw [hto]; simp
  · intro k hk
    change (link (setSeg (addTok st.net e.word init.length) init.length (stretch s e.word)) t st.net.toks.length).toks[_]? = some k at hk
    rw [hp.get_new] at hk
    rw [← Option.some.inj hk]
    simp
  · intro ws
    show Lang (link (setSeg (addTok st.net e.word init.length) init.length (stretch s e.word)) t st.net.toks.length) _ _ ↔ _
    rw [hp.lang_new h.pos.ok hps]
    constructor
    · rintro (⟨a, _⟩ | ⟨p, hpm, ws', hl, e1⟩)
      · cases a
      · rw [List.mem_singleton.1 hpm] at hl
        obtain ⟨r, hr, e2⟩ := (h.langT ws').1 hl
        exact ⟨r, hr, by rw [e1, e2]; simp⟩
    · rintro ⟨r, hr, e1⟩
      exact .inr ⟨t, by simp, r ++ cur.map Entry.word, (h.langT _).2 ⟨r, hr, rfl⟩, by rw [e1]; simp⟩
  · intro ws
    rw [← h.langL ws, hlasts]
    have hv : ∀ l ∈ s.lasts, l < st.net.toks.length := fun l hl => h.valid l (by simp [closeSeg, hl])
    constructor
    · rintro ⟨l, hl, hx⟩
      exact ⟨l, hl, (hp.lang_old h.pos.ok (hv l hl) ws).1 hx⟩
    · rintro ⟨l, hl, hx⟩
      exact ⟨l, hl, (hp.lang_old h.pos.ok (hv l hl) ws).2 hx⟩
  · intro u hu
    change u < (link (setSeg (addTok st.net e.word init.length) init.length (stretch s e.word)) t st.net.toks.length).toks.length at hu
    rw [hto, List.length_append, List.length_singleton] at hu
    show (link (setSeg (addTok st.net e.word init.length) init.length (stretch s e.word)) t st.net.toks.length).next u = [] ↔ _
    rw [hlasts]
    by_cases hut : u = st.net.toks.length
    · subst hut
      simp only [or_true, iff_true]
      exact hp.ends_new h.pos.ok hps
    · rw [hp.ends, h.ends u (by omega)]
      simp only [hut, or_false, List.mem_singleton]
      constructor
      · rintro ⟨a | a, b⟩
        · exact a
        · exact absurd a b
      · intro a
        exact ⟨.inl a, fun hb => h.fresh (hb ▸ a)⟩
  · show Done (link (setSeg (addTok st.net e.word init.length) init.length (stretch s e.word)) t st.net.toks.length).toks _ _
    rw [hto]
    exact h.before.mono _
  · show SegFor (link (setSeg (addTok st.net e.word init.length) init.length (stretch s e.word)) t st.net.toks.length).toks _ _
    rw [hto]
    obtain ⟨⟨e0, es0, rest, h1, h2, h3, h4⟩, h5, ⟨alt, h6, x, h7, h8⟩, h9, h10⟩ := h.seg
    have hv : Valid st.net.toks (closeSeg s t) := h.valid
    refine ⟨?_, ?_, ?_, ?_, ?_⟩
    · cases done with
      | nil =>
        simp only [List.nil_append, List.cons.injEq] at h1
        refine ⟨e0, es0 ++ [e], [], by rw [h1.1]; rfl, ?_, ?_, ?_⟩
        · exact hfile.trans h2
        · exact hchan.trans h3
        · exact hstart.trans h4
      | cons d ds =>
        simp only [List.cons_append, List.cons.injEq] at h1
        refine ⟨e0, es0, ds ++ [cur ++ [e]], by rw [h1.1]; rfl, ?_, ?_, ?_⟩
        · exact hfile.trans h2
        · exact hchan.trans h3
        · exact hstart.trans h4
    · intro alt' ha' x' hx'
      show x'.word.stop ≤ (stretch s e.word).stop
      rcases List.mem_append.1 ha' with ha' | ha'
      · have : x'.word.stop ≤ s.stop := h5 alt' (List.mem_append_left _ ha') x' hx'
        omega
      · rw [List.mem_singleton.1 ha'] at hx'
        rcases List.mem_append.1 hx' with hx' | hx'
        · have : x'.word.stop ≤ s.stop := h5 cur (by simp) x' hx'
          omega
        · rw [List.mem_singleton.1 hx']
          exact hstop.1
    · rcases hstop.2.2 with hs | hs
      · exact ⟨cur ++ [e], by simp, e, by simp, hs.symm⟩
      · rcases List.mem_append.1 h6 with h6 | h6
        · exact ⟨alt, by simp [h6], x, h7, by rw [h8]; exact hs.symm⟩
        · rw [List.mem_singleton.1 h6] at h7
          exact ⟨cur ++ [e], by simp, x, by simp [h7], by rw [h8]; exact hs.symm⟩
    · show wordsAt _ (stretch s e.word).firsts = _
      rw [hfirsts, wordsAt_mono _ (fun i hi => hv i (by simp [closeSeg, hi]))]
      have h9' : wordsAt st.net.toks s.firsts = _ := h9
      rw [h9', List.map_append, List.map_append]
      obtain ⟨c, cs, hc⟩ := List.exists_cons_of_ne_nil h.curNe
      rw [hc]
      rfl
    · show wordsAt _ ((stretch s e.word).lasts ++ [_]) = _
      have h10' : wordsAt st.net.toks (s.lasts ++ [t]) = _ := h10
      rw [wordsAt_append, List.map_append] at h10'
      have h11 := (List.append_inj' h10' rfl).1
      rw [hlasts, wordsAt_append, wordsAt_new, wordsAt_mono _ (fun i hi => hv i (by simp [closeSeg, hi])), h11, List.map_append]
      simp
  · show Valid (link (setSeg (addTok st.net e.word init.length) init.length (stretch s e.word)) t st.net.toks.length).toks _
    rw [hto]
    intro i hi
    rw [List.length_append, List.length_singleton]
    simp only [closeSeg, hlasts, hfirsts, List.mem_append, List.mem_singleton] at hi
    rcases hi with hi | hi | hi
    · have := h.valid i (by simp [closeSeg, hi]); omega
    · have := h.valid i (by simp [closeSeg, hi]); omega
    · omega
  · rw [hlasts]
    intro hm
    have := h.valid _ (show st.net.toks.length ∈ (closeSeg s t).firsts ++ (closeSeg s t).lasts by simp [closeSeg, hm])
    omega

theorem stretch_first {s : Seg} {w : Word} (t : Nat) (htime : w.start = -1 ∨ s.start ≤ w.start) :
    ∃ s1, addFirst (stretch s w) t w = .ok s1 ∧ s1.lasts = s.lasts ∧ s1.firsts = s.firsts ++ [t] ∧ s1.start = s.start ∧ s1.file = s.file ∧
      s1.chan = s.chan ∧ w.stop ≤ s1.stop ∧ s.stop ≤ s1.stop ∧ (s1.stop = w.stop ∨ s1.stop = s.stop) := by
  unfold stretch
  split
  · refine ⟨{ s with stop := w.stop, firsts := s.firsts ++ [t] }, ?_, rfl, rfl, rfl, rfl, rfl, Int.le_refl _, ?_, .inl rfl⟩
    · rw [addFirst, if_neg (by show ¬ (w.start ≠ -1 ∧ w.start < s.start); omega)]
    show s.stop ≤ w.stop
    omega
  · refine ⟨{ s with firsts := s.firsts ++ [t] }, ?_, rfl, rfl, rfl, rfl, rfl, ?_, Int.le_refl _, .inr rfl⟩
    · rw [addFirst, if_neg (by omega)]
    show w.stop ≤ s.stop
    omega

theorem altLinks_eq {st : St} {n : Net} {init : List Seg} {s1 : Seg} {E0 : List Nat} (hsegs : n.segs = init ++ [s1])
    (h : (st.precAltSeg = none ∧ E0.length ≤ 1 ∧ st.precTok = E0.head?) ∨
      ∃ (b : Nat) (sb : Seg), st.precAltSeg = some b ∧ init[b]? = some sb ∧ sb.lasts = E0) (t : Nat) : altLinks st n t = linkAll n E0 t := by
  unfold altLinks
  rcases h with ⟨p1, p2, p3⟩ | ⟨b, sb, p1, p2, p3⟩
  · rw [p1, p3]
    match E0, p2 with
    | [], _ => rfl
    | [x], _ => rfl
  · rw [p1]
    have : lastsOf n b = E0 := by
      rw [lastsOf, hsegs, List.getElem?_append_left (List.getElem?_eq_some_iff.1 p2).1, p2]
      exact p3
    show linkAll n (lastsOf n b) t = _
    rw [this]

/-- The first word of a further alternative. -/
theorem alt_step {st : St} {items : List Item} {E0 : List Nat} {done : List (List Entry)} {cur : List Entry} {init : List Seg} {s : Seg}
    {t : Nat} (h : In st items E0 done cur init s t) (ha : st.alt = true) (e : Entry) (htime : e.word.start = -1 ∨ s.start ≤ e.word.start) :
    ∃ st' s' t', onWord st e.file e.chan e.word = .ok st' ∧ In st' items E0 (done ++ [cur]) [e] init s' t' ∧ st'.alt = false ∧
      s'.start = s.start := by
  rw [onWord, h.altBegin, ha]
  simp only [Bool.false_eq_true, if_false, if_true]
  rw [onAlt]
  have hg : st.net.segs[init.length]? = some s := by rw [h.segs]; exact get_mid ..
  obtain ⟨s1, hf, l1, f1, b1, fi1, c1, e1⟩ := stretch_first st.net.toks.length htime
  simp only [h.altSeg, h.precAltTok, hg, hf]
  have hsegs : (setSeg (addTok st.net e.word init.length) init.length s1).segs = init ++ [s1] := by
    show st.net.segs.set _ _ = _
    rw [h.segs, set_mid]
  rw [altLinks_eq hsegs h.preds]
  have hp := pushed_linkAll h.pos.ok (m := setSeg (addTok st.net e.word init.length) init.length s1) rfl rfl rfl E0 (w := e.word) (g := init.length)
  have hsg := (linkAll_toks (setSeg (addTok st.net e.word init.length) init.length s1) E0 st.net.toks.length).2
  rw [hsegs] at hsg
  generalize linkAll (setSeg (addTok st.net e.word init.length) init.length s1) E0 st.net.toks.length = m at hp hsg ⊢
  obtain ⟨k, hk⟩ : ∃ k, st.net.toks[t]? = some k := ⟨_, List.getElem?_eq_getElem h.tlt⟩
  have hk' : m.toks[t]? = some k := by rw [hp.get_old h.tlt]; exact hk
  have hks := h.tstop hk
  rw [addLastAt_ok (rest := []) hsg hk' (by omega)]
  simp only
  have hps := h.pos.lt
  have hval : ∀ l, l ∈ s.lasts ∨ l = t → l < st.net.toks.length := fun l hl => h.valid l (by
    simp only [closeSeg, List.mem_append, List.mem_singleton]; exact .inr hl)
  -- the links do not depend on the segments
  have hp2 : Pushed st.net { m with segs := init ++ [closeSeg s1 t] } e.word init.length E0 := ⟨hp.toks, hp.precNew, hp.precOld, hp.next⟩
  have hg2 : ({ m with segs := init ++ [closeSeg s1 t] } : Net).segs = init ++ [closeSeg s1 t] := rfl
  generalize ({ m with segs := init ++ [closeSeg s1 t] } : Net) = m2 at hp2 hg2 ⊢
  have hto := hp2.toks
  have hE : ∀ u, u < st.net.toks.length → m2.next u = [] → st.net.next u = [] := fun u _ hn => ((hp2.ends u).1 hn).1
  refine ⟨_, closeSeg s1 t, st.net.toks.length, rfl, ?_, rfl, b1⟩
  refine ⟨rfl, hg2, rfl, h.isFirst, h.altEnd, h.altBegin, h.inside, h.pos.keep hp2 hps, h.preds, by simp, ?_, ?_, ?_, ?_, ?_, ?_, ?_, ?_, ?_,
    fun u hu => hp2.used hu⟩
  · show _ < m2.toks.length
    rw [hto]; simp
  · intro k hk
    change m2.toks[_]? = some k at hk
    rw [hp2.get_new] at hk
    rw [← Option.some.inj hk]
    rfl
  · exact h.pos.push hp2
  · intro ws
    show (∃ l ∈ s1.lasts ++ [t], Lang m2 l ws) ↔ _
    rw [l1]
    constructor
    · rintro ⟨l, hl, hx⟩
      rcases List.mem_append.1 hl with hl | hl
      · obtain ⟨r, hr, alt, ha, hw⟩ := (h.langL ws).1 ⟨l, hl, (hp2.lang_old h.pos.ok (hval l (.inl hl)) ws).1 hx⟩
        exact ⟨r, hr, alt, by simp [ha], hw⟩
      · rw [List.mem_singleton.1 hl] at hx
        obtain ⟨r, hr, hw⟩ := (h.langT ws).1 ((hp2.lang_old h.pos.ok h.tlt ws).1 hx)
        exact ⟨r, hr, cur, by simp, hw⟩
    · rintro ⟨r, hr, alt, ha, hw⟩
      rcases List.mem_append.1 ha with ha | ha
      · obtain ⟨l, hl, hx⟩ := (h.langL ws).2 ⟨r, hr, alt, ha, hw⟩
        exact ⟨l, by simp [hl], (hp2.lang_old h.pos.ok (hval l (.inl hl)) ws).2 hx⟩
      · rw [List.mem_singleton.1 ha] at hw
        exact ⟨t, by simp, (hp2.lang_old h.pos.ok h.tlt ws).2 ((h.langT ws).2 ⟨r, hr, hw⟩)⟩
  · intro u hu
    change u < m2.toks.length at hu
    rw [hto, List.length_append, List.length_singleton] at hu
    show m2.next u = [] ↔ u ∈ s1.lasts ++ [t] ∨ _
    rw [l1]
    by_cases hut : u = st.net.toks.length
    · subst hut
      simp only [or_true, iff_true]
      exact hp2.ends_new h.pos.ok hps
    · rw [hp2.ends, h.ends u (by omega)]
      simp only [hut, or_false, List.mem_append, List.mem_singleton]
      constructor
      · exact fun a => a.1
      · intro a
        exact ⟨a, fun hu0 => h.used u hu0 ((h.ends u (by omega)).2 a)⟩
  · show Done m2.toks _ _
    rw [hto]
    exact h.before.mono _
  · show SegFor m2.toks _ _
    rw [hto]
    obtain ⟨⟨e0, es0, rest, h1, h2, h3, h4⟩, h5, ⟨alt, h6, x, h7, h8⟩, h9, h10⟩ := h.seg
    have hv : Valid st.net.toks (closeSeg s t) := h.valid
    refine ⟨⟨e0, es0, rest ++ [[e]], by rw [h1]; rfl, fi1.trans h2, c1.trans h3, b1.trans h4⟩, ?_, ?_, ?_, ?_⟩
    · intro alt' ha' x' hx'
      show x'.word.stop ≤ s1.stop
      rcases List.mem_append.1 ha' with ha' | ha'
      · have : x'.word.stop ≤ s.stop := h5 alt' ha' x' hx'
        omega
      · rw [List.mem_singleton.1 ha'] at hx'
        rw [List.mem_singleton.1 hx']
        exact e1.1
    · rcases e1.2.2 with hs | hs
      · exact ⟨[e], by simp, e, by simp, hs.symm⟩
      · exact ⟨alt, List.mem_append_left _ h6, x, h7, by rw [h8]; exact hs.symm⟩
    · show wordsAt _ s1.firsts = _
      have h9' : wordsAt st.net.toks s.firsts = _ := h9
      rw [f1, wordsAt_append, wordsAt_new, wordsAt_mono _ (fun i hi => hv i (by simp [closeSeg, hi])), h9', List.map_append (l₂ := [[e]])]
      rfl
    · show wordsAt _ (s1.lasts ++ [t] ++ [_]) = _
      have h10' : wordsAt st.net.toks (s.lasts ++ [t]) = _ := h10
      rw [l1, wordsAt_append, wordsAt_new, wordsAt_mono _ (fun i hi => hv i (by simp only [closeSeg]; exact List.mem_append_right _ hi)), h10',
        List.map_append (l₂ := [[e]])]
      rfl
  · show Valid m2.toks _
    rw [hto]
    intro i hi
    rw [List.length_append, List.length_singleton]
    simp only [closeSeg, l1, f1, List.mem_append, List.mem_singleton] at hi
    rcases hi with (hi | hi) | (hi | hi) | hi
    · have := h.valid i (by simp [closeSeg, hi]); omega
    · omega
    · have := hval i (.inl hi); omega
    · have := hval i (.inr hi); omega
    · omega
  · show st.net.toks.length ∉ s1.lasts ++ [t]
    rw [l1]
    intro hm
    have := hval st.net.toks.length (by simpa using hm)
    omega

/-- The end of a group. -/
theorem end_step {st : St} {items : List Item} {E0 : List Nat} {done : List (List Entry)} {cur : List Entry} {init : List Seg} {s : Seg}
    {t : Nat} (h : In st items E0 done cur init s t) (ha : st.alt = false) :
    Between { st with altEnd := true, inside := false } (items ++ [.group (done ++ [cur])]) ∧
      Quiet { st with altEnd := true, inside := false } := by
  refine ⟨?_, h.altBegin, rfl, ha⟩
  refine .group items (done ++ [cur]) init s t rfl h.isFirst rfl h.altSeg h.segs h.precAltTok (fun k hk => h.tstop hk) ?_ ?_ h.before h.seg
    h.valid
  · refine ⟨h.pos.ok, fun e he => h.valid e (List.mem_append_right _ he), ?_, by simp⟩
    intro _ ws
    rw [reading_snoc_group]
    show (∃ e ∈ s.lasts ++ [t], Lang st.net e ws) ↔ _
    constructor
    · rintro ⟨l, hl, hx⟩
      rcases List.mem_append.1 hl with hl | hl
      · obtain ⟨r, hr, alt, ha, hw⟩ := (h.langL ws).1 ⟨l, hl, hx⟩
        exact ⟨r, hr, alt, by simp [ha], hw⟩
      · rw [List.mem_singleton.1 hl] at hx
        obtain ⟨r, hr, hw⟩ := (h.langT ws).1 hx
        exact ⟨r, hr, cur, by simp, hw⟩
    · rintro ⟨r, hr, alt, ha, hw⟩
      rcases List.mem_append.1 ha with ha | ha
      · obtain ⟨l, hl, hx⟩ := (h.langL ws).2 ⟨r, hr, alt, ha, hw⟩
        exact ⟨l, by simp [hl], hx⟩
      · rw [List.mem_singleton.1 ha] at hw
        exact ⟨t, by simp, (h.langT ws).2 ⟨r, hr, hw⟩⟩
  · intro u hu
    rw [List.mem_append, List.mem_singleton]
    exact h.ends u hu

end Verif.CtmIn
