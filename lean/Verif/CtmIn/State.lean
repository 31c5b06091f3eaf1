import Verif.CtmIn.Graph
/-!
# The state between words
-/
set_option autoImplicit false
namespace Verif.CtmIn

/-- A place after some items, with the tokens at which they can end. -/
structure Pos (n : Net) (items : List Item) (E : List Nat) : Prop where
  ok : NetOk n
  lt : ∀ e ∈ E, e < n.toks.length
  lang : E ≠ [] → ∀ ws, (∃ e ∈ E, Lang n e ws) ↔ Reading items ws
  empty : E = [] → items = []

theorem Pos.push {n n' : Net} {items : List Item} {E : List Nat} (h : Pos n items E) {w : Word} {g : Nat} (hp : Pushed n n' w g E)
    (ws : List Word) : Lang n' n.toks.length ws ↔ ∃ r, Reading items r ∧ ws = r ++ [w] := by
  rw [hp.lang_new h.ok h.lt]
  by_cases hE : E = []
  · rw [h.empty hE, hE]
    constructor
    · rintro (⟨_, e⟩ | ⟨p, hp, _⟩)
      · exact ⟨[], .nil, by rw [e]; rfl⟩
      · cases hp
    · rintro ⟨r, hr, e⟩
      cases hr
      exact .inl ⟨rfl, e⟩
  · constructor
    · rintro (⟨e, _⟩ | ⟨p, hp, ws', hl, e⟩)
      · exact absurd e hE
      · exact ⟨ws', (h.lang hE ws').1 ⟨p, hp, hl⟩, e⟩
    · rintro ⟨r, hr, e⟩
      obtain ⟨p, hp, hl⟩ := (h.lang hE r).2 hr
      exact .inr ⟨p, hp, r, hl, e⟩

/-- A place stays a place when a token is added. -/
theorem Pos.keep {n n' : Net} {items : List Item} {E : List Nat} (h : Pos n items E) {w : Word} {g : Nat} {ps : List Nat}
    (hp : Pushed n n' w g ps) (hps : ∀ p ∈ ps, p < n.toks.length) : Pos n' items E := by
  refine ⟨hp.ok h.ok hps, ?_, ?_, h.empty⟩
  · intro e he
    rw [hp.toks, List.length_append]
    have := h.lt e he
    omega
  · intro hE ws
    rw [← h.lang hE ws]
    constructor
    · rintro ⟨e, he, hl⟩
      exact ⟨e, he, (hp.lang_old h.ok (h.lt e he) ws).1 hl⟩
    · rintro ⟨e, he, hl⟩
      exact ⟨e, he, (hp.lang_old h.ok (h.lt e he) ws).2 hl⟩

/-- The tokens of segments exist. -/
def Valid (toks : List Tok) (s : Seg) : Prop := ∀ i ∈ s.firsts ++ s.lasts, i < toks.length

theorem wordsAt_mono {toks : List Tok} (x : Tok) {ids : List Nat} (h : ∀ i ∈ ids, i < toks.length) :
    wordsAt (toks ++ [x]) ids = wordsAt toks ids := by
  unfold wordsAt
  apply List.map_congr_left
  intro i hi
  rw [List.getElem?_append_left (h i hi)]

theorem wordsAt_append (toks : List Tok) (a b : List Nat) : wordsAt toks (a ++ b) = wordsAt toks a ++ wordsAt toks b := by
  simp [wordsAt]

theorem wordsAt_new (toks : List Tok) (w : Word) (g : Nat) : wordsAt (toks ++ [⟨w, g⟩]) [toks.length] = [some w] := by
  simp [wordsAt]

theorem SegFor.mono {toks : List Tok} {i : Item} {s : Seg} (h : SegFor toks i s) (x : Tok) (hv : Valid toks s) : SegFor (toks ++ [x]) i s := by
  have h1 : wordsAt (toks ++ [x]) s.firsts = wordsAt toks s.firsts :=
    wordsAt_mono x (fun j hj => hv j (List.mem_append_left _ hj))
  have h2 : wordsAt (toks ++ [x]) s.lasts = wordsAt toks s.lasts :=
    wordsAt_mono x (fun j hj => hv j (List.mem_append_right _ hj))
  cases i with
  | word e =>
    obtain ⟨a, b, c, d, f, g⟩ := h
    exact ⟨a, b, c, d, f, by rw [h1]; exact g⟩
  | group alts =>
    obtain ⟨a, b, c, d, f⟩ := h
    exact ⟨a, b, c, by rw [h1]; exact d, by rw [h2]; exact f⟩

theorem Valid.mono {toks : List Tok} {s : Seg} (h : Valid toks s) (x : Tok) : Valid (toks ++ [x]) s := by
  intro i hi
  have := h i hi
  rw [List.length_append]
  omega

/-- Finished segments. -/
structure Done (toks : List Tok) (items : List Item) (segs : List Seg) : Prop where
  all : SegsFor toks items segs
  valid : ∀ s ∈ segs, Valid toks s

theorem Done.mono {toks : List Tok} {items : List Item} {segs : List Seg} (h : Done toks items segs) (x : Tok) :
    Done (toks ++ [x]) items segs := by
  obtain ⟨h1, h2⟩ := h
  refine ⟨?_, fun s hs => (h2 s hs).mono x⟩
  induction h1 with
  | nil => exact .nil
  | snoc items segs i s _ hi ih =>
    exact .snoc _ _ _ _ (ih (fun s' hs' => h2 s' (List.mem_append_left _ hs'))) (hi.mono x (h2 s (by simp)))

theorem Done.snoc {toks : List Tok} {items : List Item} {segs : List Seg} (h : Done toks items segs) {i : Item} {s : Seg} (hi : SegFor toks i s)
    (hv : Valid toks s) : Done toks (items ++ [i]) (segs ++ [s]) := by
  refine ⟨.snoc _ _ _ _ h.all hi, ?_⟩
  intro s' hs'
  rcases List.mem_append.1 hs' with hs' | hs'
  · exact h.valid s' hs'
  · rw [List.mem_singleton.1 hs']
    exact hv

/-- The segment with one more last token. -/
def closeSeg (s : Seg) (t : Nat) : Seg := { s with lasts := s.lasts ++ [t] }

/-- Inside a group: `done` are the finished alternatives, `cur` the words of the one that is being read. -/
structure In (st : St) (items : List Item) (E0 : List Nat) (done : List (List Entry)) (cur : List Entry) (init : List Seg) (s : Seg)
    (t : Nat) : Prop where
  altSeg : st.altSeg = some init.length
  segs : st.net.segs = init ++ [s]
  precAltTok : st.precAltTok = some t
  isFirst : st.isFirst = false
  altEnd : st.altEnd = false
  altBegin : st.altBegin = false
  inside : st.inside = true
  pos : Pos st.net items E0
  preds : (st.precAltSeg = none ∧ E0.length ≤ 1 ∧ st.precTok = E0.head?) ∨
    ∃ b sb, st.precAltSeg = some b ∧ init[b]? = some sb ∧ sb.lasts = E0
  curNe : cur ≠ []
  tlt : t < st.net.toks.length
  tword : ∀ k, st.net.toks[t]? = some k → cur.getLast?.map Entry.word = some k.word
  langT : ∀ ws, Lang st.net t ws ↔ ∃ r, Reading items r ∧ ws = r ++ cur.map Entry.word
  langL : ∀ ws, (∃ l ∈ s.lasts, Lang st.net l ws) ↔ ∃ r, Reading items r ∧ ∃ alt ∈ done, ws = r ++ alt.map Entry.word
  ends : ∀ u, u < st.net.toks.length → (st.net.next u = [] ↔ u ∈ s.lasts ∨ u = t)
  before : Done st.net.toks items init
  seg : SegFor st.net.toks (.group (done ++ [cur])) (closeSeg s t)
  valid : Valid st.net.toks (closeSeg s t)
  fresh : t ∉ s.lasts
  used : ∀ u ∈ E0, st.net.next u ≠ []

/-- Between the items. -/
inductive Between (st : St) (items : List Item) : Prop
  | start : items = [] → st.isFirst = true → st.altEnd = false → st.precTok = none → st.altSeg = none → st.net.toks = [] →
      st.net.segs = [] → NetOk st.net → Between st items
  | word (t : Nat) (before : List Item) (e : Entry) : items = before ++ [.word e] → st.isFirst = false → st.altEnd = false → st.precTok = some t → st.altSeg = none → Pos st.net items [t] →
      (∀ u, u < st.net.toks.length → (st.net.next u = [] ↔ u = t)) → Done st.net.toks items st.net.segs → Between st items
  | group (before : List Item) (alts : List (List Entry)) (init : List Seg) (s : Seg) (t : Nat) : items = before ++ [.group alts] →
      st.isFirst = false → st.altEnd = true → st.altSeg = some init.length → st.net.segs = init ++ [s] → st.precAltTok = some t →
      (∀ k, st.net.toks[t]? = some k → k.word.stop ≤ s.stop) →
      Pos st.net items (s.lasts ++ [t]) → (∀ u, u < st.net.toks.length → (st.net.next u = [] ↔ u ∈ s.lasts ++ [t])) →
      Done st.net.toks before init → SegFor st.net.toks (.group alts) (closeSeg s t) → Valid st.net.toks (closeSeg s t) → Between st items

/-- No tags are pending. -/
def Quiet (st : St) : Prop := st.altBegin = false ∧ st.inside = false ∧ st.alt = false

theorem set_mid (init : List Seg) (s s' : Seg) (rest : List Seg) : (init ++ s :: rest).set init.length s' = init ++ s' :: rest := by
  rw [List.set_append_right _ _ (Nat.le_refl _)]
  simp

theorem get_mid (init : List Seg) (s : Seg) (rest : List Seg) : (init ++ s :: rest)[init.length]? = some s := by
  simp

/-- Adding the last token to a segment. -/
theorem addLastAt_ok {n : Net} {init rest : List Seg} {s : Seg} {t : Nat} {k : Tok} (hs : n.segs = init ++ s :: rest)
    (hk : n.toks[t]? = some k) (hle : k.word.stop ≤ s.stop) :
    addLastAt n (some init.length) (some t) = .ok { n with segs := init ++ closeSeg s t :: rest } := by
  have hg : n.segs[init.length]? = some s := by rw [hs]; exact get_mid ..
  have ha : addLast s t k.word = .ok (closeSeg s t) := by
    rw [addLast, if_neg (by omega)]
    rfl
  rw [addLastAt]
  simp only [hg, hk, ha]
  rw [setSeg, hs, set_mid]

theorem lastsOf_mid {n : Net} {init rest : List Seg} {s : Seg} (hs : n.segs = init ++ s :: rest) : lastsOf n init.length = s.lasts := by
  rw [lastsOf, hs, get_mid]

theorem segFor_one (toks : List Tok) (e : Entry) (g : Nat) :
    SegFor (toks ++ [⟨e.word, g⟩]) (.word e) ⟨e.file, e.chan, e.word.start, e.word.stop, [toks.length], [toks.length]⟩ :=
  ⟨rfl, rfl, rfl, rfl, rfl, wordsAt_new ..⟩

theorem segFor_open (toks : List Tok) (e : Entry) (g : Nat) :
    SegFor (toks ++ [⟨e.word, g⟩]) (.group [[e]]) ⟨e.file, e.chan, e.word.start, e.word.stop, [toks.length], [toks.length]⟩ := by
  refine ⟨⟨e, [], [], rfl, rfl, rfl, rfl⟩, ?_, ⟨[e], by simp, e, by simp, rfl⟩, ?_, ?_⟩
  · intro alt ha x hx
    rw [List.mem_singleton.1 ha] at hx
    rw [List.mem_singleton.1 hx]
    exact Int.le_refl _
  · rw [wordsAt_new]; rfl
  · rw [wordsAt_new]; rfl

theorem valid_one (toks : List Tok) (x : Tok) (f c : List Nat) (a b : Int) : Valid (toks ++ [x]) ⟨f, c, a, b, [toks.length], [toks.length]⟩ := by
  intro i hi
  simp at hi
  subst hi
  simp

/-- A word between the items, after a word or at the start. -/
theorem plain_step {st : St} {items : List Item} (h : Between st items) (hq : Quiet st) (e : Entry) :
    ∃ st', onWord st e.file e.chan e.word = .ok st' ∧ Between st' (items ++ [.word e]) ∧ Quiet st' := by
  obtain ⟨q1, q2, q3⟩ := hq
  cases h with
  | start h1 h2 h3 h4 h5 h6 h7 h8 =>
    rw [onWord, q1, q3, q2, h3]
    simp only [Bool.false_eq_true, if_false]
    rw [onPlain]
    simp only [h2, if_true]
    refine ⟨_, rfl, ?_, q1, q2, q3⟩
    have hp : Pushed st.net (wordSeg st.net e.file e.chan e.word st.net.segs.length) e.word st.net.segs.length [] :=
      pushed_linkAll h8 (m := wordSeg st.net e.file e.chan e.word st.net.segs.length) rfl rfl rfl []
    have hpos : Pos st.net items [] := ⟨h8, by simp, by simp, fun _ => h1⟩
    refine .word st.net.toks.length items e rfl rfl h3 rfl h5 ⟨hp.ok h8 (by simp), ?_, ?_, by simp⟩ ?_ ?_
    · intro x hx
      rw [List.mem_singleton.1 hx, hp.toks]
      simp
    · intro _ ws
      rw [reading_snoc_word, ← hpos.push hp]
      simp
    · intro u hu
      rw [hp.toks, h6] at hu
      have : u = 0 := by simpa using hu
      rw [this, h6]
      simp only [List.length_nil, iff_true]
      have := hp.ends_new h8 (by simp)
      rwa [h6] at this
    · rw [hp.toks, h6, h1]
      show Done _ _ (st.net.segs ++ [_])
      rw [h7]
      have hd : Done ([] ++ [(⟨e.word, st.net.segs.length⟩ : Tok)]) [] [] := ⟨.nil, by simp⟩
      have := hd.snoc (segFor_one [] e st.net.segs.length) (valid_one _ _ _ _ _ _)
      rw [h6]
      rw [h7] at this
      exact this
  | word t _ _ _ h1 h2 h3 h4 h5 h6 h7 =>
    rw [onWord, q1, q3, q2, h2]
    simp only [Bool.false_eq_true, if_false]
    rw [onPlain]
    simp only [h1, Bool.false_eq_true, if_false, h3]
    refine ⟨_, rfl, ?_, q1, q2, q3⟩
    have hp : Pushed st.net (link (wordSeg st.net e.file e.chan e.word st.net.segs.length) t st.net.toks.length) e.word st.net.segs.length [t] :=
      pushed_linkAll h5.ok (m := wordSeg st.net e.file e.chan e.word st.net.segs.length) rfl rfl rfl [t]
    refine .word st.net.toks.length items e rfl rfl h2 rfl h4 ⟨hp.ok h5.ok h5.lt, ?_, ?_, by simp⟩ ?_ ?_
    · intro x hx
      rw [List.mem_singleton.1 hx, hp.toks]
      simp
    · intro _ ws
      rw [reading_snoc_word, ← h5.push hp]
      simp
    · intro u hu
      rw [hp.toks, List.length_append, List.length_singleton] at hu
      by_cases hut : u = st.net.toks.length
      · subst hut
        simp only [iff_true]
        exact hp.ends_new h5.ok h5.lt
      · rw [hp.ends, h6 u (by omega)]
        simp only [List.mem_singleton]
        constructor
        · rintro ⟨a, b⟩; exact absurd a b
        · intro a; exact absurd a hut
    · rw [hp.toks]
      exact (h7.mono _).snoc (segFor_one ..) (valid_one _ _ _ _ _ _)
  | group before alts init s t h0 h1 h2 h3 h4 h5 h6 h7 h8 h9 h10 h11 =>
    rw [onWord, q1, q3, q2, h2]
    simp only [Bool.false_eq_true, if_false, if_true]
    rw [onEnd]
    simp only [h3, h5, Option.getD_some]
    have htl : t < st.net.toks.length := h7.lt t (by simp)
    obtain ⟨k, hk⟩ : ∃ k, st.net.toks[t]? = some k := ⟨_, List.getElem?_eq_getElem htl⟩
    have hsegs : (wordSeg st.net e.file e.chan e.word init.length).segs =
        init ++ s :: [⟨e.file, e.chan, e.word.start, e.word.stop, [st.net.toks.length], [st.net.toks.length]⟩] := by
      show st.net.segs ++ _ = _
      rw [h4]
      simp
    have hk' : (wordSeg st.net e.file e.chan e.word init.length).toks[t]? = some k := by
      show (st.net.toks ++ _)[t]? = _
      rw [List.getElem?_append_left htl, hk]
    rw [addLastAt_ok hsegs hk' (h6 k hk)]
    simp only
    rw [lastsOf_mid rfl]
    refine ⟨_, rfl, ?_, q1, rfl, q3⟩
    have hp := pushed_linkAll h7.ok (m := { wordSeg st.net e.file e.chan e.word init.length with
      segs := init ++ closeSeg s t :: [⟨e.file, e.chan, e.word.start, e.word.stop, [st.net.toks.length], [st.net.toks.length]⟩] })
      rfl rfl rfl (s.lasts ++ [t]) (w := e.word) (g := init.length)
    refine .word st.net.toks.length items e rfl h1 rfl rfl rfl ⟨hp.ok h7.ok h7.lt, ?_, ?_, by simp⟩ ?_ ?_
    · intro x hx
      rw [List.mem_singleton.1 hx]
      show st.net.toks.length < (linkAll _ (s.lasts ++ [t]) _).toks.length
      rw [hp.toks]
      simp
    · intro _ ws
      rw [reading_snoc_word, ← h7.push hp]
      simp [closeSeg]
    · intro u hu
      change u < (linkAll _ (s.lasts ++ [t]) _).toks.length at hu
      rw [hp.toks, List.length_append, List.length_singleton] at hu
      show (linkAll _ (s.lasts ++ [t]) _).next u = [] ↔ _
      by_cases hut : u = st.net.toks.length
      · subst hut
        simp only [iff_true]
        exact hp.ends_new h7.ok h7.lt
      · rw [hp.ends, h8 u (by omega)]
        constructor
        · rintro ⟨a, b⟩; exact absurd a b
        · intro a; exact absurd a hut
    · show Done (linkAll _ (s.lasts ++ [t]) _).toks _ (linkAll _ (s.lasts ++ [t]) _).segs
      rw [hp.toks, (linkAll_toks ..).2, h0]
      have := ((h9.snoc h10 h11).mono ⟨e.word, init.length⟩).snoc (segFor_one st.net.toks e init.length) (valid_one _ _ _ _ _ _)
      simpa using this

end Verif.CtmIn
