import Verif.LineStyle.Lang
import Verif.LineStyle.Times
import Verif.LineStyle.Lexing
import Verif.LineStyle.Acyclic
import Verif.Topo.Props
/-!
# C17, C18, C19 (parsed transcripts), C78, C79, C80: transcripts with alternatives
-/
set_option autoImplicit false
namespace Verif.LineStyle

/-- Words for the examples. -/
def wa : Word := ['a']
/-- Another word. -/
def wb : Word := ['b']
/-- Another word. -/
def wc : Word := ['c']
/-- An optional word `{ w / @ }`. -/
def opt (w : Word) : Item := .alt (.or (.cons (.word w) .nil) (.one (.cons .eps .nil)))
/-- `c { a b / { a / @ } b } { c / @ }`. -/
def sample : Alts := .one (.cons (.word wc) (.cons (.alt (.or (.cons (.word wa) (.cons (.word wb) .nil)) (.one (.cons (opt wa) (.cons (.word wb) .nil)))))
  (.cons (opt wc) .nil)))

theorem ord_a : Ordinary wa := by unfold Ordinary; decide
theorem ord_b : Ordinary wb := by unfold Ordinary; decide
theorem ord_c : Ordinary wc := by unfold Ordinary; decide

/-- C17: what the parser makes of any transcript, exactly: the complete paths spell the word sequences the transcript stands for, except that
inside a group an alternative of two or more items never stands for the empty sequence. -/
theorem alternation_exact (a : Alts) (hp : a.Plain) (f c : Nat) (hf : a.text.length < f) :
    ∃ p c', parse f a.text c = some (p, c') ∧ ∀ u, u ≠ [] → (Spells p u ↔ a.got u) := by
  obtain ⟨p, c', h1, _, _, h2⟩ := (alts_ok a hp).2 f hf c
  exact ⟨p, c', h1, h2.1⟩

/-- C17. Partial: no alternative of two or more items inside a group stands for the empty sequence (see `optional_pair_lost`), and no group is written
`{ / }` (see `slash_word`). The empty sequence is never spelled (`empty_not_spelled`). -/
theorem alternation_language_partial (a : Alts) (hp : a.Plain) (hg : a.Good) (f c : Nat) (hf : a.text.length < f) :
    ∃ p c', parse f a.text c = some (p, c') ∧ ∀ u, u ≠ [] → (Spells p u ↔ a.den u) := by
  obtain ⟨p, c', h1, h2⟩ := alternation_exact a hp f c hf
  exact ⟨p, c', h1, fun u hu => (h2 u hu).trans (top_good a hg u hu)⟩

example : sample.Plain ∧ sample.Good ∧ sample.den [wc, wb] ∧ sample.den [wc, wa, wb, wc] := by
  refine ⟨?_, ?_, ?_, ?_⟩
  · simp [sample, opt, Alts.Plain, Seq.Plain, Item.Plain, Alts.text, Seq.text, Item.text, ord_a, ord_b, ord_c]
  · simp [sample, opt, Alts.Good, Seq.Good, Item.Good, Alts.AllGood, Seq.length, Seq.den, Item.den, Alts.den]
  · simp only [sample, opt, Alts.den, Seq.den, Item.den]
    exact ⟨[wc], [wb], rfl, rfl, [wb], [], rfl, Or.inr ⟨[], [wb], rfl, Or.inr ⟨[], [], rfl, rfl, rfl⟩, [wb], [], rfl, rfl, rfl⟩, [], [], rfl,
      Or.inr ⟨[], [], rfl, rfl, rfl⟩, rfl⟩
  · simp only [sample, opt, Alts.den, Seq.den, Item.den]
    exact ⟨[wc], [wa, wb, wc], rfl, rfl, [wa, wb], [wc], rfl, Or.inl ⟨[wa], [wb], rfl, rfl, [wb], [], rfl, rfl, rfl⟩, [wc], [], rfl,
      Or.inl ⟨[wc], [], rfl, rfl, rfl⟩, rfl⟩

/-- C17 for the line as written, with or without blanks around the signs. -/
theorem line_language_partial (line : List Char) (a : Alts) (hl : lex [] line = a.text) (hp : a.Plain) (hg : a.Good) (f : Nat)
    (hf : a.text.length < f) : ∃ p, segment f line = some p ∧ ∀ u, u ≠ [] → (Spells p u ↔ a.den u) := by
  obtain ⟨p, c', h1, h2⟩ := alternation_language_partial a hp hg f 0 hf
  refine ⟨p, ?_, h2⟩
  unfold segment filterSpace
  rw [filter_words line []]
  show (parse f (lex [] line) 0).map Prod.fst = some p
  rw [hl, h1]; rfl

example : lex [] ['c', '{', 'a', ' ', 'b', '/', '@', '}'] =
    (Alts.one (.cons (.word wc) (.cons (.alt (.or (.cons (.word wa) (.cons (.word wb) .nil)) (.one (.cons .eps .nil)))) .nil))).text := by decide

/-- The words as a sequence. -/
def Seq.ofWords : List Word → Seq
  | [] => .nil
  | w :: ws => .cons (.word w) (Seq.ofWords ws)

theorem ofWords_text : ∀ ws : List Word, (Seq.ofWords ws).text = ws
  | [] => rfl
  | w :: ws => by simp [Seq.ofWords, Seq.text, Item.text, ofWords_text ws]

theorem ofWords_den : ∀ (ws u : List Word), (Seq.ofWords ws).den u ↔ u = ws
  | [], u => Iff.rfl
  | w :: ws, u => by
    simp only [Seq.ofWords, Seq.den, Item.den, ofWords_den ws]
    constructor
    · rintro ⟨v, w', rfl, rfl, rfl⟩; rfl
    · rintro rfl; exact ⟨[w], ws, rfl, rfl, rfl⟩

theorem ofWords_good : ∀ ws : List Word, (Seq.ofWords ws).Good
  | [] => trivial
  | _ :: ws => ⟨trivial, ofWords_good ws⟩

theorem ofWords_plain : ∀ ws : List Word, (∀ w ∈ ws, Ordinary w) → (Seq.ofWords ws).Plain
  | [], _ => trivial
  | w :: ws, h => ⟨h w (by simp), ofWords_plain ws (fun x hx => h x (by simp [hx]))⟩

/-- C17, plain transcripts: a transcript without signs has exactly one complete path, which spells its words. -/
theorem plain_words (ws : List Word) (h : ∀ w ∈ ws, Ordinary w) (hne : ws ≠ []) (f c : Nat) (hf : ws.length < f) :
    ∃ p c', parse f ws c = some (p, c') ∧ ∀ u, Spells p u ↔ u = ws := by
  obtain ⟨p, c', h1, h2⟩ := alternation_language_partial (.one (Seq.ofWords ws)) (ofWords_plain ws h) (ofWords_good ws) f c
    (by simpa [Alts.text, ofWords_text] using hf)
  refine ⟨p, c', by simpa [Alts.text, ofWords_text] using h1, ?_⟩
  intro u
  by_cases hu : u = []
  · subst hu
    exact ⟨fun hs => absurd rfl (spells_ne hs), fun he => absurd he.symm hne⟩
  · rw [h2 u hu]
    exact ofWords_den ws u

example : (∀ w ∈ [wa, wb], Ordinary w) ∧ [wa, wb] ≠ [] := by
  refine ⟨?_, by decide⟩
  intro w hw
  simp only [List.mem_cons, List.not_mem_nil, or_false] at hw
  rcases hw with rfl | rfl
  · exact ord_a
  · exact ord_b

/-- C17 fails for the empty sequence: whatever the transcript (for example `{ a / @ }`), no complete path spells it. -/
theorem empty_not_spelled (p : Piece) : ¬ Spells p [] := fun h => spells_ne h rfl

/-- `c { { a / @ } { b / @ } } c`. -/
def twoOpts : Alts := .one (.cons (.word wc) (.cons (.alt (.one (.cons (opt wa) (.cons (opt wb) .nil)))) (.cons (.word wc) .nil)))
/-- `a { @ @ } b`. -/
def twoEmpty : Alts := .one (.cons (.word wa) (.cons (.alt (.one (.cons .eps (.cons .eps .nil)))) (.cons (.word wb) .nil)))

/-- C17 fails for an alternative of two optional words: `c { { a / @ } { b / @ } } c` stands for `c c`, but no path spells it. -/
theorem optional_pair_lost : twoOpts.Plain ∧ twoOpts.den [wc, wc] ∧ ∃ p c', parse 30 twoOpts.text 0 = some (p, c') ∧ ¬ Spells p [wc, wc] := by
  have hp : twoOpts.Plain := by
    simp [twoOpts, opt, Alts.Plain, Seq.Plain, Item.Plain, Alts.text, Seq.text, Item.text, ord_a, ord_b, ord_c]
  refine ⟨hp, ?_, ?_⟩
  · simp only [twoOpts, opt, Alts.den, Seq.den, Item.den]
    exact ⟨[wc], [wc], rfl, rfl, [], [wc], rfl, ⟨[], [], rfl, Or.inr ⟨[], [], rfl, rfl, rfl⟩, [], [], rfl, Or.inr ⟨[], [], rfl, rfl, rfl⟩, rfl⟩,
      [wc], [], rfl, rfl, rfl⟩
  · obtain ⟨p, c', h1, h2⟩ := alternation_exact twoOpts hp 30 0 (by decide)
    refine ⟨p, c', h1, ?_⟩
    rw [h2 _ (by simp)]
    simp only [twoOpts, opt, Alts.got, Seq.prod, Item.got, Seq.length]
    rintro ⟨⟨v, w, e, rfl, v2, w2, e2, ⟨_, hne⟩, v3, w3, e3, rfl, rfl⟩, _⟩
    have hv2 := hne (by omega)
    subst e3; subst e2
    have hlen := congrArg List.length e
    simp only [List.length_append, List.length_cons, List.length_nil] at hlen
    exact hv2 (List.length_eq_zero_iff.mp (by omega))

/-- C17 fails badly for `a { @ @ } b`: no complete path is left. -/
theorem empty_pair_cuts : twoEmpty.den [wa, wb] ∧ ∃ p c', parse 30 twoEmpty.text 0 = some (p, c') ∧ ∀ u, ¬ Spells p u := by
  have hp : twoEmpty.Plain := by
    simp [twoEmpty, Alts.Plain, Seq.Plain, Item.Plain, Alts.text, Seq.text, Item.text, ord_a, ord_b]
  refine ⟨?_, ?_⟩
  · simp only [twoEmpty, Alts.den, Seq.den, Item.den]
    exact ⟨[wa], [wb], rfl, rfl, [], [wb], rfl, ⟨[], [], rfl, rfl, [], [], rfl, rfl, rfl⟩, [wb], [], rfl, rfl, rfl⟩
  · obtain ⟨p, c', h1, h2⟩ := alternation_exact twoEmpty hp 30 0 (by decide)
    refine ⟨p, c', h1, ?_⟩
    intro u hu
    rw [h2 u (spells_ne hu)] at hu
    simp only [twoEmpty, Alts.got, Seq.prod, Item.got, Seq.length] at hu
    obtain ⟨⟨v, w, e, rfl, v2, w2, e2, ⟨⟨a1, a2, ea, rfl, b1, b2, eb, rfl, rfl⟩, hne⟩, _⟩, _⟩ := hu
    subst ea; subst eb
    exact hne (by omega) rfl

/-- C17 fails for `{ / }`: it becomes a word `/`. -/
theorem slash_word : ∃ p c', parse 30 [lb, slash, rb] 0 = some (p, c') ∧ Spells p [slash] := by
  refine ⟨⟨[⟨0, slash, 0, 1⟩], [⟨0, slash, 0, 1⟩], false, []⟩, 1, by decide, ?_⟩
  rw [spells_one]

/-- C18: exactly when the parser returns. It never returns on a text that closes a group that is not open and opens one later to make up for it; on every
other text it returns, with a recursion no deeper than the number of words, and the result does not depend on the bound. -/
theorem parse_returns_iff (ws : List Word) (c : Nat) :
    ((∃ f r, parse f ws c = some r) ↔ ¬ Reversed ws) ∧
    (¬ Reversed ws → ∃ r, ∀ f, ws.length < f → parse f ws c = some r) := by
  have h1 : ¬ Reversed ws → ∃ r, ∀ f, ws.length < f → parse f ws c = some r := by
    intro h
    obtain ⟨r, hr⟩ := parse_total (ws.length + 1) ws c ((fine_iff ws).mpr h) (by omega)
    exact ⟨r, fun f hf => parse_mono ws c r _ f hf hr⟩
  refine ⟨⟨?_, ?_⟩, h1⟩
  · rintro ⟨f, r, hr⟩ hrev
    have : ¬ fine 0 ws := fun hf => ((fine_iff ws).mp hf) hrev
    rw [parse_rev f ws c (not_fine ws 0 (by omega) this)] at hr
    simp at hr
  · intro h
    obtain ⟨r, hr⟩ := h1 h
    exact ⟨_, r, hr _ (Nat.lt_succ_self _)⟩

/-- C18 for lines. Partial: the line must not close a group that is not open and open one later. -/
theorem line_returns_partial (line : List Char) (h : ¬ Reversed (lex [] line)) (f : Nat) (hf : (lex [] line).length < f) :
    ∃ p, segment f line = some p := by
  obtain ⟨r, hr⟩ := (parse_returns_iff (lex [] line) 0).2 h
  refine ⟨r.1, ?_⟩
  unfold segment filterSpace
  rw [filter_words line []]
  show (parse f (lex [] line) 0).map Prod.fst = _
  rw [hr f hf]; rfl

example : ¬ Reversed (lex [] ['a', '{', 'b', '/', '@', '}']) := by
  rw [← fine_iff]
  have e : lex [] ['a', '{', 'b', '/', '@', '}'] = [wa, lb, wb, slash, at', rb] := by decide
  rw [e]
  refine Or.inr ⟨by decide, Or.inr ⟨by decide, Or.inr ⟨by decide, Or.inr ⟨by decide, Or.inr ⟨by decide, Or.inr ⟨by decide, trivial⟩⟩⟩⟩⟩⟩

/-- C18 fails for the line `} {`, and for every line with such a part. -/
theorem reversed_never_returns (line : List Char) (h : Reversed (lex [] line)) (f : Nat) : segment f line = none := by
  unfold segment filterSpace
  rw [filter_words line []]
  show (parse f (lex [] line) 0).map Prod.fst = none
  cases hp : parse f (lex [] line) 0 with
  | none => rfl
  | some r => exact absurd h ((parse_returns_iff (lex [] line) 0).1.mp ⟨f, r, hp⟩)

example : Reversed (lex [] ['}', ' ', '{']) := ⟨1, 2, by decide, by decide, by decide, by decide⟩

/-- C78: blanks around the signs do not matter: the words read from a line are its signs and the stretches between signs and white space. -/
theorem line_words (line : List Char) : words [] (filterSpace line) = lex [] line := filter_words line []

example : words [] (filterSpace ['a', '/', 'b', '\t', '@', 'c', ' ', ' ', '{', '}']) =
    [['a'], ['/'], ['b'], ['@'], ['c'], ['{'], ['}']] := by decide

/-- C79, within. Every token made from a text with times `s` to `e` has its time inside them. -/
theorem times_within (f : Nat) (ws : List Word) (c c' : Nat) (p : Piece) (h : parse f ws c = some (p, c')) (s e : Int) (hse : s ≤ e) :
    ∀ t, (t ∈ p.starts ∨ t ∈ p.ends ∨ ∃ x ∈ p.edges, x.1 = t ∨ x.2 = t) → s ≤ t.start s e ∧ 0 ≤ t.dur s e ∧ t.start s e + t.dur s e ≤ e := by
  have hall := all_parse (fun t => s ≤ t.start s e ∧ 0 ≤ t.dur s e ∧ t.start s e + t.dur s e ≤ e) (by
    intro i n c w hi
    unfold Node.start Node.dur
    simp only
    by_cases hn : n = 1
    · rw [if_pos hn, if_pos hn]; omega
    · rw [if_neg hn, if_neg hn]
      have hd : 0 ≤ e - s := by omega
      have htd : (e - s).tdiv (n : Int) = (e - s) / (n : Int) := Int.tdiv_eq_ediv_of_nonneg hd
      rw [htd]
      have hnpos : (0 : Int) < (n : Int) := by omega
      have h0 : 0 ≤ (e - s) / (n : Int) := Int.ediv_nonneg hd (by omega)
      have h1 : (e - s) / (n : Int) * (n : Int) ≤ e - s := Int.ediv_mul_le _ (by omega)
      have h2 : 0 ≤ (i : Int) * ((e - s) / (n : Int)) := Int.mul_nonneg (by omega) h0
      have h3 : ((i : Int) + 1) * ((e - s) / (n : Int)) ≤ (n : Int) * ((e - s) / (n : Int)) :=
        Int.mul_le_mul_of_nonneg_right (by omega) h0
      rw [Int.add_mul, Int.one_mul] at h3
      rw [Int.mul_comm] at h1
      refine ⟨by omega, h0, by omega⟩) f ws c p c' h
  intro t ht
  rcases ht with h | h | ⟨x, hx, rfl | rfl⟩
  · exact hall.starts t h
  · exact hall.ends t h
  · exact (hall.edges x hx).1
  · exact (hall.edges x hx).2

example : ∃ p c', parse 9 [wa, lb, wb, slash, wc, rb, wa] 0 = some (p, c') ∧ p.edges ≠ [] := ⟨_, _, rfl, by decide⟩

/-- C79, order. Fails: in `a { b / c }` the token `b` follows `a`, but it is given the whole time of the text and starts before `a` ends. -/
theorem times_overlap : ∃ p c', parse 9 [wa, lb, wb, slash, wc, rb] 0 = some (p, c') ∧
    ∃ x ∈ p.edges, x.2.start 0 100 < x.1.start 0 100 + x.1.dur 0 100 := by
  refine ⟨_, _, rfl, (⟨0, wa, 0, 2⟩, ⟨1, wb, 0, 1⟩), by decide, by decide⟩

/-- C80: whatever the transcript, the links of its tokens form no cycle: along every path the tokens are distinct and in the order in which they were made. -/
theorem tokens_acyclic (f : Nat) (ws : List Word) (c c' : Nat) (p : Piece) (h : parse f ws c = some (p, c')) (path : List Node)
    (hc : Chain p.edges path) : (path.map Node.id).Pairwise (· < ·) := by
  have hf := fwd_parse f ws c p c' h
  induction path with
  | nil => simp
  | cons x l ih =>
    cases l with
    | nil => simp
    | cons y l =>
      have h1 := ih hc.2
      have h2 := hf.up _ hc.1
      simp only at h2
      rw [List.map_cons, List.pairwise_cons]
      refine ⟨?_, h1⟩
      intro z hz
      rw [List.map_cons, List.mem_cons] at hz
      rcases hz with rfl | hz
      · exact h2
      · rw [List.map_cons, List.pairwise_cons] at h1
        have := h1.1 z hz
        omega

example : ∃ p c', parse 9 [wa, lb, wb, slash, wc, rb, wa] 0 = some (p, c') ∧
    Chain p.edges [⟨0, wa, 0, 3⟩, ⟨2, wc, 0, 1⟩, ⟨3, wa, 2, 3⟩] := ⟨_, _, rfl, by decide, by decide, trivial⟩

/-- The segment made from a transcript, with its tokens as numbers. -/
def toSeg (p : Piece) : Topo.Seg :=
  ⟨p.starts.map Node.id, fun t => (p.edges.filter (fun e => e.1.id = t)).map (fun e => e.2.id), fun t => p.ends.any (fun x => x.id = t)⟩

/-- C19 for parsed transcripts: the listing always ends and holds exactly the tokens reachable through tokens that cannot come last. -/
theorem parsed_listing (f : Nat) (ws : List Word) (c : Nat) (p : Piece) (h : parse f ws 0 = some (p, c)) :
    ∃ l, Topo.listing (toSeg p) (c + 1) = some l ∧ ∀ t, t ∈ l ↔ Topo.Inner (toSeg p) t := by
  have hf := fwd_parse f ws 0 p c h
  refine Topo.listing_inner (toSeg p) (List.range c) ⟨?_, ?_⟩ (c + 1) (by simp)
  · intro t ht
    simp only [toSeg, List.mem_map] at ht
    obtain ⟨x, hx, rfl⟩ := ht
    exact List.mem_range.mpr (hf.inside.starts x hx).2
  · intro t _ u hu
    simp only [toSeg, List.mem_map, List.mem_filter] at hu
    obtain ⟨e, ⟨he, _⟩, rfl⟩ := hu
    exact List.mem_range.mpr (hf.inside.edges e he).2.2

/-- C19 fails for the transcripts `a { b / @ }` (the token `b` is not listed), `{ a / @ } b` (the token `b` is listed twice, and deleted twice) and
`a { b / c } a` (the last token is listed before `c`). -/
theorem parsed_listing_wrong :
    (∃ p c, parse 9 [wa, lb, wb, slash, at', rb] 0 = some (p, c) ∧ Spells p [wa, wb] ∧ Topo.listing (toSeg p) 9 = some [0]) ∧
    (∃ p c, parse 9 [lb, wa, slash, at', rb, wb] 0 = some (p, c) ∧ Topo.listing (toSeg p) 9 = some [0, 1, 1] ∧ Topo.deleteAll [0, 1, 1] [] = none) ∧
    (∃ p c, parse 9 [wa, lb, wb, slash, wc, rb, wa] 0 = some (p, c) ∧ Topo.listing (toSeg p) 9 = some [0, 1, 3, 2] ∧ 3 ∈ (toSeg p).next 2) := by
  refine ⟨⟨_, _, rfl, ⟨[⟨0, wa, 0, 2⟩, ⟨1, wb, 0, 1⟩], _, _, rfl, by decide, rfl, by decide, ⟨by decide, trivial⟩, rfl⟩, by decide⟩,
    ⟨_, _, rfl, by decide, by decide⟩, ⟨_, _, rfl, by decide, by decide⟩⟩

end Verif.LineStyle
