import Verif.Chop.Files
/-!
# Properties C108–C112: cutting channels into chunks in the alignment of two time-marked files

`slice l a b` are the elements of `l` from the `a`th to the `b`th.  `channel` gives the chunks into which the words `Rs`–`Re` of
the reference and `Hs`–`He` of the hypothesis are cut, `scored` the chunks with the file and channel under which they are scored,
`alignFiles` those of all files and channels.
-/
set_option autoImplicit false
namespace Verif.Chop
open Verif.Chan (Tok Word Sp Item mark wordsOf)

section
variable {K : Type} {ref hyp : List (Tok K)} {Rs Re Hs He : Int}

/-! ## C108 Every word is in exactly one chunk -/

/-- **C108** The cutting of a channel always ends.  Unless an alternation stands at the very beginning of the reference file, it
gives chunks that are not empty and that contain, one after the other, exactly the words of the channel in both files. -/
theorem chunks_partition (h1 : 1 ≤ Rs) (h2 : Rs ≤ Re) (h3 : Re ≤ ref.length) (g1 : 1 ≤ Hs) (g2 : Hs ≤ He) (g3 : He ≤ hyp.length)
    (hfirst : ∀ t, ref.head? = some t → Rs = 1 → t.alternate = false) :
    ∃ cs, channel ref hyp Rs Re Hs He = .ok cs ∧ cs.flatMap (fun c => slice ref c.rb c.re) = slice ref Rs Re ∧
      cs.flatMap (fun c => slice hyp c.hb c.he) = slice hyp Hs He ∧
      ∀ c ∈ cs, slice ref c.rb c.re ≠ [] ∨ slice hyp c.hb c.he ≠ [] := by
  have h := channel_sat (ref := ref) (hyp := hyp) (Rs := Rs) (Re := Re) (Hs := Hs) (He := He) ⟨h1, by omega, by omega, h3⟩
    ⟨g1, by omega, by omega, g3⟩
  cases hc : channel ref hyp Rs Re Hs He with
  | undef =>
    rw [hc] at h
    obtain ⟨e, w, hw, ha⟩ := h
    have : ref.head? = some w := by rw [List.head?_eq_getElem?]; exact hw.2
    rw [hfirst w this e] at ha; cases ha
  | hang => rw [hc] at h; exact h.elim
  | fail => rw [hc] at h; exact h.elim
  | ok cs =>
    rw [hc] at h
    have h : Cuts ref hyp Re He Rs Hs cs := h
    exact ⟨cs, rfl, h.ref_words h1, h.hyp_words g1, h.nonempty h1 g1 h3 g3⟩

/-- **C108** Whatever the words, the cutting of a channel ends, and if memory outside of the tables is not read it gives the
words of the channel once each and in order. -/
theorem chunks_end (h1 : 1 ≤ Rs) (h2 : Rs ≤ Re) (h3 : Re ≤ ref.length) (g1 : 1 ≤ Hs) (g2 : Hs ≤ He) (g3 : He ≤ hyp.length) :
    channel ref hyp Rs Re Hs He ≠ .hang ∧ channel ref hyp Rs Re Hs He ≠ .fail ∧
      ∀ cs, channel ref hyp Rs Re Hs He = .ok cs →
        cs.flatMap (fun c => slice ref c.rb c.re) = slice ref Rs Re ∧ cs.flatMap (fun c => slice hyp c.hb c.he) = slice hyp Hs He := by
  have h := channel_sat (ref := ref) (hyp := hyp) (Rs := Rs) (Re := Re) (Hs := Hs) (He := He) ⟨h1, by omega, by omega, h3⟩
    ⟨g1, by omega, by omega, g3⟩
  refine ⟨fun e => ?_, fun e => ?_, fun cs e => ?_⟩
  · rw [e] at h; exact h
  · rw [e] at h; exact h
  · rw [e] at h
    have h : Cuts ref hyp Re He Rs Hs cs := h
    exact ⟨h.ref_words h1, h.hyp_words g1⟩

end

/-- `n` words of one second each, the first at the time `t`. -/
def talk (k : Nat) (t : Rat) (n : Nat) : List (Tok Nat) :=
  (List.range n).map fun (i : Nat) => ⟨⟨k, t + (((i : Nat) : Int) : Rat), 1, Sp.word "a"⟩, false⟩

/-- A short alternation at the time `t`. -/
def alternation (k : Nat) (t : Rat) : List (Tok Nat) :=
  [⟨⟨k, t, 0, Sp.alt⟩, true⟩, ⟨⟨k, t, 1, Sp.word "b"⟩, true⟩, ⟨⟨k, t, 0, Sp.alt⟩, true⟩, ⟨⟨k, t, 1, Sp.word "c"⟩, true⟩,
    ⟨⟨k, t, 0, Sp.altEnd⟩, true⟩]

example : channel (talk 0 0 60) (talk 0 0 60) 1 60 1 60 = .ok [⟨1, 51, 1, 51⟩, ⟨52, 60, 52, 60⟩] := by decide +kernel

/-- **C108** With an alternation at the beginning of the reference, the words of which all come after the first fifty of the
hypothesis, the entry before the table is read. -/
theorem chunks_undefined : ∃ ref hyp : List (Tok Nat), channel ref hyp 1 ref.length 1 hyp.length = .undef :=
  ⟨alternation 0 100 ++ talk 0 101 5, talk 0 0 60, by decide +kernel⟩

/-! ## C109 Alternations -/

/-- **C109 (partial)** An alternation of the reference is never cut: the reference words of each chunk are whole items, words
outside of alternations and whole alternations.  Missing: the same for the alternations of the hypothesis, which are cut
(`hypothesis_alternation_cut`). -/
theorem alternations_whole_partial {K : Type} {ref hyp : List (Tok K)} {Hs He : Int} {pre its post : List (Item K)}
    (hv : ∀ it ∈ pre ++ its ++ post, it.Valid) (href : ref = mark none (wordsOf (pre ++ its ++ post))) (hne : its ≠ [])
    (g1 : 1 ≤ Hs) (g2 : Hs ≤ He) (g3 : He ≤ hyp.length) {cs : List Chunk}
    (h : channel ref hyp ((wordsOf pre).length + 1) ((wordsOf pre).length + (wordsOf its).length) Hs He = .ok cs) :
    ∃ parts : List (List (Item K)), parts.flatten = its ∧
      cs.map (fun c => (slice ref c.rb c.re).map (·.w)) = parts.map wordsOf := by
  have e1 : ref = (pre ++ its ++ post).flatMap Chan.toks := by
    rw [href]; exact Chan.mark_items _ none (fun t h => by cases h) hv
  have tw : ∀ l : List (Item K), (l.flatMap Chan.toks).map (·.w) = wordsOf l := by
    intro l
    unfold wordsOf
    rw [List.map_flatMap]
    congr 1; funext x; exact Chan.toks_words x
  have tl : ∀ l : List (Item K), (l.flatMap Chan.toks).length = (wordsOf l).length := fun l => by
    rw [← tw l, List.length_map]
  rw [List.flatMap_append, List.flatMap_append, List.append_assoc] at e1
  have hb : its.flatMap Chan.toks ≠ [] := by
    obtain ⟨x, xs, rfl⟩ := List.exists_cons_of_ne_nil hne
    rw [List.flatMap_cons]
    exact fun h => toks_ne x (List.append_eq_nil_iff.1 h).1
  have hr := range_mid e1 hb
  have hm := slice_mid e1
  rw [tl, tl] at hr hm
  have hs := channel_sat (hyp := hyp) (Hs := Hs) (He := He) hr ⟨g1, by omega, by omega, g3⟩
  rw [h] at hs
  have hs : Cuts ref hyp _ He _ Hs cs := hs
  obtain ⟨parts, p1, p2⟩ := hs.items hr.one its hm.symm
  refine ⟨parts, p1, ?_⟩
  have := congrArg (List.map (List.map (fun (t : Tok K) => t.w))) p2
  rw [List.map_map, List.map_map] at this
  refine this.symm.trans ?_
  congr 1
  funext l
  exact tw l

/-- An alternation between words. -/
def blockAt (k : Nat) (t : Rat) : Item Nat :=
  .block ⟨k, t, 0, Sp.alt⟩ [⟨k, t, 1, Sp.word "b"⟩, ⟨k, t, 0, Sp.alt⟩, ⟨k, t, 1, Sp.word "c"⟩] ⟨k, t, 0, Sp.altEnd⟩

/-- Single words of one second each. -/
def singles (k : Nat) (t : Rat) (n : Nat) : List (Item Nat) :=
  (List.range n).map fun (i : Nat) => .single ⟨k, t + (((i : Nat) : Int) : Rat), 1, Sp.word "a"⟩

-- the fiftieth to fifty-fourth words of the reference are an alternation; the first cut is before it
example : channel (mark none (wordsOf (singles 0 0 49 ++ [blockAt 0 49] ++ singles 0 50 20))) (talk 0 0 70) 1 74 1 70 =
    .ok [⟨1, 49, 1, 49⟩, ⟨50, 74, 50, 70⟩] := by decide +kernel
example : ∀ it ∈ singles 0 0 2 ++ [blockAt 0 49] ++ singles 0 50 1, it.Valid := by
  intro it h
  have : it = .single ⟨0, 0 + 0, 1, Sp.word "a"⟩ ∨ it = .single ⟨0, 0 + 1, 1, Sp.word "a"⟩ ∨ it = blockAt 0 49 ∨
      it = .single ⟨0, 50 + 0, 1, Sp.word "a"⟩ := by
    simpa [singles, List.range, List.range.loop] using h
  rcases this with rfl | rfl | rfl | rfl
  · exact ⟨"a", rfl⟩
  · exact ⟨"a", rfl⟩
  · exact ⟨rfl, by decide, rfl⟩
  · exact ⟨"a", rfl⟩

/-- The lines of an alternation at the time `t` with `*` for the times of its marks. -/
def starred (k : Nat) (t : Rat) : List (Tok Nat) :=
  [⟨⟨k, 0, 0, Sp.alt⟩, true⟩, ⟨⟨k, t, 1, Sp.word "b"⟩, true⟩, ⟨⟨k, 0, 0, Sp.alt⟩, true⟩, ⟨⟨k, t, 1, Sp.word "c"⟩, true⟩,
    ⟨⟨k, 0, 0, Sp.altEnd⟩, true⟩]

/-- **C109** A cut within an alternation of the hypothesis: the first chunk ends after the first of its five lines.  In addition
the first word of the reference alone is aligned with the forty-nine words before the alternation. -/
theorem hypothesis_alternation_cut : ∃ ref hyp : List (Tok Nat), ∃ cs, hyp = mark none (hyp.map (·.w)) ∧
    hyp = talk 0 0 49 ++ starred 0 49 ++ talk 0 50 20 ∧
    channel ref hyp 1 ref.length 1 hyp.length = .ok (⟨1, 1, 1, 50⟩ :: cs) :=
  ⟨talk 0 0 70, talk 0 0 49 ++ starred 0 49 ++ talk 0 50 20, [⟨2, 52, 51, 56⟩, ⟨53, 70, 57, 74⟩], by decide +kernel, rfl,
    by decide +kernel⟩

/-! ## C110 Cuts are made in silences -/

/-- **C110 (partial)** In files whose words do not overlap, a chunk with at least two words of both files ends in a silence common
to the two: all words up to there, of the reference and of the hypothesis, are over when any of the later words of either begins.
Missing: the same for the other chunks (`cut_within_speech`). -/
theorem cut_in_silence_partial {K : Type} {ref hyp : List (Tok K)} {Rs Re Hs He : Int} (h1 : 1 ≤ Rs) (h2 : Rs ≤ Re) (h3 : Re ≤ ref.length)
    (g1 : 1 ≤ Hs) (g2 : Hs ≤ He) (g3 : He ≤ hyp.length) (ho : InOrder ((slice ref Rs Re).map (·.w)))
    (go : InOrder ((slice hyp Hs He).map (·.w))) {xs ys : List Chunk} {c : Chunk}
    (h : channel ref hyp Rs Re Hs He = .ok (xs ++ c :: ys)) (hc1 : 2 ≤ (slice ref c.rb c.re).length) (hc2 : 2 ≤ (slice hyp c.hb c.he).length) :
    Before ((xs ++ [c]).flatMap fun d => (slice ref d.rb d.re ++ slice hyp d.hb d.he).map (·.w))
      (ys.flatMap fun d => (slice ref d.rb d.re ++ slice hyp d.hb d.he).map (·.w)) := by
  have hs := channel_sat (ref := ref) (hyp := hyp) (Rs := Rs) (Re := Re) (Hs := Hs) (He := He) ⟨h1, by omega, by omega, h3⟩
    ⟨g1, by omega, by omega, g3⟩
  rw [h] at hs
  obtain ⟨hg, b1, b2, hy, e1, e2⟩ := Cuts.split hs h1 g1
  have y1 := hy.ref_words (by have := hg.r1; omega)
  have y2 := hy.hyp_words (by have := hg.h1; omega)
  obtain ⟨r1, r2, s1, s2, -, good⟩ := hg
  rw [slice_length ref (by omega) (by omega)] at hc1
  rw [slice_length hyp (by omega) (by omega)] at hc2
  rcases good with ⟨q1, q2⟩ | ⟨-, gm⟩
  · have : ys = [] := by
      cases hy with
      | nil => rfl
      | cons _ _ R H cs hne => omega
    rw [this]
    intro a _ b hb
    cases hb
  · obtain ⟨r, hh, rg, hg, i1, i2, i3, i4, ov⟩ := gm (by omega) (by omega)
    obtain ⟨u1, u2⟩ := around h1 (by omega) i1 ho i3
    obtain ⟨v1, v2⟩ := around g1 (by omega) i2 go i4
    obtain ⟨w1, w2, w3, w4⟩ := overlap_nonneg ov
    have split : ∀ (l : List Chunk) (x : Word K), x ∈ (l.flatMap fun d => (slice ref d.rb d.re ++ slice hyp d.hb d.he).map (·.w)) →
        (∃ t ∈ l.flatMap (fun d => slice ref d.rb d.re), t.w = x) ∨ (∃ t ∈ l.flatMap (fun d => slice hyp d.hb d.he), t.w = x) := by
      intro l x hx
      obtain ⟨d, hd, hx⟩ := List.mem_flatMap.1 hx
      obtain ⟨t, ht, rfl⟩ := List.mem_map.1 hx
      rcases List.mem_append.1 ht with ht | ht
      · exact Or.inl ⟨t, List.mem_flatMap.2 ⟨d, hd, ht⟩, rfl⟩
      · exact Or.inr ⟨t, List.mem_flatMap.2 ⟨d, hd, ht⟩, rfl⟩
    intro a ha b hb
    have ha' := split _ a ha
    have hb' := split _ b hb
    rw [e1, e2] at ha'
    rw [y1, y2] at hb'
    rcases ha' with ⟨t, ht, rfl⟩ | ⟨t, ht, rfl⟩ <;> rcases hb' with ⟨s, hs, rfl⟩ | ⟨s, hs, rfl⟩
    · have := u1 t ht; have := u2 s hs; grind
    · have := u1 t ht; have := v2 s hs; grind
    · have := v1 t ht; have := u2 s hs; grind
    · have := v1 t ht; have := v2 s hs; grind

example : InOrder ((slice (talk 0 0 60) 1 60).map (·.w)) := by
  unfold InOrder; decide +kernel

/-- **C110** Sixty words spoken without a pause, found by the recogniser a tenth of a second late: the first chunk has the first
two words of the reference and only the first of the hypothesis, whose second word goes with the third of the reference. -/
theorem cut_within_speech : ∃ cs, channel (talk 0 0 60) (talk 0 (1 / 10) 60) 1 60 1 60 = .ok (⟨1, 2, 1, 1⟩ :: ⟨3, 3, 2, 3⟩ :: cs) ∧
    InOrder ((talk 0 0 60).map (·.w)) ∧ InOrder ((talk 0 (1 / 10) 60).map (·.w)) :=
  ⟨[⟨4, 5, 4, 4⟩, ⟨6, 6, 5, 6⟩, ⟨7, 8, 7, 7⟩, ⟨9, 9, 8, 9⟩, ⟨10, 60, 10, 60⟩], by decide +kernel, by unfold InOrder; decide +kernel,
    by unfold InOrder; decide +kernel⟩

/-! ## C111 The file and channel of a chunk -/

/-- **C111 (partial)** A chunk is scored under the file and channel of the words, as long as a word of the reference is in it or in
a later chunk of the channel.  Missing: the chunks after the last word of the reference (`other_channel`, `no_channel`). -/
theorem own_channel_partial {K : Type} {ref hyp : List (Tok K)} {Rs Re Hs He : Int} (h1 : 1 ≤ Rs) (h2 : Rs ≤ Re) (h3 : Re ≤ ref.length)
    (g1 : 1 ≤ Hs) (g2 : Hs ≤ He) (g3 : He ≤ hyp.length) {k : K} (hk : ∀ t ∈ slice ref Rs Re, t.w.key = k)
    {xs ys : List (K × Chunk)} {p : K × Chunk} (h : scored ref hyp Rs Re Hs He = .ok (xs ++ p :: ys))
    (hr : ((p :: ys).flatMap fun q => slice ref q.2.rb q.2.re) ≠ []) : p.1 = k := by
  obtain ⟨hc, hl⟩ := scored_ok ⟨h1, by omega, by omega, h3⟩ ⟨g1, by omega, by omega, g3⟩ h
  rw [List.map_append, List.map_cons] at hc
  obtain ⟨hg, b1, b2, hy, -, -⟩ := Cuts.split hc h1 g1
  obtain ⟨w, hw, e⟩ := hl p (List.mem_append_right _ List.mem_cons_self)
  have y1 := hy.ref_words (by have := hg.r1; omega)
  rw [List.flatMap_map] at y1
  rw [List.flatMap_cons, y1, slice_append ref (by omega) hg.r1 hg.r2] at hr
  have hle : p.2.rb ≤ Re := by
    by_cases hlt : p.2.rb ≤ Re
    · exact hlt
    · exact absurd (slice_empty ref (by omega)) hr
  rw [← e]
  refine hk w ?_
  rw [← slice_append ref (b := p.2.rb - 1) (c := Re) h1 (by omega) (by omega), show p.2.rb - 1 + 1 = p.2.rb by omega, slice_head hw hle]
  exact List.mem_append_right _ List.mem_cons_self

example : scored (talk 7 0 60) (talk 7 0 60) 1 60 1 60 = .ok [(7, ⟨1, 51, 1, 51⟩), (7, ⟨52, 60, 52, 60⟩)] := by decide +kernel

/-- **C111** The words of the hypothesis after the last of the reference's are scored under another channel: that of the word that
follows in the reference file. -/
theorem other_channel : scored (talk 1 0 1 ++ talk 2 0 5) (talk 1 0 60 ++ talk 2 0 5) 1 1 1 60 = .ok [(1, ⟨1, 1, 1, 2⟩), (2, ⟨2, 1, 3, 60⟩)] := by
  decide +kernel

/-- **C111** If there is none, an entry of the table that was not filled is read. -/
theorem no_channel : scored (talk 1 0 1) (talk 1 0 60) 1 1 1 60 = .undef := by decide +kernel

/-! ## C112 All words of the files are scored -/

section
variable {F C : Type} [DecidableEq F] [DecidableEq C]

/-- **C112 (partial)** Two time-marked files with the same files in the same order, each with one or two channels in both, are
never refused, and every word of both is scored exactly once and in order, provided that a second channel at the end of the files
has more than one word.  Missing: more than two channels (`third_channel_lost`), and a last channel of one word
(`last_word_lost`); memory that was not filled may be read (C108, C111). -/
theorem all_words_scored_partial (cs : List (Conv F C)) (hne : cs ≠ []) (hok : ∀ c ∈ cs, c.Ok) (hd : Distinct cs)
    (hlast : ∀ c p, cs.getLast? = some c → c.second = some p → 2 ≤ p.1.length ∧ 2 ≤ p.2.length) :
    alignFiles (cs.flatMap Conv.ref) (cs.flatMap Conv.hyp) ≠ .fail ∧
      ∀ ls, alignFiles (cs.flatMap Conv.ref) (cs.flatMap Conv.hyp) = .ok ls →
        (ls.flatMap fun p => slice (cs.flatMap Conv.ref) p.2.rb p.2.re) = cs.flatMap Conv.ref ∧
        (ls.flatMap fun p => slice (cs.flatMap Conv.hyp) p.2.hb p.2.he) = cs.flatMap Conv.hyp := by
  have hlen : cs.length ≤ (cs.flatMap Conv.ref).length := by
    clear hne hd hlast
    induction cs with
    | nil => exact Nat.zero_le _
    | cons c cs ih =>
      have := ih fun d h => hok d (List.mem_cons_of_mem _ h)
      have := List.length_pos_iff.2 (ref_ne (hok c List.mem_cons_self))
      rw [List.flatMap_cons, List.length_append, List.length_cons]
      omega
  have h := files_cover (ref := cs.flatMap Conv.ref) (hyp := cs.flatMap Conv.hyp) cs [] [] ((cs.flatMap Conv.ref).length + 1) hne hok hd hlast
    rfl rfl (by omega)
  refine ⟨fun e => ?_, fun ls e => ?_⟩
  · have e' : files (cs.flatMap Conv.ref) (cs.flatMap Conv.hyp) ((cs.flatMap Conv.ref).length + 1) (([] : List (Tok (F × C))).length + 1)
        (([] : List (Tok (F × C))).length + 1) = .fail := e
    rw [e'] at h; exact h
  · have e' : files (cs.flatMap Conv.ref) (cs.flatMap Conv.hyp) ((cs.flatMap Conv.ref).length + 1) (([] : List (Tok (F × C))).length + 1)
        (([] : List (Tok (F × C))).length + 1) = .ok ls := e
    rw [e'] at h
    exact h

/-- **C112** The alignment of two files ends, whatever they contain. -/
theorem files_end (ref hyp : List (Tok (F × C))) : alignFiles ref hyp ≠ .hang := by
  intro h
  have := files_ends (ref := ref) (hyp := hyp) (ref.length + 1) 1 1 (by omega) (by omega) (by omega)
  unfold alignFiles at h
  rw [h] at this
  exact this

end

/-- Words of a file and channel. -/
def said (f c : Nat) (n : Nat) : List (Tok (Nat × Nat)) :=
  (List.range n).map fun (i : Nat) => ⟨⟨(f, c), (((i : Nat) : Int) : Rat), 1, Sp.word "a"⟩, false⟩

/-- A file of two channels and a file of one. -/
def sample : List (Conv Nat Nat) :=
  [⟨1, said 1 1 2, said 1 1 3, some (said 1 2 1, said 1 2 2)⟩, ⟨2, said 2 1 1, said 2 1 1, none⟩]

example : alignFiles (sample.flatMap Conv.ref) (sample.flatMap Conv.hyp) =
    .ok [((1, 1), ⟨1, 2, 1, 3⟩), ((1, 2), ⟨3, 3, 4, 5⟩), ((2, 1), ⟨4, 4, 6, 6⟩)] := by decide +kernel
example : Distinct sample := ⟨(by intro d h; cases h; decide), (by intro d h; cases h), trivial⟩
example : ∀ c ∈ sample, c.Ok := by
  intro c hc
  rcases List.mem_cons.1 hc with rfl | hc
  · exact ⟨1, 1, ⟨by decide, by decide +kernel⟩, ⟨by decide, by decide +kernel⟩, fun p hp => by
      cases hp; exact ⟨2, 2, by decide, by decide, ⟨by decide, by decide +kernel⟩, ⟨by decide, by decide +kernel⟩⟩⟩
  · rw [List.mem_singleton.1 hc]
    exact ⟨1, 1, ⟨by decide, by decide +kernel⟩, ⟨by decide, by decide +kernel⟩, fun p hp => by cases hp⟩

/-- **C112** The words of a third channel are not scored, and nothing is said. -/
theorem third_channel_lost : alignFiles (said 1 1 2 ++ said 1 2 2 ++ said 1 3 2) (said 1 1 2 ++ said 1 2 2 ++ said 1 3 2) =
    .ok [((1, 1), ⟨1, 2, 1, 2⟩), ((1, 2), ⟨3, 4, 3, 4⟩)] := by decide +kernel

/-- **C112** A second channel that consists of the last word of the file is not scored. -/
theorem last_word_lost : alignFiles (said 1 1 2 ++ said 1 2 1) (said 1 1 2 ++ said 1 2 1) = .ok [((1, 1), ⟨1, 2, 1, 2⟩)] := by decide +kernel

/-- **C112** With more words in the other file, the second channel is reported as missing from the file that has it. -/
theorem last_word_refused : alignFiles (said 1 1 2 ++ said 1 2 1) (said 1 1 2 ++ said 1 2 2) = .fail := by decide +kernel

/-- **C112** The names of the channels are not compared: the words of channel 2 are aligned with those of channel 3. -/
theorem channels_not_compared : alignFiles (said 1 2 2) (said 1 3 2) = .ok [((1, 2), ⟨1, 2, 1, 2⟩)] := by decide +kernel

/-- **C112** A reference file with one word more than the hypothesis is not refused; a word that was not filled is read. -/
theorem one_word_left : alignFiles (said 1 1 1 ++ said 2 1 1) (said 1 1 1) = .undef := by decide +kernel

end Verif.Chop
