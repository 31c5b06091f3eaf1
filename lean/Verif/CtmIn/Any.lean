import Verif.CtmIn.Run
/-!
# Files of any form
-/
set_option autoImplicit false
namespace Verif.CtmIn

/-- All numbers belong to tokens and segments. -/
structure Sane (st : St) : Prop where
  ok : NetOk st.net
  precTok : ∀ p, st.precTok = some p → p < st.net.toks.length
  precAltTok : ∀ p, st.precAltTok = some p → p < st.net.toks.length
  altSeg : ∀ g, st.altSeg = some g → g < st.net.segs.length
  segs : ∀ s ∈ st.net.segs, ∀ i ∈ s.lasts, i < st.net.toks.length

theorem lastsOf_lt {n : Net} {k b : Nat} (h : ∀ s, n.segs[b]? = some s → ∀ i ∈ s.lasts, i < k) : ∀ i ∈ lastsOf n b, i < k := by
  intro i hi
  unfold lastsOf at hi
  split at hi
  · rename_i s hs
    exact h s hs i hi
  · cases hi

theorem addLastAt_some {n n' : Net} {g t : Option Nat} (h : addLastAt n g t = .ok n') :
    n'.toks = n.toks ∧ n'.next = n.next ∧ n'.prec = n.prec ∧
      ∃ t0 g0 s, t = some t0 ∧ g = some g0 ∧ n.segs[g0]? = some s ∧ n'.segs = n.segs.set g0 (closeSeg s t0) := by
  unfold addLastAt at h
  split at h
  · rename_i g t
    split at h
    · rename_i s tok hs ht
      unfold addLast at h
      by_cases hc : tok.word.stop ≠ -1 ∧ tok.word.stop > s.stop
      · rw [if_pos hc] at h
        cases h
      · rw [if_neg hc] at h
        cases h
        exact ⟨rfl, rfl, rfl, t, g, s, rfl, rfl, hs, rfl⟩
    · cases h
  · cases h

theorem mem_set_lasts {segs : List Seg} {g t0 : Nat} {s : Seg} (hs : segs[g]? = some s) {k : Nat} (ht : t0 < k)
    (h : ∀ x ∈ segs, ∀ i ∈ x.lasts, i < k) : ∀ x ∈ segs.set g (closeSeg s t0), ∀ i ∈ x.lasts, i < k := by
  intro x hx i hi
  rcases List.mem_or_eq_of_mem_set hx with hx | hx
  · exact h x hx i hi
  · rw [hx] at hi
    rcases List.mem_append.1 hi with hi | hi
    · exact h s (List.mem_of_getElem? hs) i hi
    · rw [List.mem_singleton.1 hi]; exact ht

/-- The links of a new token to earlier tokens keep the state in order. -/
theorem sane_push {st st' : St} (hs : Sane st) {m : Net} {w : Word} {g : Nat} {ps : List Nat} (ht : m.toks = st.net.toks ++ [⟨w, g⟩])
    (hn : m.next = st.net.next) (hp : m.prec = st.net.prec) (hps : ∀ p ∈ ps, p < st.net.toks.length)
    (hnet : st'.net = linkAll m ps st.net.toks.length)
    (hsegs : ∀ s ∈ m.segs, ∀ i ∈ s.lasts, i < st.net.toks.length + 1)
    (h1 : ∀ p, st'.precTok = some p → p < st.net.toks.length + 1) (h2 : ∀ p, st'.precAltTok = some p → p < st.net.toks.length + 1)
    (h3 : ∀ g, st'.altSeg = some g → g < m.segs.length) : Sane st' ∧ ∃ g, st'.net.toks = st.net.toks ++ [⟨w, g⟩] := by
  have hpu := pushed_linkAll hs.ok ht hn hp ps
  rw [← hnet] at hpu
  have hsg : st'.net.segs = m.segs := by rw [hnet, (linkAll_toks ..).2]
  have hlen : st'.net.toks.length = st.net.toks.length + 1 := by rw [hpu.toks]; simp
  refine ⟨⟨hpu.ok hs.ok hps, ?_, ?_, ?_, ?_⟩, g, hpu.toks⟩
  · rw [hlen]; exact h1
  · rw [hlen]; exact h2
  · rw [hsg]; exact h3
  · rw [hsg, hlen]; exact hsegs

theorem Sane.tok_lt {st : St} (hs : Sane st) {p : Nat} (h : st.precTok = some p) : p < st.net.toks.length + 1 := by
  have := hs.precTok p h
  omega

theorem Sane.alt_lt {st : St} (hs : Sane st) {p : Nat} (h : st.precAltTok = some p) : p < st.net.toks.length + 1 := by
  have := hs.precAltTok p h
  omega

theorem Sane.segs_new {st : St} (hs : Sane st) (x : Seg) (hx : ∀ i ∈ x.lasts, i < st.net.toks.length + 1) :
    ∀ s ∈ st.net.segs ++ [x], ∀ i ∈ s.lasts, i < st.net.toks.length + 1 := by
  intro s hm i hi
  rcases List.mem_append.1 hm with hm | hm
  · have := hs.segs s hm i hi; omega
  · rw [List.mem_singleton.1 hm] at hi; exact hx i hi

theorem stretch_lasts (s : Seg) (w : Word) : (stretch s w).lasts = s.lasts := by unfold stretch; split <;> rfl

theorem closed_lasts {st : St} (hs : Sane st) {segs' : List Seg} {x : Seg} {g0 t0 : Nat} {s : Seg} (hseg : (st.net.segs ++ [x])[g0]? = some s)
    (hg0 : g0 < st.net.segs.length) (ht0 : t0 < st.net.toks.length) (h' : segs' = (st.net.segs ++ [x]).set g0 (closeSeg s t0)) (n : Net)
    (hn : n.segs = segs') : ∀ p ∈ lastsOf n g0, p < st.net.toks.length := by
  apply lastsOf_lt
  intro s2 hs2 i hi
  rw [hn, h', List.getElem?_set_self (by rw [List.length_append]; omega)] at hs2
  cases hs2
  rw [List.getElem?_append_left hg0] at hseg
  rcases List.mem_append.1 hi with hi | hi
  · exact hs.segs s (List.mem_of_getElem? hseg) i hi
  · rw [List.mem_singleton.1 hi]; exact ht0

/-- Every word adds one token. -/
theorem onWord_grown {st st' : St} (hs : Sane st) {file chan : List Nat} {w : Word} (h : onWord st file chan w = .ok st') :
    Sane st' ∧ ∃ g, st'.net.toks = st.net.toks ++ [⟨w, g⟩] := by
  unfold onWord at h
  split at h
  · -- after ALT_BEGIN
    unfold onBegin at h
    simp only at h
    have hnew : ∀ s ∈ (openSeg st.net file chan w).segs, ∀ i ∈ s.lasts, i < st.net.toks.length + 1 := hs.segs_new _ (by simp)
    split at h
    · cases h
      exact sane_push hs (m := openSeg st.net file chan w) (w := w) (g := st.net.segs.length) (ps := []) rfl rfl rfl (by simp) rfl hnew
        (fun p hp => hs.tok_lt hp) (fun p hp => by cases hp; omega) (fun g hg => by cases hg; simp [openSeg])
    · split at h
      · split at h
        · rename_i n' hl
          cases h
          obtain ⟨a1, a2, a3, t0, g0, s, b1, b2, b3, b4⟩ := addLastAt_some hl
          have hg0 := hs.altSeg g0 b2
          have ht0 := hs.precAltTok t0 b1
          have hps : ∀ p ∈ lastsOf n' (st.altSeg.getD 0), p < st.net.toks.length := by
            rw [b2, Option.getD_some]
            exact closed_lasts hs b3 hg0 ht0 b4 n' rfl
          refine sane_push hs (m := n') (w := w) (g := st.net.segs.length) a1 a2 a3 hps rfl ?_
            (fun p hp => hs.tok_lt hp) (fun p hp => by cases hp; omega) (fun g hg => by cases hg; rw [b4]; simp [openSeg])
          rw [b4]
          exact mem_set_lasts b3 (by omega) hnew
        · cases h
        · cases h
      · split at h
        · rename_i p hp
          cases h
          exact sane_push hs (m := openSeg st.net file chan w) (w := w) (g := st.net.segs.length) (ps := [p]) rfl rfl rfl
            (by simpa using hs.precTok p hp) rfl hnew
            (fun p hp => hs.tok_lt hp) (fun p hp => by cases hp; omega) (fun g hg => by cases hg; simp [openSeg])
        · cases h
  · split at h
    · -- after ALT
      unfold onAlt at h
      split at h
      · cases h
      · rename_i g hg
        split at h
        · cases h
        · rename_i s hseg
          split at h
          · rename_i s' hf
            simp only at h
            split at h
            · rename_i n2 hl
              cases h
              obtain ⟨a1, a2, a3, t0, g0, s2, b1, b2, b3, b4⟩ := addLastAt_some hl
              cases b2
              have ht0 := hs.precAltTok t0 b1
              have hs' : s'.lasts = s.lasts := by
                unfold addFirst at hf
                split at hf
                · cases hf
                · cases hf
                  exact stretch_lasts s w
              have hold : ∀ x ∈ (setSeg (addTok st.net w g) g s').segs, ∀ i ∈ x.lasts, i < st.net.toks.length := by
                intro x hx i hi
                rcases List.mem_or_eq_of_mem_set hx with hx | hx
                · exact hs.segs x hx i hi
                · rw [hx, hs'] at hi
                  exact hs.segs s (List.mem_of_getElem? hseg) i hi
              have hnew : ∀ x ∈ (setSeg (addTok st.net w g) g s').segs, ∀ i ∈ x.lasts, i < st.net.toks.length + 1 := by
                intro x hx i hi
                have := hold x hx i hi
                omega
              obtain ⟨ps, hps, hlk⟩ : ∃ ps, (∀ p ∈ ps, p < st.net.toks.length) ∧
                  altLinks st (setSeg (addTok st.net w g) g s') st.net.toks.length =
                    linkAll (setSeg (addTok st.net w g) g s') ps st.net.toks.length := by
                unfold altLinks
                split
                · split
                  · rename_i p hp
                    exact ⟨[p], by simpa using hs.precTok p hp, rfl⟩
                  · exact ⟨[], by simp, rfl⟩
                · rename_i b hb
                  exact ⟨_, lastsOf_lt (fun x hx i hi => hold x (List.mem_of_getElem? hx) i hi), rfl⟩
              rw [hlk] at hl a1 a2 a3 b3 b4
              obtain ⟨c1, c2⟩ := linkAll_toks (setSeg (addTok st.net w g) g s') ps st.net.toks.length
              rw [c1] at a1
              rw [c2] at b3 b4
              have hlen : n2.segs.length = st.net.segs.length := by rw [b4]; simp [setSeg, addTok]
              have hpu := pushed_linkAll hs.ok (m := setSeg (addTok st.net w g) g s') (w := w) (g := g) rfl rfl rfl ps
              have hpu2 : Pushed st.net n2 w g ps := ⟨a1, by rw [a3]; exact hpu.precNew, by rw [a3]; exact hpu.precOld, by rw [a2]; exact hpu.next⟩
              have hl2 : n2.toks.length = st.net.toks.length + 1 := by rw [hpu2.toks]; simp
              refine ⟨⟨hpu2.ok hs.ok hps, ?_, ?_, ?_, ?_⟩, g, hpu2.toks⟩
              · intro p hp
                show p < n2.toks.length
                rw [hl2]; exact hs.tok_lt hp
              · intro p hp
                cases hp
                show _ < n2.toks.length
                omega
              · intro x hx
                show x < n2.segs.length
                rw [hlen]; exact hs.altSeg x (hg.symm ▸ hx)
              · show ∀ x ∈ n2.segs, ∀ i ∈ x.lasts, i < n2.toks.length
                rw [hl2, b4]
                exact mem_set_lasts b3 (by omega) hnew
            · cases h
            · cases h
          · cases h
          · cases h
    · split at h
      · -- inside
        unfold onInside at h
        split at h
        · rename_i g p hg hp
          split at h
          · cases h
          · rename_i s hseg
            cases h
            refine sane_push hs (m := setSeg (addTok st.net w g) g (stretch s w)) (w := w) (g := g) (ps := [p]) rfl rfl rfl
              (by simpa using hs.precAltTok p hp) rfl ?_ (fun p hp => hs.tok_lt hp) (fun p hp => by cases hp; omega)
              (fun x hx => by simpa [setSeg, addTok] using hs.altSeg x hx)
            intro x hx i hi
            rcases List.mem_or_eq_of_mem_set hx with hx | hx
            · have := hs.segs x hx i hi; omega
            · rw [hx, stretch_lasts] at hi
              have := hs.segs s (List.mem_of_getElem? hseg) i hi; omega
        · cases h
      · split at h
        · -- after ALT_END
          unfold onEnd at h
          simp only at h
          split at h
          · rename_i n' hl
            cases h
            obtain ⟨a1, a2, a3, t0, g0, s, b1, b2, b3, b4⟩ := addLastAt_some hl
            have hg0 := hs.altSeg g0 b2
            have ht0 := hs.precAltTok t0 b1
            have hps : ∀ p ∈ lastsOf n' (st.altSeg.getD 0), p < st.net.toks.length := by
              rw [b2, Option.getD_some]
              exact closed_lasts hs b3 hg0 ht0 b4 n' rfl
            refine sane_push hs (m := n') (w := w) (g := st.altSeg.getD 0) a1 a2 a3 hps rfl ?_
              (fun p hp => by cases hp; omega) (fun p hp => by cases hp) (fun g hg => by cases hg)
            rw [b4]
            exact mem_set_lasts b3 (by omega) (hs.segs_new _ (by simp))
          · cases h
          · cases h
        · -- outside
          unfold onPlain at h
          simp only at h
          have hnew : ∀ s ∈ (wordSeg st.net file chan w st.net.segs.length).segs, ∀ i ∈ s.lasts, i < st.net.toks.length + 1 :=
            hs.segs_new _ (by simp)
          have halt : ∀ g, st.altSeg = some g → g < (wordSeg st.net file chan w st.net.segs.length).segs.length := by
            intro g hg
            have := hs.altSeg g hg
            simp only [wordSeg, List.length_append, List.length_singleton]
            omega
          split at h
          · cases h
            exact sane_push hs (m := wordSeg st.net file chan w st.net.segs.length) (w := w) (g := st.net.segs.length) (ps := []) rfl rfl rfl
              (by simp) rfl hnew (fun p hp => by cases hp; omega) (fun p hp => hs.alt_lt hp) halt
          · split at h
            · rename_i p hp
              cases h
              exact sane_push hs (m := wordSeg st.net file chan w st.net.segs.length) (w := w) (g := st.net.segs.length) (ps := [p]) rfl rfl rfl
                (by simpa using hs.precTok p hp) rfl hnew (fun p hp => by cases hp; omega) (fun p hp => hs.alt_lt hp) halt
            · cases h

theorem sane_st0 : Sane st0 := by
  refine ⟨⟨?_, ?_, ?_⟩, ?_, ?_, ?_, ?_⟩
  all_goals intros; simp_all [st0]

theorem step_sane {ms : List Nat → Int} {r r' : Rd} {line : List Nat} (hs : Sane r.st) (h : step ms r line = .ok r') : Sane r'.st := by
  unfold step at h
  split at h
  · cases h; exact hs
  split at h
  · cases h
  simp only at h
  generalize (if (scan line).length = 5 then false else if (scan line).length = 6 then true else r.useConf) = uc at h
  split at h
  · split at h
    · cases h; exact ⟨hs.ok, hs.precTok, hs.precAltTok, hs.altSeg, hs.segs⟩
    split at h
    · cases h; exact ⟨hs.ok, hs.precTok, hs.precAltTok, hs.altSeg, hs.segs⟩
    split at h
    · cases h; exact ⟨hs.ok, hs.precTok, hs.precAltTok, hs.altSeg, hs.segs⟩
    split at h
    · cases h
    split at h
    · rename_i st' hw
      cases h
      exact (onWord_grown hs hw).1
    · cases h
    · cases h
  · cases h

theorem run_sane {ms : List Nat → Int} {ls : List (List Nat)} {r r' : Rd} (hs : Sane r.st) (h : run ms r ls = .ok r') : Sane r'.st := by
  induction ls generalizing r with
  | nil => cases h; exact hs
  | cons l ls ih =>
    rw [run] at h
    split at h
    · rename_i r1 h1
      exact ih (step_sane hs h1) h
    · cases h
    · cases h

theorem run_split (ms : List Nat → Int) {a b : List (List Nat)} {r r' : Rd} (h : run ms r (a ++ b) = .ok r') :
    ∃ r1, run ms r a = .ok r1 ∧ run ms r1 b = .ok r' := by
  induction a generalizing r with
  | nil => exact ⟨r, rfl, h⟩
  | cons l a ih =>
    rw [List.cons_append, run] at h
    rw [run]
    revert h
    cases step ms r l with
    | ok r1 => exact fun h => ih h
    | fatal => exact fun h => by cases h
    | undef => exact fun h => by cases h

theorem run_one (ms : List Nat → Int) {l : List Nat} {ls : List (List Nat)} {r r' : Rd} (h : run ms r (l :: ls) = .ok r') :
    ∃ r1, step ms r l = .ok r1 ∧ run ms r1 ls = .ok r' := by
  rw [run] at h
  revert h
  cases step ms r l with
  | ok r1 => exact fun h => ⟨r1, rfl, h⟩
  | fatal => exact fun h => by cases h
  | undef => exact fun h => by cases h

/-- The words of the tokens. -/
def said (r : Rd) : List Word := r.st.net.toks.map Tok.word

theorem step_word_said {ms : List Nat → Int} {line : List Nat} {e : Entry} (h : WordLine ms line e) {r r' : Rd} (hs : Sane r.st)
    (hr : step ms r line = .ok r') : said r' = said r ++ [e.word] := by
  have hw := h
  obtain ⟨f, c, s, d, t, more, hd, ht, rfl⟩ := hw
  simp only [List.mem_cons, List.not_mem_nil, or_false, not_or] at ht
  obtain ⟨t1, t2, t3⟩ := ht
  cases ho : onWord r.st f c ⟨ms s, ms s + ms d, t, more.head?⟩ with
  | ok st' =>
    obtain ⟨r1, h1, h2⟩ := step_word h r ho
    rw [h1] at hr
    cases hr
    subst h2
    obtain ⟨_, g, hg⟩ := onWord_grown hs ho
    simp [said, hg]
  | fatal =>
    exfalso
    revert hr
    rw [step, if_neg hd.2.2.1, if_neg (scan_fits hd), scan_data hd]
    cases more with
    | nil =>
      change onWord r.st f c ⟨ms s, ms s + ms d, t, none⟩ = _ at ho
      simp [t1, t2, t3, ho]
    | cons m more =>
      change onWord r.st f c ⟨ms s, ms s + ms d, t, some m⟩ = _ at ho
      simp [t1, t2, t3, ho]
  | undef =>
    exfalso
    revert hr
    rw [step, if_neg hd.2.2.1, if_neg (scan_fits hd), scan_data hd]
    cases more with
    | nil =>
      change onWord r.st f c ⟨ms s, ms s + ms d, t, none⟩ = _ at ho
      simp [t1, t2, t3, ho]
    | cons m more =>
      change onWord r.st f c ⟨ms s, ms s + ms d, t, some m⟩ = _ at ho
      simp [t1, t2, t3, ho]

theorem step_tag_said {ms : List Nat → Int} {line tag : List Nat} (h : TagLine tag line) (ht : tag = tagBegin ∨ tag = tagEnd ∨ tag = tagAlt)
    {r r' : Rd} (hr : step ms r line = .ok r') : said r' = said r := by
  obtain ⟨buf, uc, hs⟩ := step_tag (ms := ms) h r
  rw [hr] at hs
  rcases ht with ht | ht | ht
  · rw [if_pos ht] at hs; cases hs; rfl
  · subst ht
    rw [if_neg (by decide), if_pos rfl] at hs; cases hs; rfl
  · subst ht
    rw [if_neg (by decide), if_neg (by decide), if_pos rfl] at hs; cases hs; rfl

theorem words_said {ms : List Nat → Int} {ls : List (List Nat)} {es : List Entry} (h : WordLines ms ls es) :
    ∀ {r r' : Rd}, Sane r.st → run ms r ls = .ok r' → said r' = said r ++ es.map Entry.word := by
  induction h with
  | nil => intro r r' _ hr; cases hr; simp
  | cons l e ls es hl _ ih =>
    intro r r' hs hr
    obtain ⟨r1, h1, h2⟩ := run_one ms hr
    rw [ih (step_sane hs h1) h2, step_word_said hl hs h1]
    simp

theorem alts_said {ms : List Nat → Int} {gl : List (List Nat)} {alts : List (List Entry)} (h : AltLines ms gl alts) :
    ∀ {r r' : Rd}, Sane r.st → run ms r gl = .ok r' → said r' = said r ++ alts.flatten.map Entry.word := by
  induction h with
  | last ls es e hw _ ht =>
    intro r r' hs hr
    obtain ⟨r1, h1, h2⟩ := run_split ms hr
    obtain ⟨r2, h3, h4⟩ := run_one ms h2
    cases h4
    rw [step_tag_said ht (by simp) h3, words_said hw hs h1]
    simp
  | more ls es a rest alts hw _ ht _ ih =>
    intro r r' hs hr
    obtain ⟨r1, h1, h2⟩ := run_split ms hr
    obtain ⟨r2, h3, h4⟩ := run_one ms h2
    have hs1 := run_sane hs h1
    rw [ih (step_sane hs1 h3) h4, step_tag_said ht (by simp) h3, words_said hw hs h1]
    simp

/-- The words of an item. -/
def wordsOf : Item → List Entry
  | .word e => [e]
  | .group alts => alts.flatten

theorem file_said {ms : List Nat → Int} {ls : List (List Nat)} {items : List Item} (h : FileLines ms ls items) :
    ∀ {r r' : Rd}, Sane r.st → run ms r ls = .ok r' → said r' = said r ++ (items.flatMap wordsOf).map Entry.word := by
  induction h with
  | nil => intro r r' _ hr; cases hr; simp
  | word l e ls items hl _ ih =>
    intro r r' hs hr
    obtain ⟨r1, h1, h2⟩ := run_one ms hr
    rw [ih (step_sane hs h1) h2, step_word_said hl hs h1]
    simp [wordsOf]
  | group b gl alts ls items hb hg _ ih =>
    intro r r' hs hr
    obtain ⟨r1, h1, h2⟩ := run_one ms hr
    obtain ⟨r2, h3, h4⟩ := run_split ms h2
    have hs1 := step_sane hs h1
    rw [ih (run_sane hs1 h3) h4, alts_said hg hs1 h3, step_tag_said hb (by simp) h1]
    simp [wordsOf]

end Verif.CtmIn
