import Verif.Rttm.Lemmas
/-!
# What is proved of the tools for RTTM files (C249 to C256)
-/
set_option autoImplicit false
namespace Verif.Rttm

/-- A sort for the examples. -/
def exSort (l : List Line) : List Line := ksort (fun a b => decide (a.seg.beg ≤ b.seg.beg)) l

theorem exSort_sorts : Sorts exSort :=
  ⟨fun l => ksort_perm _ l, fun l => (ksort_sorted (fun a b : Line => decide (a.seg.beg ≤ b.seg.beg))
      (fun a b => by simpa using Int.le_total _ _) (fun a b c h1 h2 => by
        simp only [decide_eq_true_eq] at *; omega) l).imp (fun h => by simpa using h)⟩

/-! ## C249: what smoothing does to the turns of a speaker -/

/-- After smoothing, a speaker of a file speaks exactly at the instants at which they spoke before or that lie in a pause of theirs
of at most the threshold; the remaining pauses are longer; the turns begin and end where turns began and ended; and every turn lies
within a turn of the output. -/
theorem rttmSmooth_turns {sort : List Line → List Line} (hs : Sorts sort) {th : Int} {ls : List Line} (hd : ∀ l ∈ ls, 0 ≤ l.seg.dur)
    (f s : Nat) :
    (∀ x, Cov (turnsOf f s (rttmSmooth sort th ls)) x ↔ Cov (turnsOf f s ls) x ∨ InPause th (turnsOf f s ls) x) ∧
    (turnsOf f s (rttmSmooth sort th ls)).Pairwise (fun a b => a.fin + th < b.beg) ∧
    (∀ a ∈ turnsOf f s (rttmSmooth sort th ls), (∃ p ∈ turnsOf f s ls, a.beg = p.beg) ∧ ∃ q ∈ turnsOf f s ls, a.fin = q.fin) ∧
    (∀ p ∈ turnsOf f s ls, ∃ a ∈ turnsOf f s (rttmSmooth sort th ls), a.beg ≤ p.beg ∧ p.fin ≤ a.fin) := by
  have hp : ((sort (ls.filter (fun l => l.key == (f, s)))).map Line.seg).Perm (turnsOf f s ls) := by
    rw [turnsOf_eq]; exact (hs.perm _).map _
  have hso := sorted_segs hs (ls.filter (fun l => l.key == (f, s)))
  have hdu : ∀ a ∈ (sort (ls.filter (fun l => l.key == (f, s)))).map Line.seg, 0 ≤ a.dur := by
    intro a ha
    obtain ⟨l, hl, rfl⟩ := List.mem_map.1 ha
    exact hd l (List.mem_filter.1 ((hs.perm _).mem_iff.1 hl)).1
  rw [turnsOf_smooth hs]
  refine ⟨fun x => ?_, smooth_sep hso, fun a ha => ?_, fun p hm => smooth_contains hso p (hp.mem_iff.2 hm)⟩
  · rw [smooth_cov hso hdu, Cov.congr hp, InPause.congr hp]
  · obtain ⟨⟨p, h1, h2⟩, ⟨q, h3, h4⟩⟩ := smooth_bounds a ha
    exact ⟨⟨p, hp.mem_iff.1 h1, h2⟩, ⟨q, hp.mem_iff.1 h3, h4⟩⟩

/-- Smoothing twice does the same as smoothing once. -/
theorem rttmSmooth_idem {sort : List Line → List Line} (hs : Sorts sort) {th : Int} (h0 : 0 ≤ th) {ls : List Line} (hd : ∀ l ∈ ls, 0 ≤ l.seg.dur)
    (f s : Nat) : turnsOf f s (rttmSmooth sort th (rttmSmooth sort th ls)) = turnsOf f s (rttmSmooth sort th ls) := by
  obtain ⟨_, hsep, _, _⟩ := rttmSmooth_turns (th := th) hs hd f s
  rw [turnsOf_smooth hs th (rttmSmooth sort th ls)]
  have hp : ((sort ((rttmSmooth sort th ls).filter (fun l => l.key == (f, s)))).map Line.seg).Perm (turnsOf f s (rttmSmooth sort th ls)) := by
    rw [turnsOf_eq]; exact (hs.perm _).map _
  have hfin : ∀ a ∈ turnsOf f s (rttmSmooth sort th ls), a.beg ≤ a.fin := by
    intro a ha
    rw [turnsOf_smooth hs] at ha
    refine fin_ge (smooth_dur (fun b hb => ?_) a ha)
    obtain ⟨l, hl, rfl⟩ := List.mem_map.1 hb
    exact hd l (List.mem_filter.1 ((hs.perm _).mem_iff.1 hl)).1
  have hsorted : (turnsOf f s (rttmSmooth sort th ls)).Pairwise (fun a b => a.beg < b.beg) := by
    refine (List.Pairwise.and_mem.1 hsep).imp ?_
    rintro a b ⟨ha, hb, h⟩
    have := hfin a ha
    omega
  have heq : (sort ((rttmSmooth sort th ls).filter (fun l => l.key == (f, s)))).map Line.seg = turnsOf f s (rttmSmooth sort th ls) := by
    refine List.Perm.eq_of_pairwise (le := fun a b : Seg => a.beg ≤ b.beg) ?_ (sorted_segs hs _) (hsorted.imp (fun h => by omega)) hp
    intro a b ha hb h1 h2
    have hm := hsorted
    rw [List.pairwise_iff_getElem] at hm
    obtain ⟨i, hi, ei⟩ := List.getElem_of_mem (hp.mem_iff.1 ha)
    obtain ⟨j, hj, ej⟩ := List.getElem_of_mem hb
    rcases Nat.lt_trichotomy i j with h | h | h
    · have := hm i j hi hj h; rw [ei, ej] at this; omega
    · subst h; exact ei.symm.trans ej
    · have := hm j i hj hi h; rw [ei, ej] at this; omega
  rw [heq]
  exact smooth_of_sep hsep

example : turnsOf 1 7 (rttmSmooth exSort 300 [⟨1, 1, 7, 0, 1000⟩, ⟨1, 1, 8, 500, 100⟩, ⟨1, 1, 7, 1300, 200⟩, ⟨1, 1, 7, 2000, 100⟩]) =
    [⟨0, 1500⟩, ⟨2000, 100⟩] := by decide

/-! ## C250: channels -/

/-- If every speaker of a file is heard in one channel only, the same holds by channel. -/
theorem rttmSmooth_channels_partial {sort : List Line → List Line} (hs : Sorts sort) {th : Int} {ls : List Line} (hd : ∀ l ∈ ls, 0 ≤ l.seg.dur)
    (h1 : ∀ l ∈ ls, ∀ m ∈ ls, l.file = m.file → l.spkr = m.spkr → l.chnl = m.chnl) (f c s : Nat) :
    (∀ x, Cov (turnsIn f c s (rttmSmooth sort th ls)) x ↔ Cov (turnsIn f c s ls) x ∨ InPause th (turnsIn f c s ls) x) := by
  have hout : ∀ l ∈ rttmSmooth sort th ls, ∃ p ∈ ls, l.file = p.file ∧ l.chnl = p.chnl ∧ l.spkr = p.spkr := by
    intro l hl
    have e : rttmSmooth sort th ls = (keys ls).flatMap (part sort th ls) := rfl
    rw [e, List.mem_flatMap] at hl
    obtain ⟨k, _, hk⟩ := hl
    obtain ⟨p, hp, _, h⟩ := part_key hs th ls k l hk
    exact ⟨p, hp, h⟩
  by_cases hex : ∃ l ∈ ls, l.file = f ∧ l.spkr = s ∧ l.chnl = c
  · obtain ⟨m, hm, rfl, rfl, rfl⟩ := hex
    have e1 : turnsIn m.file m.chnl m.spkr ls = turnsOf m.file m.spkr ls := by
      unfold turnsIn turnsOf
      congr 1
      apply List.filter_congr
      intro l hl
      by_cases hf : l.file = m.file
      · by_cases hk : l.spkr = m.spkr
        · simp [hf, hk, h1 l hl m hm hf hk]
        · have e := beq_false_of_ne hk
          simp [e]
      · have e := beq_false_of_ne hf
        simp [e]
    have e2 : turnsIn m.file m.chnl m.spkr (rttmSmooth sort th ls) = turnsOf m.file m.spkr (rttmSmooth sort th ls) := by
      unfold turnsIn turnsOf
      congr 1
      apply List.filter_congr
      intro l hl
      obtain ⟨p, hp, ef, ec, ek⟩ := hout l hl
      by_cases hf : l.file = m.file
      · by_cases hk : l.spkr = m.spkr
        · have : l.chnl = m.chnl := by rw [ec]; exact h1 p hp m hm (ef ▸ hf) (ek ▸ hk)
          simp [hf, hk, this]
        · have e := beq_false_of_ne hk
          simp [e]
      · have e := beq_false_of_ne hf
        simp [e]
    intro x
    rw [e1, e2]
    exact (rttmSmooth_turns hs hd m.file m.spkr).1 x
  · have e1 : turnsIn f c s ls = [] := by
      unfold turnsIn
      rw [List.filter_eq_nil_iff.2, List.map_nil]
      intro l hl h
      simp only [Bool.and_eq_true, beq_iff_eq] at h
      exact hex ⟨l, hl, h.1.1, h.2, h.1.2⟩
    have e2 : turnsIn f c s (rttmSmooth sort th ls) = [] := by
      unfold turnsIn
      rw [List.filter_eq_nil_iff.2, List.map_nil]
      intro l hl h
      simp only [Bool.and_eq_true, beq_iff_eq] at h
      obtain ⟨p, hp, ef, ec, ek⟩ := hout l hl
      exact hex ⟨p, hp, by omega, by omega, by omega⟩
    intro x
    rw [e1, e2]
    simp [Cov, InPause]

/-- A speaker with the same name in two channels: what they say in the second is moved to the first. -/
theorem rttmSmooth_channels_confused :
    turnsIn 1 2 7 (rttmSmooth exSort 300 [⟨1, 1, 7, 0, 1000⟩, ⟨1, 2, 7, 500, 2000⟩]) = [] ∧
    turnsIn 1 1 7 (rttmSmooth exSort 300 [⟨1, 1, 7, 0, 1000⟩, ⟨1, 2, 7, 500, 2000⟩]) = [⟨0, 2500⟩] := by
  decide

/-! ## C251: the smoothing of STM segments -/

/-- When the program does not stop, all that was said is said and only pauses of at most the threshold are filled; segments that are
farther apart are left alone. -/
theorem stmSmooth_cov_partial {th : Int} {l r : List Utt} (h : stmSmooth th l = some r) (hd : ∀ s ∈ l, s.beg ≤ s.fin) (x : Int) :
    (UCov l x → UCov r x) ∧ (UCov r x → UCov l x ∨ UPause th l x) := by
  cases l with
  | nil => cases h; exact ⟨id, Or.inl⟩
  | cons a l => exact uttLoop_cov x a [] l r h hd

/-- Segments that are farther apart than the threshold are not changed. -/
theorem stmSmooth_apart {th : Int} (h0 : 0 ≤ th) {l : List Utt} (h : l.Pairwise (fun a b => a.fin + th < b.beg)) : stmSmooth th l = some l := by
  cases l with
  | nil => rfl
  | cons a l => exact uttLoop_apart h0 a [] l h

/-- Pauses within the threshold are left: of three segments that follow each other without a pause only two are joined. -/
theorem stmSmooth_incomplete : stmSmooth 0 [⟨0, 1000⟩, ⟨1000, 2000⟩, ⟨2000, 3000⟩] = some [⟨0, 2000⟩, ⟨2000, 3000⟩] := by decide

/-- From segments without overlap the output has turns that overlap. -/
theorem stmSmooth_overlaps :
    stmSmooth 500 [⟨0, 1000⟩, ⟨1200, 2000⟩, ⟨2100, 2200⟩, ⟨2250, 2300⟩, ⟨2350, 3000⟩] = some [⟨0, 3000⟩, ⟨2100, 2200⟩, ⟨2250, 2300⟩] := by decide

/-! ## C252: overlapping segments of a speaker -/

/-- The program never stops because of overlaps when no two segments overlap. -/
theorem stmSmooth_ok_partial {th : Int} {l : List Utt} (h : l.Pairwise (fun a b => a.fin ≤ b.beg)) : (stmSmooth th l).isSome := by
  cases l with
  | nil => rfl
  | cons a l => exact uttLoop_some a [] l h

/-- Without any joining, every overlap of neighbours is found. -/
theorem stmSmooth_overlap_first_partial {th : Int} {a b : Utt} {l : List Utt} (h : b.beg < a.fin) : stmSmooth th (a :: b :: l) = none := by
  show uttLoop th a [] (b :: l) = none
  match l with
  | [] => rw [uttLoop, if_pos h]; intro _ _ _ e; cases e
  | [c] => rw [uttLoop, if_pos h]; intro _ _ _ e; cases e
  | c :: d :: l => rw [uttLoop, if_pos h]

/-- An overlap after two segments that were joined is not found. -/
theorem stmSmooth_overlap_missed : stmSmooth 0 [⟨0, 2000⟩, ⟨2000, 3000⟩, ⟨2500, 4000⟩] = some [⟨0, 3000⟩, ⟨2500, 4000⟩] := by decide

/-! ## C253: words and turns -/

/-- A word of the output is a word of the input with its middle in a turn of the speaker it is given to; when the turns of a channel
begin at different times and so do the words, every word with its middle in a turn is output. -/
theorem mergeWords_partial {pick : Nat → Nat} (hpick : ∀ n, 0 < n → pick n < n) (turns : List Turn) (words : List Word) :
    (∀ w s, (w, s) ∈ mergeWords pick turns words → w ∈ words ∧
      ∃ t ∈ turns, t.spkr = s ∧ 2 * t.seg.beg ≤ 2 * w.seg.beg + w.seg.dur ∧ 2 * w.seg.beg + w.seg.dur ≤ 2 * t.seg.fin) ∧
    ((turns.map (fun t => t.seg.beg)).Nodup → (words.map (fun w => w.seg.beg)).Nodup → ∀ w ∈ words,
      (∃ t ∈ turns, 2 * t.seg.beg ≤ 2 * w.seg.beg + w.seg.dur ∧ 2 * w.seg.beg + w.seg.dur ≤ 2 * t.seg.fin) →
      ∃ s, (w, s) ∈ mergeWords pick turns words) := by
  constructor
  · intro w s hm
    simp only [mergeWords, List.mem_filterMap, Option.map_eq_some_iff, Prod.mk.injEq] at hm
    obtain ⟨w', hw, s', hs, rfl, rfl⟩ := hm
    refine ⟨firsts_mem _ _ w' hw, ?_⟩
    simp only [findSpeaker, Option.map_eq_some_iff] at hs
    obtain ⟨t, ht, rfl⟩ := hs
    have := List.mem_filter.1 (List.mem_of_getElem? ht)
    simp only [inTurn, Bool.and_eq_true, decide_eq_true_eq] at this
    exact ⟨t, firsts_mem _ _ t this.1, rfl, this.2⟩
  · intro h1 h2 w hw ⟨t, ht, h3⟩
    have hm : t ∈ (firsts (fun t : Turn => t.seg.beg) turns).filter (inTurn w) := by
      rw [firsts_eq _ _ h1, List.mem_filter]
      exact ⟨ht, by simpa only [inTurn, Bool.and_eq_true, decide_eq_true_eq] using h3⟩
    have hl := List.length_pos_of_mem hm
    refine ⟨(((firsts (fun t : Turn => t.seg.beg) turns).filter (inTurn w))[pick _]'(hpick _ hl)).spkr, ?_⟩
    simp only [mergeWords, List.mem_filterMap, Option.map_eq_some_iff, Prod.mk.injEq]
    refine ⟨w, ?_, _, ?_, rfl, rfl⟩
    · rw [firsts_eq _ _ h2]; exact hw
    · simp only [findSpeaker]
      rw [List.getElem?_eq_getElem (hpick _ hl)]
      rfl

/-- Two turns that begin together: a word in the second one alone is lost; and of two words that begin together one is lost. -/
theorem mergeWords_lost :
    mergeWords (fun _ => 0) [⟨⟨0, 1000⟩, 7⟩, ⟨⟨0, 5000⟩, 8⟩] [⟨⟨3000, 500⟩, 1⟩] = [] ∧
    mergeWords (fun _ => 0) [⟨⟨0, 5000⟩, 8⟩] [⟨⟨3000, 500⟩, 1⟩, ⟨⟨3000, 400⟩, 2⟩] = [(⟨⟨3000, 500⟩, 1⟩, 8)] := by
  decide

example : mergeWords (fun n => n - 1) [⟨⟨0, 1000⟩, 7⟩, ⟨⟨900, 5000⟩, 8⟩] [⟨⟨800, 300⟩, 1⟩, ⟨⟨100, 300⟩, 2⟩, ⟨⟨7000, 300⟩, 3⟩] =
    [(⟨⟨800, 300⟩, 1⟩, 8), (⟨⟨100, 300⟩, 2⟩, 7)] := by decide

/-! ## C254, C255: the sorted file -/

theorem timeLe_total (a b : Option Int) : timeLe a b ∨ timeLe b a := by
  cases a <;> cases b <;> simp [timeLe]
  exact Int.le_total _ _

theorem timeLe_trans (a b c : Option Int) : timeLe a b → timeLe b c → timeLe a c := by
  cases a <;> cases b <;> cases c <;> simp [timeLe]
  exact fun h1 h2 => Int.le_trans h1 h2

/-- The lines of a time. -/
def atTime (rc : List Rec) (t : Nat × Option Int) : List Rec :=
  ksort (fun a b : Rec => decide (a.rank ≤ b.rank)) (rc.filter (fun r => (r.text, r.time) == t))

/-- The lines of a channel. -/
def ofChan (rf : List Rec) (c : Nat) : List Rec :=
  (ksort (fun a b : Nat × Option Int => timeLe a.2 b.2) ((rf.filter (fun r => r.chan == c)).map (fun r => (r.text, r.time))).eraseDups).flatMap
    (atTime (rf.filter (fun r => r.chan == c)))

/-- The lines of a file. -/
def ofFile (recs : List Rec) (f : Nat) : List Rec :=
  (ksort (fun a b => decide (a ≤ b)) ((recs.filter (fun r => r.file == f)).map Rec.chan).eraseDups).flatMap (ofChan (recs.filter (fun r => r.file == f)))

theorem rttmSort_eq (recs : List Rec) :
    rttmSort recs = (ksort (fun a b => decide (a ≤ b)) (recs.map Rec.file).eraseDups).flatMap (ofFile recs) := rfl

theorem ofChan_perm (rf : List Rec) (c : Nat) : (ofChan rf c).Perm (rf.filter (fun r => r.chan == c)) := by
  have h := keys_ok (fun a b : Nat × Option Int => timeLe a.2 b.2) (fun r : Rec => (r.text, r.time)) (rf.filter (fun r => r.chan == c))
  exact group_perm (fun r : Rec => (r.text, r.time)) _ _ _ h.1 h.2 (fun k _ => ksort_perm _ _)

theorem ofFile_perm (recs : List Rec) (f : Nat) : (ofFile recs f).Perm (recs.filter (fun r => r.file == f)) := by
  have h := keys_ok (fun a b => decide (a ≤ b)) Rec.chan (recs.filter (fun r => r.file == f))
  exact group_perm Rec.chan _ _ _ h.1 h.2 (fun k _ => ofChan_perm _ k)

/-- No line is lost, made or changed. -/
theorem rttmSort_perm (recs : List Rec) : (rttmSort recs).Perm recs := by
  rw [rttmSort_eq]
  have h := keys_ok (fun a b => decide (a ≤ b)) Rec.file recs
  exact group_perm Rec.file _ _ _ h.1 h.2 (fun k _ => ofFile_perm _ k)

theorem natSort_sorted (l : List Nat) : (ksort (fun a b => decide (a ≤ b)) l).Pairwise (fun a b => a ≤ b) :=
  (ksort_sorted (fun a b : Nat => decide (a ≤ b)) (fun a b => by simpa using Nat.le_total a b)
    (fun a b c h1 h2 => by simp only [decide_eq_true_eq] at *; omega) l).imp (fun h => by simpa using h)

/-- Strictly sorted keys. -/
theorem keys_lt {α : Type} (key : α → Nat) (l : List α) : (ksort (fun a b => decide (a ≤ b)) (l.map key).eraseDups).Pairwise (fun a b => a < b) := by
  have h1 := natSort_sorted (l.map key).eraseDups
  have h2 : (ksort (fun a b : Nat => decide (a ≤ b)) (l.map key).eraseDups).Pairwise (fun a b => a ≠ b) := (keys_ok (fun a b : Nat => decide (a ≤ b)) key l).1
  exact (h1.and h2).imp (fun h => by omega)

theorem ofFile_mem {recs : List Rec} {f : Nat} {r : Rec} (h : r ∈ ofFile recs f) : r.file = f := by
  have := (ofFile_perm recs f).mem_iff.1 h
  simpa using (List.mem_filter.1 this).2

theorem ofChan_mem {rf : List Rec} {c : Nat} {r : Rec} (h : r ∈ ofChan rf c) : r ∈ rf ∧ r.chan = c := by
  have := List.mem_filter.1 ((ofChan_perm rf c).mem_iff.1 h)
  exact ⟨this.1, by simpa using this.2⟩

theorem atTime_mem {rc : List Rec} {t : Nat × Option Int} {r : Rec} (h : r ∈ atTime rc t) : r ∈ rc ∧ r.text = t.1 ∧ r.time = t.2 := by
  have := List.mem_filter.1 ((ksort_perm _ _).mem_iff.1 h)
  refine ⟨this.1, ?_⟩
  have e := beq_iff_eq.1 this.2
  rw [← e]; exact ⟨rfl, rfl⟩

/-- A relation that holds between lines of files, channels and times in order holds along the output. -/
theorem rttmSort_pairwise (R : Rec → Rec → Prop) (recs : List Rec)
    (h1 : ∀ a b : Rec, a.file < b.file → R a b)
    (h2 : ∀ a b : Rec, a.file = b.file → a.chan < b.chan → R a b)
    (h3 : ∀ a b : Rec, a.file = b.file → a.chan = b.chan → timeLe a.time b.time → (a.text, a.time) ≠ (b.text, b.time) → R a b)
    (h4 : ∀ a b : Rec, a.file = b.file → a.chan = b.chan → a.time = b.time → a.text = b.text → a.rank ≤ b.rank → R a b) :
    (rttmSort recs).Pairwise R := by
  rw [rttmSort_eq, List.pairwise_flatMap]
  refine ⟨fun f _ => ?_, (keys_lt Rec.file recs).imp (fun h x hx y hy => h1 x y (by rw [ofFile_mem hx, ofFile_mem hy]; exact h))⟩
  unfold ofFile
  rw [List.pairwise_flatMap]
  have hf : ∀ r ∈ recs.filter (fun r => r.file == f), r.file = f := fun r hr => by simpa using (List.mem_filter.1 hr).2
  refine ⟨fun c _ => ?_, (keys_lt Rec.chan _).imp (fun h x hx y hy => ?_)⟩
  · unfold ofChan
    rw [List.pairwise_flatMap]
    have hc : ∀ r ∈ (recs.filter (fun r => r.file == f)).filter (fun r => r.chan == c), r.file = f ∧ r.chan = c := fun r hr =>
      ⟨hf r (List.mem_filter.1 hr).1, by simpa using (List.mem_filter.1 hr).2⟩
    refine ⟨fun t _ => ?_, ?_⟩
    · have hs := ksort_sorted (fun a b : Rec => decide (a.rank ≤ b.rank)) (fun a b => by simpa using Nat.le_total _ _)
        (fun a b c h1 h2 => by simp only [decide_eq_true_eq] at *; omega)
        (((recs.filter (fun r => r.file == f)).filter (fun r => r.chan == c)).filter (fun r => (r.text, r.time) == t))
      refine (List.Pairwise.and_mem.1 hs).imp ?_
      rintro a b ⟨ha, hb, h⟩
      have ma := atTime_mem ha
      have mb := atTime_mem hb
      have ca := hc a ma.1
      have cb := hc b mb.1
      exact h4 a b (by omega) (by omega) (by rw [ma.2.2, mb.2.2]) (by omega) (by simpa using h)
    · have hs := ksort_sorted (fun a b : Nat × Option Int => timeLe a.2 b.2) (fun a b => timeLe_total _ _) (fun a b c => timeLe_trans _ _ _)
        (((recs.filter (fun r => r.file == f)).filter (fun r => r.chan == c)).map (fun r => (r.text, r.time))).eraseDups
      have hn : (ksort (fun a b : Nat × Option Int => timeLe a.2 b.2)
          (((recs.filter (fun r => r.file == f)).filter (fun r => r.chan == c)).map (fun r => (r.text, r.time))).eraseDups).Pairwise (fun a b => a ≠ b) :=
        (keys_ok (fun a b : Nat × Option Int => timeLe a.2 b.2) (fun r : Rec => (r.text, r.time)) _).1
      refine (hs.and hn).imp ?_
      rintro s t ⟨h, hne⟩ a ha b hb
      have ma := atTime_mem ha
      have mb := atTime_mem hb
      have ca := hc a ma.1
      have cb := hc b mb.1
      refine h3 a b (by omega) (by omega) (by rw [ma.2.2, mb.2.2]; exact h) ?_
      rw [ma.2.1, ma.2.2, mb.2.1, mb.2.2]
      exact hne
  · have mx := ofChan_mem hx
    have my := ofChan_mem hy
    exact h2 x y (by rw [hf x mx.1, hf y my.1]) (by omega)

/-- The lines come by file, channel and time. -/
theorem rttmSort_order (recs : List Rec) : (rttmSort recs).Perm recs ∧ (rttmSort recs).Pairwise RecLe := by
  refine ⟨rttmSort_perm recs, rttmSort_pairwise _ recs ?_ ?_ ?_ ?_⟩
  · intro a b h; exact Or.inl h
  · intro a b h h'; exact Or.inr ⟨h, Or.inl h'⟩
  · intro a b h h' ht _
    refine Or.inr ⟨h, Or.inr ⟨h', ?_⟩⟩
    cases ha : a.time <;> cases hb : b.time <;> simp_all [timeLe]
  · intro a b h h' ht _ _
    refine Or.inr ⟨h, Or.inr ⟨h', ?_⟩⟩
    rw [ht]
    cases b.time <;> simp

/-- Lines of one time come in the order of their types, provided that the time is written in one way. -/
theorem rttmSort_types_partial (recs : List Rec)
    (hw : ∀ a ∈ recs, ∀ b ∈ recs, a.file = b.file → a.chan = b.chan → a.time = b.time → a.text = b.text) :
    (rttmSort recs).Pairwise (fun a b => a.file = b.file → a.chan = b.chan → a.time = b.time → a.rank ≤ b.rank) := by
  have h := rttmSort_pairwise (fun a b => a.file = b.file → a.chan = b.chan → a.time = b.time → a.text = b.text → a.rank ≤ b.rank) recs
    (fun a b h e => by omega) (fun a b _ h _ e => by omega)
    (fun a b _ _ _ hne _ _ e1 e2 => absurd (by rw [e1, e2]) hne) (fun a b _ _ _ _ h _ _ _ _ => h)
  refine (List.Pairwise.and_mem.1 h).imp ?_
  rintro a b ⟨ha, hb, h⟩ e1 e2 e3
  exact h e1 e2 e3 (hw a ((rttmSort_perm recs).mem_iff.1 ha) b ((rttmSort_perm recs).mem_iff.1 hb) e1 e2 e3)

/-- The time 1 written "1.0" (0) and "1.00" (1): a word comes before the turn that it belongs to. -/
theorem rttmSort_types_mixed :
    rttmSort [⟨5, 1, 1, some 1000, 0, 0⟩, ⟨3, 1, 1, some 1000, 1, 1⟩] = [⟨5, 1, 1, some 1000, 0, 0⟩, ⟨3, 1, 1, some 1000, 1, 1⟩] := by
  decide

example : rttmSort [⟨5, 1, 1, some 1000, 0, 0⟩, ⟨3, 1, 1, some 1000, 0, 1⟩, ⟨5, 1, 1, none, 3, 2⟩, ⟨3, 0, 1, some 9000, 4, 3⟩] =
    [⟨3, 0, 1, some 9000, 4, 3⟩, ⟨5, 1, 1, none, 3, 2⟩, ⟨3, 1, 1, some 1000, 0, 1⟩, ⟨5, 1, 1, some 1000, 0, 0⟩] := by decide

/-! ## C256: speech activity -/

/-- There is speech in a channel at an instant exactly when some speaker was speaking; every line is a line of the speaker "speech"; the
lines come in the order of their begins. -/
theorem spkr2sad_speech {sort : List Line → List Line} (hs : Sorts sort) (ls : List Line) (f c : Nat) :
    (∀ x, Cov (speechIn f c (spkr2sad sort f ls)) x ↔ Cov (speechIn f c ls) x) ∧
    (∀ l ∈ spkr2sad sort f ls, l.file = f ∧ l.spkr = 0) ∧
    (spkr2sad sort f ls).Pairwise (fun a b => a.seg.beg ≤ b.seg.beg) ∧
    (spkr2sad sort f ls).length = (ls.filter (fun l => l.file == f)).length := by
  refine ⟨fun x => ?_, fun l hl => ?_, ?_, ?_⟩
  · have e : (speechIn f c (spkr2sad sort f ls)).Perm (speechIn f c ls) := by
      unfold speechIn spkr2sad
      rw [List.filter_map, List.map_map]
      have e1 : (ls.filter (fun l => l.file == f && l.chnl == c)) = (ls.filter (fun l => l.file == f)).filter (fun l => l.file == f && l.chnl == c) := by
        rw [List.filter_filter]
        apply List.filter_congr
        intro l _
        cases l.file == f <;> simp
      rw [e1]
      exact ((hs.perm _).filter _).map _
    exact Cov.congr e x
  · simp only [spkr2sad, List.mem_map] at hl
    obtain ⟨m, hm, rfl⟩ := hl
    have := (List.mem_filter.1 ((hs.perm _).mem_iff.1 hm)).2
    exact ⟨by simpa using this, rfl⟩
  · unfold spkr2sad
    rw [List.pairwise_map]
    exact hs.sorted _
  · simp only [spkr2sad, List.length_map]
    exact (hs.perm _).length_eq

example : spkr2sad exSort 1 [⟨1, 1, 7, 500, 1000⟩, ⟨1, 2, 8, 100, 200⟩, ⟨2, 1, 8, 100, 200⟩] = [⟨1, 2, 0, 100, 200⟩, ⟨1, 1, 0, 500, 1000⟩] := by decide

end Verif.Rttm
