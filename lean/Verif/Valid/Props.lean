import Verif.Valid.Lemmas
import Verif.Rttm.Lemmas
/-!
# What is proved of the validator of RTTM files (C263 to C269)
-/
set_option autoImplicit false
namespace Verif.Valid

/-- A sort for the examples. -/
def exSort (l : List Obj) : List Obj := Rttm.ksort (fun a b => decide (a.beg ≤ b.beg)) l

theorem exSort_sorts : Sorts exSort :=
  ⟨fun l => Rttm.ksort_perm _ l, fun l => (Rttm.ksort_sorted (fun a b : Obj => decide (a.beg ≤ b.beg))
      (fun a b => by simpa using Int.le_total _ _) (fun a b c h1 h2 => by
        simp only [decide_eq_true_eq] at *; omega) l).imp (fun h => by simpa using h)⟩

/-- A line of file 1, channel 1, speaker 7, with times in milliseconds, for the examples. -/
def ex (t : Ty) (b d : Int) (s : Sub := .other) : Obj := ⟨t, 1, 1, 1000000 * b, 1000000 * d, s, 7⟩

/-- All options off. -/
def noOpts : Opts := ⟨false, false, false, false⟩

/-- Two sentence units; in the first an edit followed by a filler, with the point between them. -/
def exFile : List Obj :=
  [ex .spkrInfo 0 0, ex .speaker 0 5000, ex .su 100 1900, ex .su 2000 1000, ex .edit 100 500, ex .filler 600 300, ex .ip 600 0 .editFiller,
   ex .lexeme 100 500, ex .lexeme 600 300, ex .lexeme 900 1100, ex .lexeme 2000 1000, ⟨.noscore, 1, 1, 6000000000, 1000000000, .other, naSpk⟩]

theorem exFile_valid : valid exSort noOpts exFile = true := by decide +kernel

theorem exFile_milli : MilliFile exFile := by
  intro o ho
  simp only [exFile, List.mem_cons, List.not_mem_nil, or_false, ex] at ho
  rcases ho with rfl | rfl | rfl | rfl | rfl | rfl | rfl | rfl | rfl | rfl | rfl | rfl <;>
    first | exact ⟨⟨_, rfl⟩, ⟨_, rfl⟩⟩ | exact ⟨⟨6000, rfl⟩, ⟨1000, rfl⟩⟩

theorem syntax_times {op : Opts} {data : List Obj} (h : checkSyntax op data = true) {o : Obj} (ho : o ∈ data) :
    (o.ty ≠ .spkrInfo → 0 ≤ o.beg) ∧ (Timed o.ty → 0 ≤ o.dur) := by
  have := List.all_eq_true.1 h o ho
  simp only [Bool.and_eq_true, Bool.or_eq_true, decide_eq_true_eq, beq_iff_eq] at this
  refine ⟨fun hn => this.1.1.resolve_left hn, fun ⟨h1, h2, h3⟩ => ?_⟩
  rcases this.1.2 with (h | h) | h
  · exact absurd h h3
  · cases ht : o.ty <;> rw [ht] at h h1 h2 <;> first | exact absurd rfl h1 | exact absurd rfl h2 | cases h
  · exact h

/-! ## C263: objects of the same type and speaker that overlap -/

theorem timed_of {t : Ty} (h : t ≠ .spkrInfo) (hp : t.point = false) : Timed t := by
  refine ⟨?_, ?_, h⟩ <;> rintro rfl <;> cases hp

/-- In a file with times in milliseconds, none negative and no extent of zero, the check for overlap passes if and only if no two lines
of the same type, with extent, and the same speaker share time. -/
theorem overlap_iff_partial {sort : List Obj → List Obj} (hs : Sorts sort) {op : Opts} {data : List Obj} (hm : MilliFile data)
    (hv : checkSyntax op data = true) (hd : ∀ o ∈ data, Timed o.ty → o.dur ≠ 0) :
    checkOverlap sort data = true ↔ NoOverlap data := by
  have step : ∀ o ∈ data, ((o.ty == .spkrInfo || overlapLoop o.ty.point 0 (group sort data o.src o.chnl o.spkr o.ty)) = true ↔
      (Timed o.ty → data.Pairwise (fun a b => (o.src = a.src ∧ o.chnl = a.chnl ∧ o.spkr = a.spkr ∧ o.ty = a.ty) →
        (o.src = b.src ∧ o.chnl = b.chnl ∧ o.spkr = b.spkr ∧ o.ty = b.ty) → ¬ Share a b))) := by
    intro o ho
    by_cases h1 : o.ty = .spkrInfo
    · simp [h1, Timed]
    simp only [Bool.or_eq_true, beq_iff_eq, h1, false_or]
    have hmem : ∀ a ∈ group sort data o.src o.chnl o.spkr o.ty, a ∈ data ∧ a.ty = o.ty := fun a ha =>
      ⟨((mem_group hs).1 ha).1, ((mem_group hs).1 ha).2.2.2.2⟩
    cases hp : o.ty.point with
    | true =>
      have : ¬ Timed o.ty := by
        rintro ⟨h2, h3, _⟩
        cases ht : o.ty <;> rw [ht] at hp h2 h3 <;> first | exact h2 rfl | exact h3 rfl | cases hp
      simp only [this, false_implies, iff_true]
      refine overlapLoop_point _ _ (hs.sorted _) (fun a ha => ?_)
      exact (syntax_times hv (hmem a ha).1).1 (by rw [(hmem a ha).2]; exact h1)
    | false =>
      have ht := timed_of h1 hp
      simp only [ht, true_implies]
      rw [group, overlap_group hs, List.pairwise_filter]
      · constructor
        · intro h
          refine List.Pairwise.imp_of_mem ?_ h
          intro a b ha hb hc h2 h3 hsh
          refine hc (by simp [h2.1, h2.2.1, h2.2.2.1, h2.2.2.2]) (by simp [h3.1, h3.2.1, h3.2.2.1, h3.2.2.2]) ?_
          obtain ⟨a1, a2⟩ := hm a ha
          obtain ⟨b1, b2⟩ := hm b hb
          exact ⟨(milli_lt a1 (milli_add b1 b2)).2 hsh.1, (milli_lt b1 (milli_add a1 a2)).2 hsh.2⟩
        · intro h
          refine List.Pairwise.imp_of_mem ?_ h
          intro a b ha hb hc h2 h3 hsh
          simp only [Bool.and_eq_true, beq_iff_eq] at h2 h3
          refine hc ⟨h2.1.1.1.symm, h2.1.1.2.symm, h2.1.2.symm, h2.2.symm⟩ ⟨h3.1.1.1.symm, h3.1.1.2.symm, h3.1.2.symm, h3.2.symm⟩ ?_
          obtain ⟨a1, a2⟩ := hm a ha
          obtain ⟨b1, b2⟩ := hm b hb
          exact ⟨(milli_lt a1 (milli_add b1 b2)).1 hsh.1, (milli_lt b1 (milli_add a1 a2)).1 hsh.2⟩
      · intro a ha
        obtain ⟨ha1, ha2⟩ := List.mem_filter.1 ha
        simp only [Bool.and_eq_true, beq_iff_eq] at ha2
        exact (syntax_times hv ha1).1 (by rw [ha2.2]; exact h1)
      · intro a ha
        obtain ⟨ha1, ha2⟩ := List.mem_filter.1 ha
        simp only [Bool.and_eq_true, beq_iff_eq] at ha2
        have hta : Timed a.ty := by rw [ha2.2]; exact ht
        have h2 := (syntax_times hv ha1).2 hta
        have h3 := hd a ha1 hta
        obtain ⟨k, hk⟩ := (hm a ha1).2
        simp only [thr]; omega
  rw [checkOverlap, List.all_eq_true]
  constructor
  · intro h
    rw [NoOverlap, List.pairwise_iff_getElem]
    intro i j hi hj hij ht hty hsp
    have hmem : data[i] ∈ data := List.getElem_mem hi
    have := (List.pairwise_iff_getElem.1 ((step data[i] hmem).1 (h _ hmem) ht)) i j hi hj hij
    exact this ⟨rfl, rfl, rfl, rfl⟩ ⟨hsp.1.1, hsp.1.2, hsp.2, hty⟩
  · intro h o ho
    refine (step o ho).2 (fun ht => h.imp ?_)
    intro a b hab h1 h2
    exact hab (by rw [← h1.2.2.2]; exact ht) (h1.2.2.2.symm.trans h2.2.2.2)
      ⟨⟨h1.1.symm.trans h2.1, h1.2.1.symm.trans h2.2.1⟩, h1.2.2.1.symm.trans h2.2.2.1⟩

theorem share_symm {a b : Obj} (h : Share a b) : Share b a := ⟨h.2, h.1⟩

/-- In such files the verdict does not depend on the order of the lines. -/
theorem overlap_order_partial {sort : List Obj → List Obj} (hs : Sorts sort) {op op' : Opts} {data data' : List Obj} (hp : data.Perm data')
    (hm : MilliFile data) (hv : checkSyntax op data = true) (hv' : checkSyntax op' data' = true)
    (hd : ∀ o ∈ data, Timed o.ty → o.dur ≠ 0) : checkOverlap sort data = checkOverlap sort data' := by
  rw [Bool.eq_iff_iff, overlap_iff_partial hs hm hv hd, overlap_iff_partial hs (fun o ho => hm o (hp.mem_iff.2 ho)) hv'
    (fun o ho => hd o (hp.mem_iff.2 ho))]
  refine hp.pairwise_iff ?_
  intro a b h ht hty hsp hsh
  exact h (by rw [← hty]; exact ht) hty.symm ⟨⟨hsp.1.1.symm, hsp.1.2.symm⟩, hsp.2.symm⟩ (share_symm hsh)

/-- With an object of zero extent the verdict depends on the order of two lines that begin at the same time. -/
theorem overlap_order_counterexample : ∃ data data' : List Obj, data.Perm data' ∧ MilliFile data ∧
    checkSyntax ⟨false, false, false, true⟩ data = true ∧ checkOverlap exSort data = true ∧ checkOverlap exSort data' = false :=
  ⟨[ex .lexeme 100 0, ex .lexeme 100 50], [ex .lexeme 100 50, ex .lexeme 100 0], List.Perm.swap _ _ _, by
    intro o ho
    simp only [List.mem_cons, List.not_mem_nil, or_false, ex] at ho
    rcases ho with rfl | rfl <;> exact ⟨⟨_, rfl⟩, ⟨_, rfl⟩⟩, by decide, by decide, by decide⟩

example : checkSyntax noOpts exFile = true ∧ (∀ o ∈ exFile, Timed o.ty → o.dur ≠ 0) ∧ checkOverlap exSort exFile = true ∧
    checkOverlap exSort (ex .lexeme 850 100 :: exFile) = false := by
  refine ⟨by decide +kernel, ?_, by decide +kernel, by decide +kernel⟩
  intro o ho
  simp only [exFile, List.mem_cons, List.not_mem_nil, or_false] at ho
  rcases ho with rfl | rfl | rfl | rfl | rfl | rfl | rfl | rfl | rfl | rfl | rfl | rfl <;> simp [ex, Timed]

/-! ## C264: words and the units, edits and fillers around them -/

theorem holder_iff (t : Ty) : t.holds = true ↔ Holder t := by cases t <;> simp [Ty.holds, Holder]

/-- With times in milliseconds, the check of content passes if and only if every sentence unit, edit and filler contains a whole word of
its speaker. -/
theorem content_iff {sort : List Obj → List Obj} (hs : Sorts sort) {data : List Obj} (hm : MilliFile data) :
    checkContent sort data = true ↔ ∀ m ∈ data, Holder m.ty → ∃ w ∈ data, w.ty = .lexeme ∧ SameSpk w m ∧ Within w m := by
  rw [checkContent, List.all_eq_true]
  refine forall_congr' fun m => forall_congr' fun hmm => ?_
  simp only [Bool.or_eq_true, Bool.not_eq_true', findWord_iff, ← holder_iff]
  cases m.ty.holds with
  | false => simp
  | true =>
    simp only [Bool.true_eq_false, false_or, true_implies]
    obtain ⟨m1, m2⟩ := hm m hmm
    constructor
    · rintro ⟨w, hw, h1, h2⟩
      obtain ⟨w1, w2, w3, w4, w5⟩ := (mem_group hs).1 hw
      obtain ⟨w6, w7⟩ := hm w w1
      exact ⟨w, w1, w5, ⟨⟨w2, w3⟩, w4⟩, (milli_ge w6 m1).1 h1, (milli_le (milli_add w6 w7) (milli_add m1 m2)).1 h2⟩
    · rintro ⟨w, w1, w5, ⟨⟨w2, w3⟩, w4⟩, h1, h2⟩
      obtain ⟨w6, w7⟩ := hm w w1
      exact ⟨w, (mem_group hs).2 ⟨w1, w2, w3, w4, w5⟩, (milli_ge w6 m1).2 h1, (milli_le (milli_add w6 w7) (milli_add m1 m2)).2 h2⟩

theorem findPartial_milli {l : List Obj} {o : Obj} (hl : ∀ m ∈ l, Milli m.beg ∧ Milli m.dur) (ho : Milli o.beg ∧ Milli o.dur) :
    findPartial l o.beg (o.beg + o.dur) = false ↔ ∀ m ∈ l, Share o m → Within o m := by
  rw [← Bool.not_eq_true, findPartial_iff]
  simp only [not_exists, not_and]
  refine forall_congr' fun m => forall_congr' fun hmm => ?_
  rw [crosses_milli ho.1 (milli_add ho.1 ho.2) (hl m hmm).1 (hl m hmm).2]
  simp only [Share, Within]
  omega

/-- With times in milliseconds, the check of partial coverage passes if and only if every word that shares time with a sentence unit,
an edit or a filler of its speaker lies within it. -/
theorem partial_iff {sort : List Obj → List Obj} (hs : Sorts sort) {data : List Obj} (hm : MilliFile data) :
    checkPartial sort data = true ↔
      ∀ w ∈ data, w.ty = .lexeme → ∀ m ∈ data, Holder m.ty → SameSpk m w → Share w m → Within w m := by
  rw [checkPartial, List.all_eq_true]
  refine forall_congr' fun w => forall_congr' fun hw => ?_
  simp only [Bool.or_eq_true, bne_iff_ne, ne_eq, List.all_cons, List.all_nil, Bool.and_true, Bool.and_eq_true, Bool.not_eq_true']
  by_cases h : w.ty = .lexeme
  · simp only [h, not_true_eq_false, false_or, true_implies]
    have hg : ∀ t, ∀ m ∈ group sort data w.src w.chnl w.spkr t, Milli m.beg ∧ Milli m.dur := fun t m h => hm m ((mem_group hs).1 h).1
    rw [findPartial_milli (hg _) (hm w hw), findPartial_milli (hg _) (hm w hw), findPartial_milli (hg _) (hm w hw)]
    constructor
    · rintro ⟨h1, h2, h3⟩ m hmm hh hsp
      rcases hh with ht | ht | ht
      · exact h1 m ((mem_group hs).2 ⟨hmm, hsp.1.1, hsp.1.2, hsp.2, ht⟩)
      · exact h2 m ((mem_group hs).2 ⟨hmm, hsp.1.1, hsp.1.2, hsp.2, ht⟩)
      · exact h3 m ((mem_group hs).2 ⟨hmm, hsp.1.1, hsp.1.2, hsp.2, ht⟩)
    · intro hall
      refine ⟨fun m h => ?_, fun m h => ?_, fun m h => ?_⟩ <;> obtain ⟨h1, h2, h3, h4, h5⟩ := (mem_group hs).1 h
      · exact hall m h1 (Or.inl h5) ⟨⟨h2, h3⟩, h4⟩
      · exact hall m h1 (Or.inr (Or.inl h5)) ⟨⟨h2, h3⟩, h4⟩
      · exact hall m h1 (Or.inr (Or.inr h5)) ⟨⟨h2, h3⟩, h4⟩
  · simp [h]

example : checkContent exSort exFile = true ∧ checkPartial exSort exFile = true ∧
    checkContent exSort (ex .su 3000 100 :: exFile) = false ∧ checkPartial exSort (ex .filler 1000 1000 :: exFile) = false := by
  refine ⟨by decide +kernel, by decide +kernel, by decide +kernel, by decide +kernel⟩

/-! ## C265: every word belongs to a sentence unit and to a turn -/

/-- With times in milliseconds, the check that words belong to objects of a type passes if and only if every word lies within an object
of that type and of its speaker. -/
theorem covered_iff {sort : List Obj → List Obj} (hs : Sorts sort) {data : List Obj} (hm : MilliFile data) (t : Ty) :
    checkCovered sort data t = true ↔ ∀ w ∈ data, w.ty = .lexeme → ∃ m ∈ data, m.ty = t ∧ SameSpk m w ∧ Within w m := by
  rw [checkCovered, List.all_eq_true]
  refine forall_congr' fun w => forall_congr' fun hw => ?_
  simp only [Bool.or_eq_true, bne_iff_ne, ne_eq, findType_iff]
  by_cases h : w.ty = .lexeme
  · simp only [h, not_true_eq_false, false_or, true_implies]
    obtain ⟨w1, w2⟩ := hm w hw
    constructor
    · rintro ⟨m, hmm, h1, h2⟩
      obtain ⟨m1, m2, m3, m4, m5⟩ := (mem_group hs).1 hmm
      obtain ⟨m6, m7⟩ := hm m m1
      exact ⟨m, m1, m5, ⟨⟨m2, m3⟩, m4⟩, (milli_ge w1 m6).1 h1, (milli_le (milli_add w1 w2) (milli_add m6 m7)).1 h2⟩
    · rintro ⟨m, m1, m5, ⟨⟨m2, m3⟩, m4⟩, h1, h2⟩
      obtain ⟨m6, m7⟩ := hm m m1
      exact ⟨m, (mem_group hs).2 ⟨m1, m2, m3, m4, m5⟩, (milli_ge w1 m6).2 h1, (milli_le (milli_add w1 w2) (milli_add m6 m7)).2 h2⟩
  · simp [h]

theorem valid_parts {sort : List Obj → List Obj} {op : Opts} {data : List Obj} (h : valid sort op data = true) :
    checkSyntax op data = true ∧ checkOverlap sort data = true ∧ checkContent sort data = true ∧ checkPartial sort data = true ∧
    checkNoscore sort data = true ∧ (op.noSu = false → checkCovered sort data .su = true) ∧
    (op.noSpeaker = false → checkCovered sort data .speaker = true) ∧ (op.noEdit = false → checkIps sort data = true) := by
  simp only [valid, checkLogic, Bool.and_eq_true, Bool.or_eq_true] at h
  obtain ⟨h1, ⟨⟨⟨⟨⟨h2, h3⟩, h4⟩, h5⟩, h6⟩, h7⟩, h8⟩ := h
  refine ⟨h1, h2, h3, h4, h5, fun h => ?_, fun h => ?_, fun h => ?_⟩
  · rw [h] at h6; simpa using h6
  · rw [h] at h7; simpa using h7
  · rw [h] at h8; simpa using h8

/-- In a file that is accepted, with times in milliseconds and no extent of zero, every word belongs to exactly one sentence unit of its
speaker: it lies within one and shares no time with another.  The same for turns. -/
theorem valid_word_one_unit_partial {sort : List Obj → List Obj} (hs : Sorts sort) {op : Opts} {data : List Obj} (hm : MilliFile data)
    (hd : ∀ o ∈ data, Timed o.ty → o.dur ≠ 0) (h : valid sort op data = true) {t : Ty}
    (ht : (t = .su ∧ op.noSu = false) ∨ (t = .speaker ∧ op.noSpeaker = false)) {w : Obj} (hw : w ∈ data) (hl : w.ty = .lexeme) :
    ∃ m ∈ data, m.ty = t ∧ SameSpk m w ∧ Within w m ∧ ∀ m' ∈ data, m'.ty = t → SameSpk m' w → Share w m' → m' = m := by
  obtain ⟨h1, h2, _, h4, _, h6, h7, _⟩ := valid_parts h
  have hov := (overlap_iff_partial hs hm h1 hd).1 h2
  have hcov : checkCovered sort data t = true := by
    rcases ht with ⟨rfl, ho⟩ | ⟨rfl, ho⟩
    · exact h6 ho
    · exact h7 ho
  have htt : Timed t := by
    rcases ht with ⟨rfl, _⟩ | ⟨rfl, _⟩ <;> simp [Timed]
  obtain ⟨m, hmm, hmt, hsp, hwi⟩ := (covered_iff hs hm t).1 hcov w hw hl
  have hwt : Timed w.ty := by rw [hl]; simp [Timed]
  have hw0 := (syntax_times h1 hw).2 hwt
  have hw1 := hd w hw hwt
  refine ⟨m, hmm, hmt, hsp, hwi, fun m' hm' hmt' hsp' hsh => ?_⟩
  have hshare : Share m m' := by
    obtain ⟨a1, a2⟩ := hwi
    obtain ⟨b1, b2⟩ := hsh
    exact ⟨by omega, by omega⟩
  have hsame : SameSpk m m' := ⟨⟨hsp.1.1.trans hsp'.1.1.symm, hsp.1.2.trans hsp'.1.2.symm⟩, hsp.2.trans hsp'.2.symm⟩
  obtain ⟨i, hi, rfl⟩ := List.mem_iff_getElem.1 hmm
  obtain ⟨j, hj, rfl⟩ := List.mem_iff_getElem.1 hm'
  rw [NoOverlap, List.pairwise_iff_getElem] at hov
  rcases Nat.lt_trichotomy i j with hij | hij | hij
  · exact absurd hshare (hov i j hi hj hij (by rw [hmt]; exact htt) (hmt.trans hmt'.symm) hsame)
  · subst hij; rfl
  · refine absurd (share_symm hshare) (hov j i hj hi hij (by rw [hmt']; exact htt) (hmt'.trans hmt.symm) ?_)
    exact ⟨⟨hsame.1.1.symm, hsame.1.2.symm⟩, hsame.2.symm⟩

example : valid exSort noOpts exFile = true ∧ MilliFile exFile ∧ ex .lexeme 900 1100 ∈ exFile :=
  ⟨exFile_valid, exFile_milli, by simp [exFile]⟩

/-! ## C266: regions not scored -/

/-- The types compared with regions not scored. -/
theorem scored_iff (t : Ty) : t.scored = true ↔
    t = .su ∨ t = .edit ∨ t = .filler ∨ t = .speaker ∨ t = .lexeme ∨ t = .nonLex ∨ t = .nonSpeech := by
  cases t <;> simp [Ty.scored]

/-- With times in milliseconds, the check passes if and only if every object of the seven types that shares time with a region not scored
lies within it, as far as the regions are written with `<NA>` for the speaker. -/
theorem noscore_iff_partial {sort : List Obj → List Obj} (hs : Sorts sort) {data : List Obj} (hm : MilliFile data) :
    checkNoscore sort data = true ↔ ∀ o ∈ data, (o.ty = .su ∨ o.ty = .edit ∨ o.ty = .filler ∨ o.ty = .speaker ∨ o.ty = .lexeme ∨
        o.ty = .nonLex ∨ o.ty = .nonSpeech) →
      ∀ n ∈ data, n.ty = .noscore → n.spkr = naSpk → SameChan n o → Share o n → Within o n := by
  rw [checkNoscore, List.all_eq_true]
  refine forall_congr' fun o => forall_congr' fun ho => ?_
  rw [← scored_iff]
  simp only [Bool.or_eq_true, Bool.not_eq_true']
  rw [findPartial_milli (fun m h => hm m ((mem_group hs).1 h).1) (hm o ho)]
  cases o.ty.scored with
  | false => simp
  | true =>
    simp only [Bool.true_eq_false, false_or, true_implies]
    constructor
    · intro h n hn h1 h2 h3
      exact h n ((mem_group hs).2 ⟨hn, h3.1, h3.2, h2, h1⟩)
    · intro h n hn
      obtain ⟨h1, h2, h3, h4, h5⟩ := (mem_group hs).1 hn
      exact h n h1 h5 h4 ⟨h2, h3⟩

/-- A region with a name in the field of the speaker is not looked at: a file in which a word lies across its border is accepted. -/
theorem noscore_counterexample : ∃ data : List Obj, ∃ w ∈ data, ∃ n ∈ data, valid exSort noOpts data = true ∧ MilliFile data ∧
    w.ty = .lexeme ∧ n.ty = .noscore ∧ SameChan n w ∧ Share w n ∧ ¬ Within w n :=
  ⟨ex .noscore 2500 1000 :: exFile, ex .lexeme 2000 1000, by simp [exFile], ex .noscore 2500 1000, by simp, by decide +kernel, by
    intro o ho
    rcases List.mem_cons.1 ho with rfl | ho
    · exact ⟨⟨_, rfl⟩, ⟨_, rfl⟩⟩
    · exact exFile_milli o ho, rfl, rfl, ⟨rfl, rfl⟩, by simp [Share, ex], by simp [Within, ex]⟩

example : checkNoscore exSort exFile = true ∧
    checkNoscore exSort (⟨.noscore, 1, 1, 2500000000, 1000000000, .other, naSpk⟩ :: exFile) = false := by
  refine ⟨by decide +kernel, by decide +kernel⟩

/-! ## C267: edits, fillers and interruption points -/

theorem near_milli {a b : Int} (ha : Milli a) (hb : Milli b) (h : Near a b) : a = b := (milli_near ha hb).1 h

theorem inSu_milli {su o : Obj} (hs : Milli su.beg ∧ Milli su.dur) (ho : Milli o.beg ∧ Milli o.dur) :
    inSu su.beg (su.beg + su.dur) o = true ↔ Within o su := by
  have h1 := milli_add hs.1 hs.2
  have h2 := milli_add ho.1 ho.2
  simp only [inSu, greaterThan_milli ho.1 hs.1, equalTo_milli ho.1 hs.1, lessThan_milli h2 h1, equalTo_milli h2 h1, Bool.and_eq_true,
    Bool.or_eq_true, decide_eq_true_eq, Within]
  omega

theorem ipInside_milli {su o : Obj} (hs : Milli su.beg ∧ Milli su.dur) (ho : Milli o.beg) :
    ipInside su.beg (su.beg + su.dur) o = true ↔ (su.beg < o.beg ∧ o.beg < su.beg + su.dur) ∨ o.beg = su.beg := by
  have h1 := milli_add hs.1 hs.2
  simp only [ipInside, greaterThan_milli ho hs.1, equalTo_milli ho hs.1, lessThan_milli ho h1, Bool.and_eq_true,
    Bool.or_eq_true, decide_eq_true_eq]

theorem mem_editsIn {b e : Int} {l : List Obj} {k : Int × Sub} (h : k ∈ (editsIn b e l).map Mark.key) :
    ∃ o ∈ l, inSu b e o = true ∧ k.1 = o.beg + o.dur := by
  simp only [editsIn, List.map_map, List.mem_map, List.mem_filter, Function.comp] at h
  obtain ⟨o, ⟨h1, h2⟩, rfl⟩ := h
  exact ⟨o, h1, h2, rfl⟩

theorem mem_fillersIn {b e : Int} {l : List Obj} {k : Int × Sub} (h : k ∈ (fillersIn b e l).map Mark.key) :
    ∃ o ∈ l, inSu b e o = true ∧ k.1 = o.beg := by
  simp only [fillersIn, List.map_map, List.mem_map, List.mem_filter, Function.comp] at h
  obtain ⟨o, ⟨h1, h2⟩, rfl⟩ := h
  exact ⟨o, h1, h2, rfl⟩

theorem mem_ipsIn {b e : Int} {n : Option Int} {l : List Obj} {k : Int × Sub} (h : k ∈ (ipsIn b e n l).map Mark.key) :
    ∃ o ∈ l, (ipInside b e o = true ∨ ipAtEnd e n o = true) ∧ k = (o.beg, o.sub) := by
  simp only [ipsIn, List.map_map, List.mem_map, List.mem_filter, Function.comp, Bool.or_eq_true] at h
  obtain ⟨o, ⟨h1, h2⟩, rfl⟩ := h
  exact ⟨o, h1, h2, rfl⟩

theorem units_su {sus ips : List Obj} {su : Obj} (h : su ∈ sus) : ∃ i : Nat, (units sus ips)[i]? = some (su.beg, su.beg + su.dur) := by
  obtain ⟨i, hi, rfl⟩ := List.mem_iff_getElem.1 h
  refine ⟨i, ?_⟩
  rw [units, List.getElem?_append_left (by simpa using hi)]
  simp [hi]

theorem units_fst {sus ips : List Obj} {u : Int × Int} (h : u ∈ units sus ips) : u.1 = 0 ∨ ∃ s ∈ sus, u.1 = s.beg := by
  rw [units, List.mem_append] at h
  rcases h with h | h
  · obtain ⟨s, hs, rfl⟩ := List.mem_map.1 h
    exact Or.inr ⟨s, hs, rfl⟩
  · split at h
    · cases h
    · split at h
      · simp only [List.mem_cons, List.not_mem_nil, or_false] at h
        exact Or.inl (by rw [h])
      · cases h

/-- What is known of a unit in a file that passes the check; `next` is the begin of a unit or `0`. -/
theorem checkIps_unit {sort : List Obj → List Obj} (hs : Sorts sort) {data : List Obj} (h : checkIps sort data = true) {su : Obj}
    (hsu : su ∈ data) (ht : su.ty = .su) : ∃ next : Option Int,
    (∀ n, next = some n → n = 0 ∨ ∃ s ∈ data, s.ty = .su ∧ SameSpk s su ∧ n = s.beg) ∧
    checkUnit (group sort data su.src su.chnl su.spkr .edit) (group sort data su.src su.chnl su.spkr .filler)
      (group sort data su.src su.chnl su.spkr .ip) (su.beg, su.beg + su.dur) next = true := by
  have h1 := List.all_eq_true.1 h su hsu
  simp only [ht, bne_self_eq_false, Bool.false_or] at h1
  obtain ⟨i, hi⟩ := units_su (ips := group sort data su.src su.chnl su.spkr .ip)
    ((mem_group hs (s := su.src) (c := su.chnl) (p := su.spkr) (t := .su)).2 ⟨hsu, rfl, rfl, rfl, ht⟩)
  refine ⟨_, ?_, checkUnits_at _ h1 i _ hi⟩
  intro n hn
  obtain ⟨v, hv, rfl⟩ := Option.map_eq_some_iff.1 hn
  rcases units_fst (List.mem_of_getElem? hv) with h0 | ⟨s, hs', h0⟩
  · exact Or.inl h0
  · obtain ⟨a1, a2, a3, a4, a5⟩ := (mem_group hs).1 hs'
    exact Or.inr ⟨s, a1, a5, ⟨⟨a2, a3⟩, a4⟩, h0⟩

/-- In a file with times in milliseconds that passes the check of interruption points: an edit in a sentence unit has at its end a point
for an edit, a filler in a unit has at its begin a point for a filler, and a point in a unit has what its subtype says. -/
theorem ips_sound_partial {sort : List Obj → List Obj} (hs : Sorts sort) {data : List Obj} (hm : MilliFile data)
    (h : checkIps sort data = true) {su : Obj} (hsu : su ∈ data) (ht : su.ty = .su) :
    (∀ e ∈ data, e.ty = .edit → SameSpk e su → Within e su →
      ∃ p ∈ data, p.ty = .ip ∧ SameSpk p su ∧ p.beg = e.beg + e.dur ∧ (p.sub = .edit ∨ p.sub = .editFiller)) ∧
    (∀ f ∈ data, f.ty = .filler → SameSpk f su → Within f su →
      ∃ p ∈ data, p.ty = .ip ∧ SameSpk p su ∧ p.beg = f.beg ∧ (p.sub = .filler ∨ p.sub = .editFiller)) ∧
    (∀ p ∈ data, p.ty = .ip → SameSpk p su → su.beg ≤ p.beg → p.beg < su.beg + su.dur →
      p.sub ≠ .other ∧
      (p.sub = .edit ∨ p.sub = .editFiller → ∃ e ∈ data, e.ty = .edit ∧ SameSpk e su ∧ Within e su ∧ e.beg + e.dur = p.beg) ∧
      (p.sub = .filler ∨ p.sub = .editFiller → ∃ f ∈ data, f.ty = .filler ∧ SameSpk f su ∧ Within f su ∧ f.beg = p.beg)) := by
  obtain ⟨next, _, hu⟩ := checkIps_unit hs h hsu ht
  obtain ⟨h1, h2, h3⟩ := checkUnit_sound hu
  dsimp only at h1 h2 h3
  have hsum := hm su hsu
  have getE : ∀ k ∈ (editsIn su.beg (su.beg + su.dur) (group sort data su.src su.chnl su.spkr .edit)).map Mark.key,
      Milli k.1 ∧ ∃ e ∈ data, e.ty = .edit ∧ SameSpk e su ∧ Within e su ∧ e.beg + e.dur = k.1 := by
    intro k hk
    obtain ⟨o, ho, hin, hk⟩ := mem_editsIn hk
    obtain ⟨a1, a2, a3, a4, a5⟩ := (mem_group hs).1 ho
    have hmo := hm o a1
    exact ⟨by rw [hk]; exact milli_add hmo.1 hmo.2, o, a1, a5, ⟨⟨a2, a3⟩, a4⟩, (inSu_milli hsum hmo).1 hin, hk.symm⟩
  have getF : ∀ k ∈ (fillersIn su.beg (su.beg + su.dur) (group sort data su.src su.chnl su.spkr .filler)).map Mark.key,
      Milli k.1 ∧ ∃ e ∈ data, e.ty = .filler ∧ SameSpk e su ∧ Within e su ∧ e.beg = k.1 := by
    intro k hk
    obtain ⟨o, ho, hin, hk⟩ := mem_fillersIn hk
    obtain ⟨a1, a2, a3, a4, a5⟩ := (mem_group hs).1 ho
    have hmo := hm o a1
    exact ⟨by rw [hk]; exact hmo.1, o, a1, a5, ⟨⟨a2, a3⟩, a4⟩, (inSu_milli hsum hmo).1 hin, hk.symm⟩
  have getI : ∀ k ∈ (ipsIn su.beg (su.beg + su.dur) next (group sort data su.src su.chnl su.spkr .ip)).map Mark.key,
      Milli k.1 ∧ ∃ p ∈ data, p.ty = .ip ∧ SameSpk p su ∧ p.beg = k.1 ∧ p.sub = k.2 := by
    intro k hk
    obtain ⟨o, ho, _, hk⟩ := mem_ipsIn hk
    obtain ⟨a1, a2, a3, a4, a5⟩ := (mem_group hs).1 ho
    have hmo := hm o a1
    exact ⟨by rw [hk]; exact hmo.1, o, a1, a5, ⟨⟨a2, a3⟩, a4⟩, by rw [hk], by rw [hk]⟩
  refine ⟨fun e he het hsp hw => ?_, fun f hf hft hsp hw => ?_, fun p hp hpt hsp hb1 hb2 => ?_⟩
  · have hme := hm e he
    have hfin := milli_add hme.1 hme.2
    obtain ⟨k, hk, hn, hsub⟩ := h1 (e.beg + e.dur, .edit) (List.mem_map.2 ⟨⟨e.beg + e.dur, .edit, false⟩,
      List.mem_map.2 ⟨e, List.mem_filter.2 ⟨(mem_group hs).2 ⟨he, hsp.1.1, hsp.1.2, hsp.2, het⟩, (inSu_milli hsum hme).2 hw⟩, rfl⟩, rfl⟩)
    obtain ⟨hkm, p, p1, p2, p3, p4, p5⟩ := getI k hk
    refine ⟨p, p1, p2, p3, by rw [p4]; exact near_milli hkm hfin hn, ?_⟩
    rw [p5]
    exact hsub.imp id And.left
  · have hmf := hm f hf
    rcases h2 (f.beg, .filler) (List.mem_map.2 ⟨⟨f.beg, .filler, false⟩, List.mem_map.2 ⟨f,
      List.mem_filter.2 ⟨(mem_group hs).2 ⟨hf, hsp.1.1, hsp.1.2, hsp.2, hft⟩, (inSu_milli hsum hmf).2 hw⟩, rfl⟩, rfl⟩)
      with ⟨k, hk, hn, hsub⟩ | ⟨e, he, hne, k, hk, hn, hsub⟩
    · obtain ⟨hkm, p, p1, p2, p3, p4, p5⟩ := getI k hk
      exact ⟨p, p1, p2, p3, by rw [p4]; exact near_milli hkm hmf.1 hn, by rw [p5]; exact Or.inl hsub⟩
    · obtain ⟨hkm, p, p1, p2, p3, p4, p5⟩ := getI k hk
      obtain ⟨hem, _⟩ := getE e he
      refine ⟨p, p1, p2, p3, ?_, by rw [p5]; exact Or.inr hsub⟩
      rw [p4, near_milli hkm hem hn]
      exact (near_milli hmf.1 hem hne).symm
  · have hmp := hm p hp
    have hin : ipInside su.beg (su.beg + su.dur) p = true := by
      rw [ipInside_milli hsum hmp.1]
      omega
    have hwhy := h3 (p.beg, p.sub) (List.mem_map.2 ⟨⟨p.beg, p.sub, false⟩, List.mem_map.2 ⟨p,
      List.mem_filter.2 ⟨(mem_group hs).2 ⟨hp, hsp.1.1, hsp.1.2, hsp.2, hpt⟩, by rw [hin]; rfl⟩, rfl⟩, rfl⟩)
    rcases hwhy with ⟨hsub, e, he, hn⟩ | ⟨hsub, f, hf, hn⟩ | ⟨hsub, e, he, hn, f, hf, hn2⟩
    · dsimp only at hsub
      obtain ⟨hem, o, o1, o2, o3, o4, o5⟩ := getE e he
      refine ⟨by rw [hsub]; simp, fun _ => ⟨o, o1, o2, o3, o4, ?_⟩, fun hh => by rw [hsub] at hh; simp at hh⟩
      rw [o5]
      exact (near_milli hmp.1 hem hn).symm
    · dsimp only at hsub
      obtain ⟨hem, o, o1, o2, o3, o4, o5⟩ := getF f hf
      refine ⟨by rw [hsub]; simp, fun hh => by rw [hsub] at hh; simp at hh, fun _ => ⟨o, o1, o2, o3, o4, ?_⟩⟩
      rw [o5]
      exact (near_milli hmp.1 hem hn).symm
    · dsimp only at hsub
      obtain ⟨hem, o, o1, o2, o3, o4, o5⟩ := getE e he
      obtain ⟨hfm, o', q1, q2, q3, q4, q5⟩ := getF f hf
      have e1 := near_milli hmp.1 hem hn
      refine ⟨by rw [hsub]; simp, fun _ => ⟨o, o1, o2, o3, o4, ?_⟩, fun _ => ⟨o', q1, q2, q3, q4, ?_⟩⟩
      · rw [o5]; exact e1.symm
      · rw [q5, near_milli hfm hem hn2]; exact e1.symm

/-- An edit that ends with its sentence unit makes the check fail, whatever points there are, unless another unit of the speaker begins at
that moment. -/
theorem edit_at_end_rejected {sort : List Obj → List Obj} (hs : Sorts sort) {data : List Obj} (hm : MilliFile data) {su e : Obj}
    (hsu : su ∈ data) (ht : su.ty = .su) (he : e ∈ data) (het : e.ty = .edit) (hsp : SameSpk e su) (hw : Within e su)
    (hb : 0 ≤ e.beg) (hd : 0 < e.dur) (hend : e.beg + e.dur = su.beg + su.dur)
    (hno : ∀ s ∈ data, s.ty = .su → SameSpk s su → s.beg ≠ su.beg + su.dur) : checkIps sort data = false := by
  cases h : checkIps sort data with
  | false => rfl
  | true =>
    exfalso
    obtain ⟨next, hnext, hu⟩ := checkIps_unit hs h hsu ht
    obtain ⟨h1, _, _⟩ := checkUnit_sound hu
    dsimp only at h1
    have hsum := hm su hsu
    have hme := hm e he
    have hfin := milli_add hme.1 hme.2
    have hsfin := milli_add hsum.1 hsum.2
    obtain ⟨k, hk, hn, _⟩ := h1 (e.beg + e.dur, .edit) (List.mem_map.2 ⟨⟨e.beg + e.dur, .edit, false⟩,
      List.mem_map.2 ⟨e, List.mem_filter.2 ⟨(mem_group hs).2 ⟨he, hsp.1.1, hsp.1.2, hsp.2, het⟩, (inSu_milli hsum hme).2 hw⟩, rfl⟩, rfl⟩)
    obtain ⟨o, ho, hin, rfl⟩ := mem_ipsIn hk
    obtain ⟨a1, _⟩ := (mem_group hs).1 ho
    have hmo := hm o a1
    have heq : o.beg = e.beg + e.dur := near_milli hmo.1 hfin hn
    have hw1 := hw.1
    rcases hin with hin | hin
    · rw [ipInside_milli hsum hmo.1] at hin
      omega
    · cases next with
      | none => simp [ipAtEnd] at hin
      | some n =>
        simp only [ipAtEnd, Bool.and_eq_true] at hin
        have hnn := hin.2.1
        rcases hnext n rfl with hz | ⟨s, s1, s2, s3, s4⟩
        · rw [hz, equalTo_milli hsfin milli_zero, decide_eq_true_eq] at hnn
          omega
        · rw [s4, equalTo_milli hsfin (hm s s1).1, decide_eq_true_eq] at hnn
          exact hno s s1 s2 s3 hnn.symm

/-- A file with the point in its place for every edit and none in excess, which is refused all the same: the edit ends its unit. -/
theorem ips_counterexample : ∃ data : List Obj, MilliFile data ∧ checkIps exSort data = false ∧
    data = [ex .su 100 1900, ex .edit 1000 1000, ex .ip 2000 0 .edit] :=
  ⟨_, by
    intro o ho
    simp only [List.mem_cons, List.not_mem_nil, or_false, ex] at ho
    rcases ho with rfl | rfl | rfl <;> exact ⟨⟨_, rfl⟩, ⟨_, rfl⟩⟩, by decide +kernel, rfl⟩

/-- A point of subtype `other`, which the check of syntax allows, makes the check fail wherever it stands in a unit. -/
theorem ip_other_rejected {sort : List Obj → List Obj} (hs : Sorts sort) {data : List Obj} (hm : MilliFile data) {su p : Obj}
    (hsu : su ∈ data) (ht : su.ty = .su) (hp : p ∈ data) (hpt : p.ty = .ip) (hsp : SameSpk p su) (hb1 : su.beg ≤ p.beg)
    (hb2 : p.beg < su.beg + su.dur) (hsub : p.sub = .other) : checkIps sort data = false := by
  cases h : checkIps sort data with
  | false => rfl
  | true => exact absurd hsub ((ips_sound_partial hs hm h hsu ht).2.2 p hp hpt hsp hb1 hb2).1

/-- A point at the end of the last unit that belongs to nothing is not reported; but where the first unit begins at `0` with a filler and
its point, that stray point makes the check fail, because the program then goes on to a unit from `0` to `0`. -/
theorem ips_stray_counterexample :
    checkIps exSort [ex .su 10 1000, ex .filler 10 100, ex .ip 10 0 .filler, ex .ip 1010 0 .edit] = true ∧
    checkIps exSort [ex .su 0 1000, ex .filler 0 100, ex .ip 0 0 .filler] = true ∧
    checkIps exSort [ex .su 0 1000, ex .filler 0 100, ex .ip 0 0 .filler, ex .ip 1000 0 .edit] = false := by
  refine ⟨by decide +kernel, by decide +kernel, by decide +kernel⟩

example : checkIps exSort exFile = true ∧ ex .su 100 1900 ∈ exFile ∧ ex .edit 100 500 ∈ exFile ∧
    checkIps exSort (ex .ip 1500 0 .other :: exFile) = false := by
  refine ⟨by decide +kernel, by simp [exFile], by simp [exFile], by decide +kernel⟩

/-! ## C268: the options -/

/-- The options only leave out checks: `-u` that of words and units, `-s` that of words and turns, `-e` that of interruption points, `-p`
that of the speakers.  A file accepted with fewer options is accepted with more. -/
theorem valid_mono {sort : List Obj → List Obj} {op op' : Opts} {data : List Obj} (h1 : op.noSu = true → op'.noSu = true)
    (h2 : op.noSpeaker = true → op'.noSpeaker = true) (h3 : op.noEdit = true → op'.noEdit = true)
    (h4 : op.noSpkrInfo = true → op'.noSpkrInfo = true) (h : valid sort op data = true) : valid sort op' data = true := by
  simp only [valid, checkLogic, Bool.and_eq_true, Bool.or_eq_true] at h ⊢
  obtain ⟨hsy, ⟨⟨⟨⟨⟨a1, a2⟩, a3⟩, a4⟩, a5⟩, a6⟩, a7⟩ := h
  refine ⟨?_, ⟨⟨⟨⟨⟨a1, a2⟩, a3⟩, a4⟩, a5.imp_left h1⟩, a6.imp_left h2⟩, a7.imp_left h3⟩
  rw [checkSyntax, List.all_eq_true] at hsy ⊢
  intro o ho
  have := hsy o ho
  simp only [Bool.and_eq_true, Bool.or_eq_true] at this ⊢
  exact ⟨this.1, this.2.imp_left (fun h => h.imp_left h4)⟩

/-- What acceptance means, with the options. -/
theorem valid_iff_partial {sort : List Obj → List Obj} (hs : Sorts sort) {op : Opts} {data : List Obj} (hm : MilliFile data)
    (hd : ∀ o ∈ data, Timed o.ty → o.dur ≠ 0) : valid sort op data = true ↔
    checkSyntax op data = true ∧ NoOverlap data ∧
    (∀ m ∈ data, Holder m.ty → ∃ w ∈ data, w.ty = .lexeme ∧ SameSpk w m ∧ Within w m) ∧
    (∀ w ∈ data, w.ty = .lexeme → ∀ m ∈ data, Holder m.ty → SameSpk m w → Share w m → Within w m) ∧
    (∀ o ∈ data, (o.ty = .su ∨ o.ty = .edit ∨ o.ty = .filler ∨ o.ty = .speaker ∨ o.ty = .lexeme ∨ o.ty = .nonLex ∨ o.ty = .nonSpeech) →
      ∀ n ∈ data, n.ty = .noscore → n.spkr = naSpk → SameChan n o → Share o n → Within o n) ∧
    (op.noSu = false → ∀ w ∈ data, w.ty = .lexeme → ∃ m ∈ data, m.ty = .su ∧ SameSpk m w ∧ Within w m) ∧
    (op.noSpeaker = false → ∀ w ∈ data, w.ty = .lexeme → ∃ m ∈ data, m.ty = .speaker ∧ SameSpk m w ∧ Within w m) ∧
    (op.noEdit = false → checkIps sort data = true) := by
  constructor
  · intro h
    obtain ⟨h1, h2, h3, h4, h5, h6, h7, h8⟩ := valid_parts h
    exact ⟨h1, (overlap_iff_partial hs hm h1 hd).1 h2, (content_iff hs hm).1 h3, (partial_iff hs hm).1 h4,
      (noscore_iff_partial hs hm).1 h5, fun h => (covered_iff hs hm _).1 (h6 h), fun h => (covered_iff hs hm _).1 (h7 h), h8⟩
  · rintro ⟨h1, h2, h3, h4, h5, h6, h7, h8⟩
    simp only [valid, checkLogic, Bool.and_eq_true, Bool.or_eq_true]
    refine ⟨h1, ⟨⟨⟨⟨⟨(overlap_iff_partial hs hm h1 hd).2 h2, (content_iff hs hm).2 h3⟩, (partial_iff hs hm).2 h4⟩,
      (noscore_iff_partial hs hm).2 h5⟩, ?_⟩, ?_⟩, ?_⟩
    · cases ho : op.noSu with
      | true => exact Or.inl rfl
      | false => exact Or.inr ((covered_iff hs hm _).2 (h6 ho))
    · cases ho : op.noSpeaker with
      | true => exact Or.inl rfl
      | false => exact Or.inr ((covered_iff hs hm _).2 (h7 ho))
    · cases ho : op.noEdit with
      | true => exact Or.inl rfl
      | false => exact Or.inr (h8 ho)

example : valid exSort ⟨true, false, false, false⟩ (exFile.filter (fun o => o.ty != .su)) = true ∧
    valid exSort noOpts (exFile.filter (fun o => o.ty != .su)) = false := by
  refine ⟨by decide +kernel, by decide +kernel⟩

/-! ## C269: speakers -/

/-- Without `-p`, every line of an accepted file, except the regions not scored, has a speaker for whom the file has a SPKR-INFO line. -/
theorem speaker_declared_partial {sort : List Obj → List Obj} {op : Opts} {data : List Obj} (hp : op.noSpkrInfo = false)
    (h : valid sort op data = true) {o : Obj} (ho : o ∈ data) (ht : o.ty ≠ .noscore) : ∃ i ∈ data, i.ty = .spkrInfo ∧ i.spkr = o.spkr := by
  by_cases hi : o.ty = .spkrInfo
  · exact ⟨o, ho, hi, rfl⟩
  have := List.all_eq_true.1 (valid_parts h).1 o ho
  simp only [Bool.and_eq_true, Bool.or_eq_true, hp, Bool.false_eq_true, false_or] at this
  rcases this.2 with h1 | h1
  · cases hty : o.ty <;> rw [hty] at h1 ht hi <;> first | exact absurd rfl ht | exact absurd rfl hi | cases h1
  · simpa [findSpeaker] using h1

/-- The SPKR-INFO line need not be of the same recording: a file is accepted in which a speaker is declared for another recording only. -/
theorem speaker_other_file_counterexample : ∃ data : List Obj, ∃ w ∈ data, valid exSort noOpts data = true ∧ w.ty = .lexeme ∧
    ∀ i ∈ data, i.ty = .spkrInfo → i.src ≠ w.src :=
  ⟨{ ex .spkrInfo 0 0 with src := 2 } :: exFile.tail, ex .lexeme 900 1100, by simp [exFile], by decide +kernel, rfl, by decide +kernel⟩

/-- A NON-SPEECH line whose speaker is not declared, such as `<NA>`, makes the program refuse the file. -/
theorem nonSpeech_rejected {sort : List Obj → List Obj} {op : Opts} {data : List Obj} (hp : op.noSpkrInfo = false) {o : Obj} (ho : o ∈ data)
    (ht : o.ty = .nonSpeech) (hn : ∀ i ∈ data, i.ty = .spkrInfo → i.spkr ≠ o.spkr) : valid sort op data = false := by
  cases h : valid sort op data with
  | false => rfl
  | true =>
    obtain ⟨i, h1, h2, h3⟩ := speaker_declared_partial hp h ho (by rw [ht]; simp)
    exact absurd h3 (hn i h1 h2)

/-- Such a line, in an otherwise accepted file, with the speaker `<NA>` like a region not scored. -/
theorem nonSpeech_counterexample : valid exSort noOpts exFile = true ∧
    valid exSort noOpts (exFile ++ [⟨.nonSpeech, 1, 1, 8000000000, 1000000000, .other, naSpk⟩]) = false ∧
    valid exSort noOpts (exFile ++ [⟨.noscore, 1, 1, 8000000000, 1000000000, .other, naSpk⟩]) = true := by
  refine ⟨by decide +kernel, by decide +kernel, by decide +kernel⟩

end Verif.Valid
