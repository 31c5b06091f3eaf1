import Verif.Perp.Lemmas
/-!
# Theorems on the perplexity of a text
-/
set_option autoImplicit false
namespace Verif.Perp

/-- The words of a text that a closed vocabulary does not forbid. -/
def Allowed (lm : Lm) (ws : List String) : Prop := lm.closed = true → ∀ w ∈ ws, lm.look w ≠ 0

theorem step_ok {lm : Lm} {h : List Nat} {s : St} (i : Inv lm h s) (hw : s.wrong = false) (w : String) (ha : lm.closed = true → lm.look w ≠ 0) :
    Inv lm (h ++ [lm.look w]) (step lm s w) ∧ (step lm s w).wrong = false ∧
      (step lm s w).sum = s.sum + ((if counts lm (lm.look w) then [lm.pr (lm.look w) (last (lm.n - 1) h)] else []).map Prob.prob).sum ∧
      (step lm s w).probs = s.probs ++ (if counts lm (lm.look w) then [lm.pr (lm.look w) (last (lm.n - 1) h)] else []).map Prob.prob ∧
      (∀ k, (step lm s w).hits k = s.hits k +
        (if counts lm (lm.look w) then [lm.pr (lm.look w) (last (lm.n - 1) h)] else []).countP (fun p => decide (level p.acl p.bo = k))) ∧
      (step lm s w).exCcs = s.exCcs + (if lm.cue (lm.look w) then 1 else 0) ∧
      (step lm s w).exUnks = s.exUnks + (if !lm.cue (lm.look w) && decide (lm.look w = 0) && !lm.unks then 1 else 0) ∧
      (step lm s w).oovs = s.oovs ++ (if lm.look w = 0 then [w] else []) := by
  have hwrong : (s.wrong || (lm.closed && decide (lm.look w = 0))) = false := by
    rw [hw]
    cases hc : lm.closed
    · rfl
    · simp [ha hc]
  have hctx := fill_eq i
  have hsz : (fill lm s).length = lm.n - 1 := by rw [fill_length, i.size]
  have hinv : ∀ t : St, t.ctx = fill lm s → t.cur = lm.look w → t.total = s.total + 1 → Inv lm (h ++ [lm.look w]) t := by
    intro t e1 e2 e3
    refine ⟨by rw [e1, hsz], by rw [e3, i.total]; simp, fun g c e => ?_⟩
    obtain ⟨eg, ec⟩ := List.append_inj' e rfl
    rw [e1, e2, ← eg, ← len_eq i, hctx]
    simp only [List.cons.injEq, and_true] at ec
    exact ⟨ec, rfl⟩
  unfold step
  dsimp only
  rw [hwrong, if_neg (by simp)]
  cases hc : lm.cue (lm.look w)
  · rw [if_neg (by simp)]
    by_cases hu : (lm.unks || decide (lm.look w ≠ 0)) = true
    · rw [if_pos hu]
      have hk : counts lm (lm.look w) = true := by
        unfold counts
        rw [hc, hu]
        rfl
      have hx : (!false && decide (lm.look w = 0) && !lm.unks) = false := by
        cases hq : lm.unks
        · rw [hq] at hu
          simp at hu
          simp [hu]
        · simp
      refine ⟨hinv _ rfl rfl rfl, rfl, ?_, ?_, ?_, rfl, ?_, ?_⟩
      · rw [if_pos hk, hctx]
        simp
      · rw [if_pos hk, hctx]
        simp
      · intro k
        rw [if_pos hk, hctx]
        simp only [List.countP_cons, List.countP_nil, decide_eq_true_eq]
        by_cases e : k = level (lm.pr (lm.look w) (last (lm.n - 1) h)).acl (lm.pr (lm.look w) (last (lm.n - 1) h)).bo
        · rw [if_pos e, if_pos e.symm]
        · rw [if_neg e, if_neg (fun q => e q.symm)]
          rfl
      · rw [hx]
        rfl
      · by_cases h0 : lm.look w = 0
        · simp [h0]
        · simp [h0]
    · rw [if_neg hu]
      have hk : counts lm (lm.look w) = false := by
        unfold counts
        rw [hc]
        simpa using hu
      have hx : (!false && decide (lm.look w = 0) && !lm.unks) = true := by
        simp at hu
        simp [hu]
      refine ⟨hinv _ rfl rfl rfl, rfl, ?_, ?_, ?_, rfl, ?_, ?_⟩
      · simp [hk]
      · simp [hk]
      · intro k
        simp [hk]
      · rw [hx]
        rfl
      · by_cases h0 : lm.look w = 0
        · simp [h0]
        · simp [h0]
  · rw [if_pos rfl]
    have hk : counts lm (lm.look w) = false := by
      unfold counts
      rw [hc]
      rfl
    refine ⟨hinv _ rfl rfl rfl, rfl, ?_, ?_, ?_, rfl, rfl, ?_⟩
    · simp [hk]
    · simp [hk]
    · intro k
      simp [hk]
    · by_cases h0 : lm.look w = 0
      · simp [h0]
      · simp [h0]

theorem loop_ok {lm : Lm} (ws : List String) : ∀ {h : List Nat} {s : St}, Inv lm h s → s.wrong = false → Allowed lm ws →
    (ws.foldl (step lm) s).wrong = false ∧ (ws.foldl (step lm) s).total = h.length + ws.length ∧
      (ws.foldl (step lm) s).sum = s.sum + ((scored lm h (ws.map lm.look)).map Prob.prob).sum ∧
      (ws.foldl (step lm) s).probs = s.probs ++ (scored lm h (ws.map lm.look)).map Prob.prob ∧
      (∀ k, (ws.foldl (step lm) s).hits k = s.hits k + (scored lm h (ws.map lm.look)).countP (fun p => decide (level p.acl p.bo = k))) ∧
      (ws.foldl (step lm) s).exCcs = s.exCcs + (ws.map lm.look).countP lm.cue ∧
      (ws.foldl (step lm) s).exUnks = s.exUnks + (ws.map lm.look).countP (fun x => !lm.cue x && decide (x = 0) && !lm.unks) ∧
      (ws.foldl (step lm) s).oovs = s.oovs ++ ws.filter (fun w => decide (lm.look w = 0)) := by
  induction ws with
  | nil =>
    intro h s i hw _
    simp [hw, i.total, scored]
  | cons w ws ih =>
    intro h s i hw ha
    obtain ⟨a1, a2, a3, a4, a5, a6, a7, a8⟩ := step_ok i hw w (fun q => ha q w (by simp))
    obtain ⟨b1, b2, b3, b4, b5, b6, b7, b8⟩ := ih a1 a2 (fun q x hx => ha q x (by simp [hx]))
    simp only [List.foldl_cons, List.map_cons, scored]
    refine ⟨b1, ?_, ?_, ?_, ?_, ?_, ?_, ?_⟩
    · rw [b2]
      simp
      omega
    · rw [b3, a3, List.map_append, List.sum_append]
      omega
    · rw [b4, a4, List.map_append, List.append_assoc]
    · intro k
      rw [b5 k, a5 k, List.countP_append]
      omega
    · rw [b6, a6, List.countP_cons]
      omega
    · rw [b7, a7, List.countP_cons]
      omega
    · rw [b8, a8, List.append_assoc, List.filter_cons]
      by_cases h0 : lm.look w = 0 <;> simp [h0]

theorem scored_length (lm : Lm) (ws : List Nat) : ∀ h, (scored lm h ws).length = ws.countP (counts lm) := by
  induction ws with
  | nil => intro h; rfl
  | cons w ws ih =>
    intro h
    unfold scored
    rw [List.length_append, ih, List.countP_cons]
    by_cases q : counts lm w = true
    · simp [q]
      omega
    · simp [q]

theorem count_split (lm : Lm) (ws : List Nat) :
    ws.length = ws.countP (counts lm) + ws.countP lm.cue + ws.countP (fun x => !lm.cue x && decide (x = 0) && !lm.unks) := by
  induction ws with
  | nil => rfl
  | cons w ws ih =>
    simp only [List.length_cons, List.countP_cons]
    rw [ih]
    unfold counts
    cases lm.cue w <;> cases lm.unks <;> by_cases h0 : w = 0 <;> simp [h0] <;> omega

/-! ## C321: the perplexity of a text -/

/-- For a text with an end of line after the last word the perplexity comes from the probabilities of exactly the words that count, each after the words before it, whatever
these are. The streams of probabilities and unknown words, and the numbers of n-grams hit, are those of these words. -/
theorem perplexity_partial (lm : Lm) (ws : List String) (ha : Allowed lm ws) :
    ∃ r, report (loop lm ws true) = some r ∧ r.sum = ((scored lm [] (ws.map lm.look)).map Prob.prob).sum ∧
      r.words = ((scored lm [] (ws.map lm.look)).length : Int) ∧
      (∀ k, r.hits k = (scored lm [] (ws.map lm.look)).countP (fun p => decide (level p.acl p.bo = k))) ∧
      r.exCcs = (ws.map lm.look).countP lm.cue ∧
      r.exUnks = (ws.map lm.look).countP (fun x => !lm.cue x && decide (x = 0) && !lm.unks) ∧
      (loop lm ws true).probs = (scored lm [] (ws.map lm.look)).map Prob.prob ∧
      (loop lm ws true).oovs = ws.filter (fun w => decide (lm.look w = 0)) := by
  obtain ⟨b1, b2, b3, b4, b5, b6, b7, b8⟩ := loop_ok ws (start_inv lm) rfl ha
  have e : loop lm ws true = ws.foldl (step lm) (start lm) := rfl
  rw [e]
  unfold report
  rw [b1, if_neg (by simp)]
  refine ⟨_, rfl, ?_, ?_, ?_, ?_, ?_, ?_, ?_⟩
  · dsimp only
    rw [b3]
    simp [start]
  · dsimp only
    rw [b2, b6, b7, scored_length]
    have := count_split lm (ws.map lm.look)
    simp only [List.length_map] at this
    simp only [start, List.length_nil]
    omega
  · intro k
    dsimp only
    rw [b5 k]
    simp [start]
  · dsimp only
    rw [b6]
    simp [start]
  · dsimp only
    rw [b7]
    simp [start]
  · rw [b4]
    simp [start]
  · rw [b8]
    simp [start]

/-- A text that ends with its last word gives the same as without that word. -/
theorem last_lost (lm : Lm) (ws : List String) (w : String) : loop lm (ws ++ [w]) false = loop lm ws true := by
  simp [loop, taken]

theorem wrong_stays (lm : Lm) (ws : List String) : ∀ s : St, s.wrong = true → (ws.foldl (step lm) s).wrong = true := by
  induction ws with
  | nil => intro s h; exact h
  | cons w ws ih =>
    intro s h
    rw [List.foldl_cons]
    apply ih
    unfold step
    dsimp only
    rw [h, Bool.true_or, if_pos rfl]

theorem wrong_found (lm : Lm) (hc : lm.closed = true) (ws : List String) : ∀ s : St, (∃ w ∈ ws, lm.look w = 0) → (ws.foldl (step lm) s).wrong = true := by
  induction ws with
  | nil =>
    rintro s ⟨w, hw, _⟩
    simp at hw
  | cons v ws ih =>
    rintro s ⟨w, hw, h0⟩
    rw [List.foldl_cons]
    rcases List.mem_cons.1 hw with e | hw
    · apply wrong_stays
      subst e
      unfold step
      dsimp only
      rw [hc, h0]
      simp
    · exact ih _ ⟨w, hw, h0⟩

/-- With a closed vocabulary nothing is printed for a text with a word outside it. -/
theorem closed_none (lm : Lm) (hc : lm.closed = true) (ws : List String) (hw : ∃ w ∈ ws, lm.look w = 0) : report (loop lm ws true) = none := by
  have : (loop lm ws true).wrong = true := wrong_found lm hc ws _ hw
  unfold report
  rw [if_pos this]

theorem code_lt (ds : List Nat) (h : ∀ d ∈ ds, d < 4) : code ds < 4 ^ ds.length := by
  induction ds with
  | nil => simp [code]
  | cons d ds ih =>
    have h1 := ih (fun x hx => h x (by simp [hx]))
    have h2 := h d (by simp)
    simp only [code, List.length_cons, Nat.pow_succ]
    have : d * 4 ^ ds.length ≤ 3 * 4 ^ ds.length := Nat.mul_le_mul_right _ (by omega)
    omega

/-- The n-gram counted as hit is the longest that was used after the steps of backing off. -/
theorem level_used (ds : List Nat) (h : ∀ d ∈ ds, d < 4) : level ds.length (code ds) = used ds := by
  induction ds with
  | nil => rfl
  | cons d ds ih =>
    have h1 : ∀ x ∈ ds, x < 4 := fun x hx => h x (by simp [hx])
    have hlt := code_lt ds h1
    have hdiv : (d * 4 ^ ds.length + code ds) / 4 ^ ds.length = d := by
      rw [Nat.mul_comm, Nat.mul_add_div (Nat.pow_pos (by decide)), Nat.div_eq_of_lt hlt]
      omega
    simp only [List.length_cons, level, code, used, hdiv]
    by_cases hd : d = 0
    · simp [hd]
    · have hz : d * 4 ^ ds.length + code ds ≠ 0 := by
        have : 0 < d * 4 ^ ds.length := Nat.mul_pos (by omega) (Nat.pow_pos (by decide))
        omega
      rw [if_neg (by simp only [Bool.or_eq_true, decide_eq_true_eq]; omega), if_neg hd, Nat.add_sub_cancel_left]
      exact ih h1

/-- A model of three words for the examples: the probability tells the context. -/
def sample (unks : Bool) : Lm :=
  { n := 3, look := fun s => ["a", "b", "s"].findIdx? (· == s) |>.elim 0 (· + 1), pr := fun w c => ⟨-(((w :: c).foldl (fun x y => 10 * x + y) 0 : Nat) : Int), 0, c.length⟩,
    cue := fun k => k == 3, closed := false, unks := unks }

example : (loop (sample false) ["s", "a", "x", "b", "a", "a"] true).probs = [-13, -210, -102, -121] ∧
    (loop (sample true) ["s", "a", "x", "b", "a", "a"] true).probs = [-13, -31, -210, -102, -121] ∧
    (loop (sample false) ["s", "a", "x", "b", "a", "a"] false).probs = [-13, -210, -102] := by decide +kernel

example : Allowed { sample false with closed := true } ["s", "a"] := by
  intro _ w hw
  simp at hw
  rcases hw with rfl | rfl <;> decide +kernel

/-! ## C322: lists of forced backing off -/

/-- A list with a word and a mark in each line that is no comment. -/
inductive Written : List Line → List (String × Bool) → Prop where
  | nil : Written [] []
  | comment {ls : List Line} {es : List (String × Bool)} : Written ls es → Written (.comment :: ls) es
  | entry {w m : String} {b : Bool} {rest : List String} {ls : List Line} {es : List (String × Bool)} :
      Mark m b → Written ls es → Written (.fields (w :: m :: rest) :: ls) ((w, b) :: es)

theorem kind_mark {m : String} {b : Bool} (h : Mark m b) : kind m = some b := by
  unfold kind
  rcases h with ⟨rfl, h⟩ | ⟨rfl, h⟩
  all_goals
    cases e : m.toList with
    | nil => simp [e] at h
    | cons c cs =>
      rw [e] at h
      simp only [List.head?_cons, Option.some.injEq] at h
      rcases h with rfl | rfl <;> rfl

theorem lastFor_cons (look : String → Nat) (k : Nat) (e : String × Bool) (es : List (String × Bool)) :
    lastFor look k (e :: es) = (lastFor look k es).or (if look e.1 = k then some e.2 else none) := by
  unfold lastFor
  rw [List.filter_cons]
  by_cases h : look e.1 = k
  · rw [if_pos (by simpa using h), if_pos h, List.getLast?_cons]
    cases (es.filter (fun e => decide (look e.1 = k))).getLast? <;> rfl
  · rw [if_neg (by simpa using h), if_neg h]
    simp

theorem file_written {look : String → Nat} {ls : List Line} {es : List (String × Bool)} (hw : Written ls es) :
    ∀ (w m : Option String) (fb : Nat → Option Bool), file look w m fb ls = some (fun k => (lastFor look k es).or (fb k)) := by
  induction hw with
  | nil =>
    intro w m fb
    rw [file]
    simp [lastFor]
  | comment _ ih =>
    intro w m fb
    rw [file]
    exact ih w m fb
  | @entry x y b rest ls es hk _ ih =>
    intro w m fb
    have hk := kind_mark hk
    rw [file]
    simp only [hk]
    rw [ih]
    congr 1
    funext k
    rw [lastFor_cons]
    unfold put
    by_cases e : k = look x
    · rw [if_pos e, if_pos e.symm]
      simp
    · rw [if_neg e, if_neg (fun q => e q.symm)]
      simp

/-- What the options ask for: context cues first, then unknown words, where exclusive backing off from unknown words and inclusive backing off from cues win. -/
theorem options_eq (vocab : Nat) (cue : Nat → Bool) (unkInc unkExc ccsInc ccsExc : Bool) (k : Nat) (hk : k ≤ vocab) :
    options vocab cue unkInc unkExc ccsInc ccsExc k =
      if cue k = true ∧ (ccsInc = true ∨ ccsExc = true) then some ccsInc
      else if k = 0 ∧ (unkInc = true ∨ unkExc = true) then some (!unkExc)
      else none := by
  unfold options put
  cases unkInc <;> cases unkExc <;> cases ccsInc <;> cases ccsExc <;> cases hq : cue k <;> by_cases h0 : k = 0 <;> simp_all

/-- In a list that is well written the last line for a word decides, then the options; lines for words that are not in the vocabulary are lines for all unknown words. -/
theorem list_partial (look : String → Nat) (vocab : Nat) (cue : Nat → Bool) (unkInc unkExc ccsInc ccsExc : Bool) (ls : List Line) (es : List (String × Bool)) (hw : Written ls es) :
    ∃ fb, genFb look vocab cue unkInc unkExc ccsInc ccsExc ls = some fb ∧ ∀ k, k ≤ vocab → fb k = (lastFor look k es).or
      (if cue k = true ∧ (ccsInc = true ∨ ccsExc = true) then some ccsInc
      else if k = 0 ∧ (unkInc = true ∨ unkExc = true) then some (!unkExc)
      else none) := by
  refine ⟨_, file_written hw none none _, fun k hk => ?_⟩
  rw [options_eq vocab cue unkInc unkExc ccsInc ccsExc k hk]

/-- A word that is not in the vocabulary forces backing off from every unknown word, although it is reported as an error. -/
theorem unknown_forces (look : String → Nat) (vocab : Nat) (cue : Nat → Bool) (x : String) (hx : look x = 0) :
    ∃ fb, genFb look vocab cue false false false false [.fields [x, "i"]] = some fb ∧ ∀ y, look y = 0 → fb (look y) = some true := by
  refine ⟨_, file_written (.entry (b := true) (.inl ⟨rfl, .inl rfl⟩) .nil) none none _, fun y hy => ?_⟩
  simp [lastFor, hx, hy]

/-- A line with a word only takes the mark of the line before, and a mark that was never read in the first line. -/
theorem mark_kept (look : String → Nat) (vocab : Nat) (cue : Nat → Bool) (x y : String) :
    genFb look vocab cue false false false false [.fields [x]] = none ∧
      ∃ fb, genFb look vocab cue false false false false [.fields [x, "e"], .fields [y]] = some fb ∧ fb (look y) = some false := by
  refine ⟨rfl, _, rfl, ?_⟩
  simp [put]

example : Written [.comment, .fields ["a", "inc"], .fields ["b", "E", "more"]] [("a", true), ("b", false)] :=
  .comment (.entry (.inl ⟨rfl, .inl rfl⟩) (.entry (.inr ⟨rfl, .inr rfl⟩) .nil))

end Verif.Perp
