import Verif.Diff.Lemmas
import Verif.CtmIn.Props
/-!
# Alignments taken from `diff`: properties
-/
set_option autoImplicit false
namespace Verif.Diff

theorem chan_divided (init : List (List W)) (w : W) (ws : List W) (E : List Ed) (hp : ∀ e ∈ E, e.Plain)
    (hE : E.filterMap Ed.left = (init ++ [w :: ws]).flatten) (rEnd num r : Nat) (hr : r + init.length = rEnd) (hn : rEnd ≠ num) :
    ∃ out, chanLoop rEnd num r (init ++ [w :: ws]) (E.map shown) = some out ∧ Divided (init ++ [w :: ws]) E out := by
  rw [List.flatten_append] at hE
  obtain ⟨Ps, E', h1, h2, h3, h4, h5⟩ := shares init E _ hp hE
  have hl : ∀ i, r ≤ i → i < r + init.length → isLast rEnd num i = false := by
    intro i _ h
    unfold isLast
    rw [if_neg hn]
    exact decide_eq_false (by omega)
  have hlast : isLast rEnd num (r + init.length) = true := by
    unfold isLast
    rw [if_neg hn]
    exact decide_eq_true (by omega)
  refine ⟨_, ?_, Ps ++ [E'], rfl, ?_, ?_, ?_⟩
  · rw [h5 rEnd num r hl [w :: ws]]
    unfold chanLoop
    rw [hlast, utt_true w ws E' (fun e he => hp e (by rw [h1]; exact List.mem_append_right _ he))]
    simp [chanLoop]
  · rw [List.flatten_append, h1]; simp
  · rw [List.map_append]
    congr 1
    rw [List.map_cons, List.map_nil]
    have : lefts E' = w :: ws := by rw [h3]; simp
    exact congrArg (fun x => [x]) this
  · intro P hP
    rw [List.dropLast_concat] at hP
    exact h4 P hP

/-! ## C163: `diff` with reference segments -/

/-- **C163.**  Whatever edit script of the words of references and hypothesis `diff` finds, the alignments of the references are that script
divided among them, if the last reference has a word and no word is a mark of `diff` or longer than 99 bytes. -/
theorem text_alignment_partial (refs : List (List W)) (E : List Ed) (hp : ∀ e ∈ E, e.Plain) (hE : E.filterMap Ed.left = refs.flatten)
    (hlast : ∃ c, refs.getLast? = some c ∧ c ≠ []) :
    ∃ out, alignText refs (E.map shown) = some out ∧ Divided refs E out := by
  obtain ⟨c, hc, hne⟩ := hlast
  obtain ⟨w, ws, rfl⟩ : ∃ w ws, c = w :: ws := by cases c with | nil => exact absurd rfl hne | cons w ws => exact ⟨w, ws, rfl⟩
  obtain ⟨init, rfl⟩ := List.getLast?_eq_some_iff.mp hc
  rw [alignText_eq (init ++ [w :: ws]) _ ((init ++ [w :: ws]).length) 0 (.inr (by simp))]
  exact chan_divided init w ws E hp hE _ _ 0 (by simp) (by simp)

def bw : String → W := CtmIn.bytes

example : alignText [[bw "a", bw "b"], [], [bw "c"]] ([Ed.same (bw "a"), .ins (bw "x"), .sub (bw "b") (bw "y"), .ins (bw "z"), .del (bw "c"),
      .ins (bw "v")].map shown) =
    some [[⟨.corr, some (bw "a"), some (bw "a")⟩, ⟨.ins, none, some (bw "x")⟩, ⟨.sub, some (bw "b"), some (bw "y")⟩], [],
      [⟨.ins, none, some (bw "z")⟩, ⟨.del, some (bw "c"), none⟩, ⟨.ins, none, some (bw "v")⟩]] := by decide

/-- What is missing in `text_alignment_partial`: hypothesis words after the last reference word are lost if the last reference is empty. -/
theorem empty_last_loses_words (init : List (List W)) (E : List Ed) (hp : ∀ e ∈ E, e.Plain) (hE : E.filterMap Ed.left = init.flatten) :
    ∃ Ps : List (List Ed), alignText (init ++ [[]]) (E.map shown) = some (Ps.map (fun P => P.map Ed.el) ++ [[]]) ∧
      ∃ lost, Ps.flatten ++ lost = E ∧ ∀ P ∈ Ps, P = [] ∨ ∃ e, P.getLast? = some e ∧ e.left ≠ none := by
  obtain ⟨Ps, E', h1, h2, h3, h4, h5⟩ := shares init E [] hp (by rw [List.append_nil]; exact hE)
  refine ⟨Ps, ?_, E', h1.symm, h4⟩
  rw [alignText_eq (init ++ [[]]) _ ((init ++ [[]]).length) 0 (.inr (by simp))]
  rw [h5 _ _ 0 ?_ [[]]]
  · simp [chanLoop, utt]
  · intro i _ h
    unfold isLast
    rw [if_neg (by simp)]
    apply decide_eq_false
    simp only [List.length_append, List.length_cons, List.length_nil]
    omega

/-- An insertion that is lost. -/
example : alignText [[bw "a"], []] ([Ed.same (bw "a"), .ins (bw "x")].map shown) = some [[⟨.corr, some (bw "a"), some (bw "a")⟩], []] := by
  decide

/-- What else is missing: words that look like the marks of `diff`.  A deleted `<` and an inserted `>` count as correct, a deleted `>` as
an inserted `<`. -/
theorem marks_as_words :
    process (shown (.del (bw "<"))) = some (⟨.corr, some (bw "<"), some (bw "<")⟩, bw "<") ∧
    process (shown (.ins (bw ">"))) = some (⟨.corr, some (bw ">"), some (bw ">")⟩, bw ">") ∧
    process (shown (.del (bw ">"))) = some (⟨.ins, none, some (bw "<")⟩, bw ">") := by decide

/-- And words of 100 bytes or more, which overflow a buffer. -/
theorem long_word_overflows (e : Ed) (w : W) (hw : e.left = some w ∨ e.right = some w) (hl : 100 ≤ w.length) : process (shown e) = none := by
  have hl' : ¬ w.length < 100 := by omega
  unfold process
  cases e with
  | same x => rcases hw with h | h <;> (cases h; simp [shown, hl'])
  | del x => rcases hw with h | h <;> cases h; simp [shown, hl']
  | ins x => rcases hw with h | h <;> cases h; simp [shown, hl']
  | sub x y => rcases hw with h | h <;> (cases h; simp [shown, hl'])

example : process (shown (.ins (List.replicate 100 97))) = none := by decide

/-! ## C164: `diff` with transcripts -/

/-- **C164.**  The same for hypotheses with identifiers, if no identifier occurs twice: `is` are the places of their references in the list
of references. -/
theorem transcripts_alignment_partial (refs : List (List W)) (is : List Nat) (hn : is.Nodup) (hi : ∀ i ∈ is, i < refs.length) (E : List Ed)
    (hp : ∀ e ∈ E, e.Plain) (hE : E.filterMap Ed.left = (is.map (fun i => refs.getD i [])).flatten)
    (hlast : ∃ i, is.getLast? = some i ∧ refs.getD i [] ≠ []) :
    ∃ out, alignTrans refs is (E.map shown) = some out ∧ Divided (is.map (fun i => refs.getD i [])) E out := by
  rw [alignTrans_eq is refs refs _ hn (fun _ _ => rfl) hi]
  apply text_alignment_partial _ E hp hE
  obtain ⟨i, h1, h2⟩ := hlast
  exact ⟨_, by rw [List.getLast?_map, h1]; rfl, h2⟩

example : alignTrans [[bw "a", bw "b"], [bw "c", bw "d"]] [1, 0] ([Ed.same (bw "c"), .same (bw "d"), .same (bw "a"), .same (bw "b")].map shown) =
    some [[⟨.corr, some (bw "c"), some (bw "c")⟩, ⟨.corr, some (bw "d"), some (bw "d")⟩],
      [⟨.corr, some (bw "a"), some (bw "a")⟩, ⟨.corr, some (bw "b"), some (bw "b")⟩]] := by decide

/-- What is missing: with a repeated identifier the second hypothesis has only the first word of its reference, the others go to the
next. -/
theorem repeated_identifier_wrong :
    alignTrans [[bw "a", bw "b"], [bw "c"]] [0, 0, 1]
      ([Ed.same (bw "a"), .same (bw "b"), .same (bw "a"), .same (bw "b"), .same (bw "c")].map shown) =
    some [[⟨.corr, some (bw "a"), some (bw "a")⟩, ⟨.corr, some (bw "b"), some (bw "b")⟩], [⟨.corr, some (bw "a"), some (bw "a")⟩],
      [⟨.corr, some (bw "b"), some (bw "b")⟩, ⟨.corr, some (bw "c"), some (bw "c")⟩]] := by decide

/-! ## C165: `diff` with time-marked files -/

/-- **C165.**  The segments of a channel, from `rSt` to `rEnd`, when further segments follow in the table. -/
theorem channel_alignment_partial (segs : List (List W)) (rSt rEnd : Nat) (h1 : rSt ≤ rEnd) (h2 : rEnd < segs.length) (E : List Ed)
    (hp : ∀ e ∈ E, e.Plain) (hE : E.filterMap Ed.left = ((segs.take (rEnd + 1)).drop rSt).flatten) (hlast : segs.getD rEnd [] ≠ []) :
    ∃ out, alignChannel segs rSt rEnd (E.map shown) = some out ∧ Divided ((segs.take (rEnd + 1)).drop rSt) E out := by
  unfold alignChannel
  rw [if_neg (by omega)]
  have hs : (segs.take (rEnd + 1)).drop rSt = (segs.take rEnd).drop rSt ++ [segs.getD rEnd []] := by
    rw [List.take_succ, List.drop_append_of_le_length (by rw [List.length_take]; omega), List.getD_eq_getElem?_getD,
      List.getElem?_eq_getElem h2]
    rfl
  cases hc : segs.getD rEnd [] with
  | nil => exact absurd hc hlast
  | cons w ws =>
    rw [hc] at hs
    rw [hs] at hE ⊢
    refine chan_divided _ w ws E hp hE rEnd segs.length rSt ?_ (by omega)
    rw [List.length_drop, List.length_take]
    omega

example : alignChannel [[bw "a"], [bw "b"], [bw "c"]] 0 1 ([Ed.same (bw "a"), .ins (bw "x"), .same (bw "b"), .ins (bw "y")].map shown) =
    some [[⟨.corr, some (bw "a"), some (bw "a")⟩],
      [⟨.ins, none, some (bw "x")⟩, ⟨.corr, some (bw "b"), some (bw "b")⟩, ⟨.ins, none, some (bw "y")⟩]] := by decide

/-- What is missing: in the last channel of the table no segment is known to be the last one, and the hypothesis words after the last
reference word are lost. -/
theorem last_channel_loses_words (segs : List (List W)) (rSt : Nat) (E : List Ed)
    (hp : ∀ e ∈ E, e.Plain) (hE : E.filterMap Ed.left = (segs.drop rSt).flatten) :
    ∃ Ps : List (List Ed), alignChannel segs rSt segs.length (E.map shown) = some (Ps.map (fun P => P.map Ed.el)) ∧
      Ps.map (fun P => P.filterMap Ed.left) = segs.drop rSt ∧
      ∃ lost, Ps.flatten ++ lost = E ∧ ∀ P ∈ Ps, P = [] ∨ ∃ e, P.getLast? = some e ∧ e.left ≠ none := by
  obtain ⟨Ps, E', h1, h2, h3, h4, h5⟩ := shares (segs.drop rSt) E [] hp (by rw [List.append_nil]; exact hE)
  refine ⟨Ps, ?_, h2, E', h1.symm, h4⟩
  unfold alignChannel
  rw [if_pos rfl, Nat.add_zero, List.take_length]
  have := h5 segs.length segs.length rSt ?_ []
  · rw [List.append_nil] at this
    rw [this]
    simp [chanLoop]
  · intro i g1 g2
    unfold isLast
    rw [if_pos rfl]
    apply decide_eq_false
    rw [List.length_drop] at g2
    omega

/-- An insertion at the end that is lost. -/
theorem last_insertion_lost :
    alignChannel [[bw "a"], [bw "b"]] 0 2 ([Ed.same (bw "a"), .same (bw "b"), .ins (bw "y")].map shown) =
    some [[⟨.corr, some (bw "a"), some (bw "a")⟩], [⟨.corr, some (bw "b"), some (bw "b")⟩]] := by decide

/-! ## C166: the buffer for reference texts -/

/-- The size remembered and allocated at some time, when texts of these lengths have been copied. -/
def BufOk (ns : List Nat) (b : Nat × Nat) : Prop := b = (100, 100) ∨ (101 < b.1 ∧ b.2 = b.1 + 1 ∧ b.1 ∈ ns)

theorem copyAll_ok : ∀ (ns done : List Nat) (b : Nat × Nat), BufOk done b → (∀ n ∈ ns, n ≠ 100 ∧ n ≠ 101) →
    (∀ m ∈ done ++ ns, ∀ n ∈ done ++ ns, n ≠ m + 1 ∨ m < 102) → ∃ b', copyAll b ns = some b'
  | [], done, b, _, _, _ => ⟨b, rfl⟩
  | n :: ns, done, b, hb, h1, h2 => by
    unfold copyAll
    have hn := h1 n List.mem_cons_self
    have step : ∃ b', copyText b n = some b' ∧ BufOk (done ++ [n]) b' := by
      unfold copyText
      by_cases hg : n > b.1 + 1
      · rw [if_pos hg]
        refine ⟨_, rfl, .inr ⟨?_, rfl, by simp⟩⟩
        show 101 < n
        rcases hb with hb | ⟨hb, _, _⟩
        · rw [hb] at hg; exact hg
        · omega
      · rw [if_neg hg]
        have hlt : n < b.2 := by
          rcases hb with hb | ⟨q1, q2, q3⟩
          · rw [hb] at hg ⊢
            dsimp only at hg ⊢
            omega
          · have := h2 b.1 (List.mem_append_left _ q3) n (by simp)
            omega
        rw [if_pos hlt]
        refine ⟨b, rfl, ?_⟩
        rcases hb with hb | ⟨q1, q2, q3⟩
        · exact .inl hb
        · exact .inr ⟨q1, q2, List.mem_append_left _ q3⟩
    obtain ⟨b', s1, s2⟩ := step
    rw [s1]
    exact copyAll_ok ns (done ++ [n]) b' s2 (fun m hm => h1 m (List.mem_cons_of_mem _ hm)) (by simpa using h2)

/-- **C166.**  Copying the reference texts does not overflow the buffer if none is 100 or 101 bytes long and no two texts of more than
101 bytes differ in length by one. -/
theorem texts_fit_partial (ns : List Nat) (h1 : ∀ n ∈ ns, n ≠ 100 ∧ n ≠ 101) (h2 : ∀ m ∈ ns, ∀ n ∈ ns, n ≠ m + 1 ∨ m < 102) :
    ∃ b, copyAll (100, 100) ns = some b := copyAll_ok ns [] (100, 100) (.inl rfl) h1 (by simpa using h2)

example : copyAll (100, 100) [99, 102, 250, 3, 252] = some (252, 253) := by decide

/-- What is missing: the first text of 100 or 101 bytes, when no longer one came before, overflows the buffer, and so does a text one byte longer
than the longest before. -/
theorem text_overflows (ns : List Nat) (n : Nat) (hn : n = 100 ∨ n = 101) (h : ∀ m ∈ ns, m < 100) (post : List Nat) :
    copyAll (100, 100) (ns ++ n :: post) = none := by
  induction ns with
  | nil =>
    show (copyText (100, 100) n).bind _ = none
    rcases hn with hn | hn <;> subst hn <;> rfl
  | cons m ns ih =>
    have hm := h m List.mem_cons_self
    show (copyText (100, 100) m).bind _ = none
    have : copyText (100, 100) m = some (100, 100) := by
      unfold copyText
      rw [if_neg (by omega), if_pos hm]
    rw [this]
    exact ih (fun x hx => h x (List.mem_cons_of_mem _ hx))

theorem longer_text_overflows (n : Nat) (hn : 101 < n) (post : List Nat) : copyAll (100, 100) (n :: (n + 1) :: post) = none := by
  have h1 : copyText (100, 100) n = some (n, n + 1) := if_pos hn
  have h2 : copyText (n, n + 1) (n + 1) = none := by
    unfold copyText
    rw [if_neg (Nat.lt_irrefl _), if_neg (Nat.lt_irrefl _)]
  simp [copyAll, h1, h2]

end Verif.Diff
