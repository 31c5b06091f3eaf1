import Verif.Expand.Rows
/-!
# Words with alternatives in RTTM files: the properties
-/
set_option autoImplicit false
namespace Verif.Expand
open Verif.LineStyle

/-! ## C128: what the words stand for -/

theorem parsed_of_written {f : Nat} {v : Env} {s : Store} {l : List Nat} {alt : Nat → Alts} (hl : l.length < f)
    (h : ∀ r ∈ l, Marked (textOf v s r) → Written (textOf v s r) (alt r) ∧ (alt r).text.length < f) : Parsed f v s l := by
  refine ⟨fun r hr hm c => ?_, hl⟩
  obtain ⟨⟨h1, h2⟩, h3⟩ := h r hr hm
  obtain ⟨p, c', e, _⟩ := alternation_exact (alt r) h1 f c h3
  exact ⟨p, c', by rw [h2]; exact e⟩

theorem parses_of_written {f : Nat} {v : Env} {s : Store} {r : Nat} {alt : Nat → Alts} (h1 : Written (textOf v s r) (alt r)) (h3 : (alt r).text.length < f) :
    Parses f v s (Spoken v s (fun x w => (alt x).got w ∧ w ≠ [])) r := by
  intro c p c' hp u
  obtain ⟨p', c'', e, hs⟩ := alternation_exact (alt r) h1.1 f c h3
  rw [h1.2, e] at hp
  have hp' := Option.some.inj hp
  have e1 : p' = p := congrArg Prod.fst hp'
  subst e1
  unfold Spoken
  constructor
  · rintro ⟨w, ⟨hw, hn⟩, rfl⟩
    exact ⟨w, (hs w hn).2 hw, rfl⟩
  · rintro ⟨w, hw, rfl⟩
    exact ⟨w, ⟨(hs w (spells_ne hw)).1 hw, spells_ne hw⟩, rfl⟩

theorem paths_val {v : Env} {s : Store} {M : Nat → List Word → Prop} (a b : Seg) (u : List Word) :
    Paths s a b u ↔ Lang (fun x y => y ∈ s.next x) (· ∈ a.first) (· ∈ b.last) (Val v s M []) u :=
  lang_congr (fun _ _ => Iff.rfl) (fun _ => Iff.rfl) (fun _ => Iff.rfl) (fun x u => by simp [Val]) u

/-- C128 on any set of speeches: after the expansion, the word sequences on the paths between two segments are those of the paths there were,
where each word with alternatives stands for the sequences its notation gives. The program never lets such a word stand for the empty sequence. -/
theorem expansion_language {v : Env} {s : Store} {ps : List (Seg × List Nat)} (h : Speeches v s ps) (alt : Nat → Alts) (f : Nat)
    (hf : ∀ q ∈ ps, q.2.length < f ∧ ∀ r ∈ q.2, Marked (textOf v s r) → Written (textOf v s r) (alt r) ∧ (alt r).text.length < f) :
    ∃ s' sgs', expand f v (ps.map Prod.fst) s = .ok (s', sgs') ∧ sgs'.length = ps.length ∧
      ∀ (i j : Nat) (a b : Seg × List Nat) (a' b' : Seg), ps[i]? = some a → ps[j]? = some b → sgs'[i]? = some a' → sgs'[j]? = some b' →
        ∀ u, Paths s' a' b' u ↔ Lang (fun x y => y ∈ s.next x) (· ∈ a.1.first) (· ∈ b.1.last)
          (Val v s (Spoken v s (fun x w => (alt x).got w ∧ w ≠ [])) (ps.map Prod.snd).flatten) u := by
  obtain ⟨s', sgs', e, hr⟩ := expand_runs ps s h.wf h.fit h.distinct (fun q hq => parsed_of_written (hf q hq).1 (hf q hq).2)
  refine ⟨s', sgs', e, hr.size, ?_⟩
  intro i j a b a' b' hi hj hi' hj' u
  rw [paths_val (v := v) (M := Spoken v s (fun x w => (alt x).got w ∧ w ≠ [])) a' b' u]
  rw [hr.lang _ (fun q hq r hr hm => parses_of_written ((hf q hq).2 r hr hm).1 ((hf q hq).2 r hr hm).2) [] (by simp) _ _ _ _
    (Or.inl ⟨i, a, a', hi, hi', rfl, rfl⟩) (Or.inl ⟨j, b, b', hj, hj', rfl, rfl⟩) u, List.append_nil]

/-- C128 for tokens in a row: the part `B` of a speech, from the beginning of a segment to the end of a segment, is read as the concatenation
of what its tokens stand for. -/
theorem expansion_spoken {v : Env} {s : Store} {ps : List (Seg × List Nat)} (h : Speeches v s ps) (alt : Nat → Alts) (f : Nat)
    (hf : ∀ q ∈ ps, q.2.length < f ∧ ∀ r ∈ q.2, Marked (textOf v s r) → Written (textOf v s r) (alt r) ∧ (alt r).text.length < f) :
    ∃ s' sgs', expand f v (ps.map Prod.fst) s = .ok (s', sgs') ∧
      ∀ (i j : Nat) (a b : Seg × List Nat) (a' b' : Seg) (A B C : List Nat), ps[i]? = some a → ps[j]? = some b → sgs'[i]? = some a' → sgs'[j]? = some b' →
        Line s.next (A ++ B ++ C) → (A ++ B ++ C).Nodup → B ≠ [] → a.1.first = B.take 1 → b.1.last = B.getLast?.toList →
        ∀ u, Paths s' a' b' u ↔ Joined (Val v s (Spoken v s (fun x w => (alt x).got w ∧ w ≠ [])) (ps.map Prod.snd).flatten) B u := by
  obtain ⟨s', sgs', e, _, hl⟩ := expansion_language h alt f hf
  refine ⟨s', sgs', e, ?_⟩
  intro i j a b a' b' A B C hi hj hi' hj' hL hn hB hF hE u
  rw [hl i j a b a' b' hi hj hi' hj' u, hF, hE]
  exact lang_line hL hn hB u

/-- C128. Partial: no word with alternatives stands for the empty sequence, by itself or in an alternative of two or more items inside a group
(`silent_choice_lost`, `silent_word_cuts`). Then every token reads as its notation says. -/
theorem expansion_means_partial {v : Env} {s : Store} {ps : List (Seg × List Nat)} (h : Speeches v s ps) (alt : Nat → Alts) (f : Nat)
    (hf : ∀ q ∈ ps, q.2.length < f ∧ ∀ r ∈ q.2, Marked (textOf v s r) → Written (textOf v s r) (alt r) ∧ (alt r).text.length < f)
    (hg : ∀ q ∈ ps, ∀ r ∈ q.2, Marked (textOf v s r) → (alt r).Good ∧ ¬ (alt r).den []) :
    ∃ s' sgs', expand f v (ps.map Prod.fst) s = .ok (s', sgs') ∧
      ∀ (i j : Nat) (a b : Seg × List Nat) (a' b' : Seg) (A B C : List Nat), ps[i]? = some a → ps[j]? = some b → sgs'[i]? = some a' → sgs'[j]? = some b' →
        Line s.next (A ++ B ++ C) → (A ++ B ++ C).Nodup → B ≠ [] → a.1.first = B.take 1 → b.1.last = B.getLast?.toList →
        ∀ u, Paths s' a' b' u ↔ Joined (Val v s (Spoken v s (fun x => (alt x).den)) (ps.map Prod.snd).flatten) B u := by
  obtain ⟨s', sgs', e, hl⟩ := expansion_spoken h alt f hf
  refine ⟨s', sgs', e, ?_⟩
  intro i j a b a' b' A B C hi hj hi' hj' hL hn hB hF hE u
  rw [hl i j a b a' b' A B C hi hj hi' hj' hL hn hB hF hE u]
  refine joined_congr (fun x _ w => ?_) u
  unfold Val
  refine or_congr (and_congr_right fun hx => and_congr_right fun hm => ?_) Iff.rfl
  obtain ⟨l, hl, hx⟩ := List.mem_flatten.1 hx
  obtain ⟨q, hq, rfl⟩ := List.mem_map.1 hl
  obtain ⟨g1, g2⟩ := hg q hq x hx hm
  unfold Spoken
  constructor
  · rintro ⟨w, ⟨hw, hne⟩, rfl⟩
    exact ⟨w, (top_good _ g1 w hne).1 hw, rfl⟩
  · rintro ⟨w, hw, rfl⟩
    have hne : w ≠ [] := fun e => g2 (e ▸ hw)
    exact ⟨w, ⟨(top_good _ g1 w hne).2 hw, hne⟩, rfl⟩

/-- C128 fails for words that can be skipped: after the expansion every path has at least one word for each token, so the choice of saying
nothing is lost even where the notation offers it. -/
theorem silent_choice_lost {v : Env} {s : Store} {ps : List (Seg × List Nat)} (h : Speeches v s ps) (alt : Nat → Alts) (f : Nat)
    (hf : ∀ q ∈ ps, q.2.length < f ∧ ∀ r ∈ q.2, Marked (textOf v s r) → Written (textOf v s r) (alt r) ∧ (alt r).text.length < f) :
    ∃ s' sgs', expand f v (ps.map Prod.fst) s = .ok (s', sgs') ∧
      ∀ (i j : Nat) (a b : Seg × List Nat) (a' b' : Seg) (A B C : List Nat), ps[i]? = some a → ps[j]? = some b → sgs'[i]? = some a' → sgs'[j]? = some b' →
        Line s.next (A ++ B ++ C) → (A ++ B ++ C).Nodup → B ≠ [] → a.1.first = B.take 1 → b.1.last = B.getLast?.toList →
        ∀ u, Paths s' a' b' u → B.length ≤ u.length := by
  obtain ⟨s', sgs', e, hl⟩ := expansion_spoken h alt f hf
  refine ⟨s', sgs', e, ?_⟩
  intro i j a b a' b' A B C hi hj hi' hj' hL hn hB hF hE u hu
  refine joined_length (fun x _ hv => ?_) ((hl i j a b a' b' A B C hi hj hi' hj' hL hn hB hF hE u).1 hu)
  rcases hv with ⟨_, _, w, ⟨_, hw⟩, e⟩ | ⟨_, e⟩
  · exact hw (List.map_eq_nil_iff.1 e.symm)
  · simp at e

/-- C128 fails for a word that stands for nothing at all, such as `{_@_}`: it leaves a hole, and no path leads across it. -/
theorem silent_word_cuts {v : Env} {s : Store} {ps : List (Seg × List Nat)} (h : Speeches v s ps) (alt : Nat → Alts) (f : Nat)
    (hf : ∀ q ∈ ps, q.2.length < f ∧ ∀ r ∈ q.2, Marked (textOf v s r) → Written (textOf v s r) (alt r) ∧ (alt r).text.length < f) :
    ∃ s' sgs', expand f v (ps.map Prod.fst) s = .ok (s', sgs') ∧
      ∀ (i j : Nat) (a b : Seg × List Nat) (a' b' : Seg) (A B C : List Nat), ps[i]? = some a → ps[j]? = some b → sgs'[i]? = some a' → sgs'[j]? = some b' →
        Line s.next (A ++ B ++ C) → (A ++ B ++ C).Nodup → B ≠ [] → a.1.first = B.take 1 → b.1.last = B.getLast?.toList →
        ∀ r ∈ B, r ∈ (ps.map Prod.snd).flatten → Marked (textOf v s r) → (∀ w, (alt r).got w → w = []) → ∀ u, ¬ Paths s' a' b' u := by
  obtain ⟨s', sgs', e, hl⟩ := expansion_spoken h alt f hf
  refine ⟨s', sgs', e, ?_⟩
  intro i j a b a' b' A B C hi hj hi' hj' hL hn hB hF hE r hr hrp hm hno u hu
  refine joined_none (r := r) (fun w hv => ?_) hr u ((hl i j a b a' b' A B C hi hj hi' hj' hL hn hB hF hE u).1 hu)
  rcases hv with ⟨_, _, w, ⟨h1, h2⟩, _⟩ | ⟨h1, _⟩
  · exact h2 (hno w h1)
  · exact h1 ⟨hrp, hm⟩

/-! ## C129: the new tokens -/

/-- C129: after the expansion no word with alternatives is left on any path; every token there was keeps its text, times and confidence;
every new token comes from a word with alternatives, lies within its times, is marked as that word was, and carries the confidence the parser
happens to hold, whatever that of the word. -/
theorem expansion_tokens {v : Env} {s : Store} {ps : List (Seg × List Nat)} (h : Speeches v s ps) (f : Nat) (hp : ∀ q ∈ ps, Parsed f v s q.2) :
    ∃ s' sgs', expand f v (ps.map Prod.fst) s = .ok (s', sgs') ∧
      (∀ k, k < s.fresh → s'.tok k = s.tok k) ∧
      (∀ q ∈ ps, ∀ r ∈ q.2, Marked (textOf v s r) → (∀ x, r ∉ s'.next x ∧ x ∉ s'.next r) ∧ ∀ g ∈ sgs', r ∉ g.first ∧ r ∉ g.last) ∧
      (∀ x, s.fresh ≤ x → (∃ g ∈ sgs', x ∈ g.first ∨ x ∈ g.last) ∨ (∃ y, x ∈ s'.next y ∨ y ∈ s'.next x) →
        ∃ q ∈ ps, ∃ r ∈ q.2, Marked (textOf v s r) ∧ (s.tok r).start ≤ (s'.tok x).start ∧ (s'.tok x).start ≤ (s'.tok x).stop ∧
          (s'.tok x).stop ≤ (s.tok r).stop ∧ (∃ w, (s'.tok x).src = deco (v.optional (s.tok r).src) w) ∧ (s'.tok x).conf = v.conf) ∧
      (∀ (i : Nat) (q : Seg × List Nat) (g : Seg), ps[i]? = some q → sgs'[i]? = some g → g.start = q.1.start ∧ g.stop = q.1.stop) := by
  obtain ⟨s', sgs', e, hr⟩ := expand_runs ps s h.wf h.fit h.distinct hp
  refine ⟨s', sgs', e, hr.old, hr.gone, ?_, fun i q g hi hi' => (hr.ports i q g hi hi').2.2⟩
  intro x hx ha
  have ha' : (∃ g ∈ sgs', x ∈ g.first ∨ x ∈ g.last) ∨ ¬ Bare s' x := by
    rcases ha with ha | ha
    · exact Or.inl ha
    · exact Or.inr (bare_iff.2 ha)
  obtain ⟨q, hq, r, hr', hm, c, p, c', hp, n, hn, en⟩ := hr.new x hx ha'
  have ht := (h.fit q hq).timed r hr' hm
  have hw := times_within f _ c c' p hp _ _ ht.order n (by
    rcases mem_nodes.1 hn with a | a | ⟨e, he, a⟩
    · exact Or.inl a
    · exact Or.inr (Or.inl a)
    · exact Or.inr (Or.inr ⟨e, he, a.imp Eq.symm Eq.symm⟩))
  refine ⟨q, hq, r, hr', hm, ?_⟩
  rw [en]
  unfold mkTok
  refine ⟨hw.1, ?_, hw.2.2, ⟨n.word, rfl⟩, rfl⟩
  show n.start _ _ ≤ n.start _ _ + n.dur _ _
  have := hw.2.1
  omega

/-! ## C130: when the expansion returns -/

theorem expandToks_append {f : Nat} {v : Env} (B : List Nat) : ∀ (A : List Nat) (s : Store) (sg : Seg) (s1 : Store) (sg1 : Seg),
    expandToks f v A s sg = .ok (s1, sg1) → expandToks f v (A ++ B) s sg = expandToks f v B s1 sg1 := by
  intro A
  induction A with
  | nil =>
    intro s sg s1 sg1 h
    injection h with h
    injection h with h1 h2
    subst h1; subst h2
    rfl
  | cons t A ih =>
    intro s sg s1 sg1 h
    rw [List.cons_append]
    rw [expandToks] at h ⊢
    cases e : expandTok f v t s sg with
    | ok r => rw [e] at h; exact ih _ _ _ _ h
    | fatal => rw [e] at h; simp at h
    | loops => rw [e] at h; simp at h

/-- The first element with a property. -/
theorem first_with (P : Nat → Prop) : ∀ l : List Nat, (∃ r ∈ l, P r) → ∃ A r B, l = A ++ r :: B ∧ P r ∧ ∀ x ∈ A, ¬ P x := by
  intro l
  induction l with
  | nil => rintro ⟨r, hr, _⟩; simp at hr
  | cons x l ih =>
    rintro ⟨r, hr, hP⟩
    by_cases hx : P x
    · exact ⟨[], x, l, rfl, hx, by simp⟩
    · rcases List.mem_cons.1 hr with rfl | hr
      · exact absurd hP hx
      · obtain ⟨A, r', B, e, h1, h2⟩ := ih ⟨r, hr, hP⟩
        refine ⟨x :: A, r', B, by rw [e]; rfl, h1, ?_⟩
        intro y hy
        rcases List.mem_cons.1 hy with rfl | hy
        · exact hx
        · exact h2 y hy

/-- The word with alternatives closes a group that is not open, and opens one later to make up for it. -/
def Stuck (v : Env) (s : Store) (r : Nat) : Prop := Marked (textOf v s r) ∧ Reversed (lex [] (blanked (textOf v s r)))

theorem parsed_unless_stuck {f : Nat} {v : Env} {s : Store} {r : Nat} (hm : Marked (textOf v s r)) (hs : ¬ Stuck v s r)
    (hf : (lex [] (blanked (textOf v s r))).length < f) (c : Nat) : ∃ p c', parse f (lex [] (blanked (textOf v s r))) c = some (p, c') := by
  obtain ⟨⟨p, c'⟩, h⟩ := (parse_returns_iff (lex [] (blanked (textOf v s r))) c).2 (fun hr => hs ⟨hm, hr⟩)
  exact ⟨p, c', h f hf⟩

theorem expandToks_stuck {f : Nat} {v : Env} {s : Store} {q : Seg × List Nat} (hw : WF s) (hfit : Fit v s q.1 q.2) (hn : q.2.Nodup)
    (hf : ∀ r ∈ q.2, Marked (textOf v s r) → (lex [] (blanked (textOf v s r))).length < f) (hst : ∃ r ∈ q.2, Stuck v s r) :
    expandToks f v q.2 s q.1 = .loops := by
  obtain ⟨A, r, B, e, hr, hA⟩ := first_with (Stuck v s) q.2 hst
  have hAq : ∀ x ∈ A, x ∈ q.2 := fun x hx => by rw [e]; exact List.mem_append.2 (Or.inl hx)
  have hcount : ∀ (l : List Nat) (r : Nat), l.Nodup → l.count r ≤ 1 := fun l r h => List.nodup_iff_count.1 h r
  have hnA : A.Nodup := by rw [e] at hn; exact (List.sublist_append_left _ _).nodup hn
  obtain ⟨s1, sg1, e1, h1⟩ := expandToks_ran (f := f) (v := v) A s q.1 ⟨hw, hnA, fun r hr => hfit.row.below r (hAq r hr), fun r hr => hfit.timed r (hAq r hr),
      fun r _ => hcount _ r (by rw [hfit.row.first]; exact (List.take_sublist _ _).nodup hn),
      fun r _ => hcount _ r (by rw [hfit.row.last]; cases q.2.getLast? <;> simp),
      fun x hx => hfit.row.below x (row_first hfit.row hx), fun x hx => hfit.row.below x (row_last hfit.row hx),
      fun r hr hm c => parsed_unless_stuck hm (hA r hr) (hf r (hAq r hr) hm) c⟩
  have hrq : r ∈ q.2 := by rw [e]; simp
  have et : textOf v s1 r = textOf v s r := textOf_eq (h1.old r (hfit.row.below r hrq))
  rw [e, expandToks_append (r :: B) A s q.1 s1 sg1 e1]
  have hnone : parse f (lex [] (blanked (textOf v s1 r))) s1.fresh = none := by
    rw [et]
    cases hp : parse f (lex [] (blanked (textOf v s r))) s1.fresh with
    | none => rfl
    | some z => exact absurd hr.2 ((parse_returns_iff _ s1.fresh).1.mp ⟨f, z, hp⟩)
  unfold expandToks
  have : expandTok f v r s1 sg1 = .loops := by
    unfold expandTok
    have hm' : marked (v.text (s1.tok r).src) = true := (marked_iff _).2 (by rw [show v.text (s1.tok r).src = textOf v s r from et]; exact hr.1)
    rw [if_pos hm', text_words, show lex [] (blanked (v.text (s1.tok r).src)) = lex [] (blanked (textOf v s1 r)) from rfl, hnone]
  rw [this]

/-- C130: the expansion is never ended by an error. It returns if no word with alternatives closes a group that is not open and opens one later
to make up for it; otherwise it does not return: it goes deeper than any bound beyond the size of the input. -/
theorem expansion_returns_partial {v : Env} {f : Nat} : ∀ {ps : List (Seg × List Nat)} {s : Store}, Speeches v s ps →
    (∀ q ∈ ps, q.2.length < f ∧ ∀ r ∈ q.2, Marked (textOf v s r) → (lex [] (blanked (textOf v s r))).length < f) →
    ((∀ q ∈ ps, ∀ r ∈ q.2, ¬ Stuck v s r) → ∃ x, expand f v (ps.map Prod.fst) s = .ok x) ∧
    ((∃ q ∈ ps, ∃ r ∈ q.2, Stuck v s r) → expand f v (ps.map Prod.fst) s = .loops) := by
  intro ps s h hf
  constructor
  · intro hs
    obtain ⟨s', sgs', e, _⟩ := expand_runs ps s h.wf h.fit h.distinct
      (fun q hq => ⟨fun r hr hm c => parsed_unless_stuck hm (hs q hq r hr) ((hf q hq).2 r hr hm) c, (hf q hq).1⟩)
    exact ⟨_, e⟩
  · revert s
    induction ps with
    | nil => intro s _ _ h; obtain ⟨q, hq, _⟩ := h; simp at hq
    | cons q ps ih =>
      intro s h hf hst
      have hd := h.distinct
      rw [List.map_cons, List.flatten_cons, List.nodup_append] at hd
      obtain ⟨hnq, hnps, hdis0⟩ := hd
      have hdis : ∀ p ∈ ps, ∀ r ∈ p.2, r ∉ q.2 := by
        intro p hp r hr hq
        exact hdis0 r hq r (List.mem_flatten.2 ⟨p.2, List.mem_map.2 ⟨p, hp, rfl⟩, hr⟩) rfl
      have hfq := h.fit q List.mem_cons_self
      have hl := listing_row hfq.row hnq (hf q List.mem_cons_self).1
      show expand f v (q.1 :: ps.map Prod.fst) s = _
      unfold expand
      rw [hl]
      dsimp only
      by_cases hq : ∃ r ∈ q.2, Stuck v s r
      · rw [expandToks_stuck h.wf hfq hnq (hf q List.mem_cons_self).2 hq]
      · have hcount : ∀ (l : List Nat) (r : Nat), l.Nodup → l.count r ≤ 1 := fun l r h => List.nodup_iff_count.1 h r
        obtain ⟨s1, sg1, e1, h1⟩ := expandToks_ran (f := f) (v := v) q.2 s q.1 ⟨h.wf, hnq, hfq.row.below, hfq.timed,
          fun r _ => hcount _ r (by rw [hfq.row.first]; exact (List.take_sublist _ _).nodup hnq),
          fun r _ => hcount _ r (by rw [hfq.row.last]; cases q.2.getLast? <;> simp),
          fun x hx => hfq.row.below x (row_first hfq.row hx), fun x hx => hfq.row.below x (row_last hfq.row hx),
          fun r hr hm c => parsed_unless_stuck hm (fun hs => hq ⟨r, hr, hs⟩) ((hf q List.mem_cons_self).2 r hr hm) c⟩
        have htext : ∀ p ∈ ps, ∀ r ∈ p.2, textOf v s1 r = textOf v s r := fun p hp r hr =>
          textOf_eq (h1.old r ((h.fit p (List.mem_cons_of_mem _ hp)).row.below r hr))
        have := ih (s := s1) ⟨h1.wf, fun p hp => fit_next h1 (h.fit p (List.mem_cons_of_mem _ hp)) (hdis p hp), hnps⟩ (by
            intro p hp
            refine ⟨(hf p (List.mem_cons_of_mem _ hp)).1, ?_⟩
            intro r hr hm
            rw [htext p hp r hr] at hm ⊢
            exact (hf p (List.mem_cons_of_mem _ hp)).2 r hr hm) (by
            obtain ⟨p, hp, r, hr, hs⟩ := hst
            rcases List.mem_cons.1 hp with rfl | hp
            · exact absurd ⟨r, hr, hs⟩ hq
            · refine ⟨p, hp, r, hr, ?_⟩
              unfold Stuck
              rw [htext p hp r hr]
              exact hs)
        rw [e1]
        dsimp only
        rw [this]

/-! ## C131: replacing a token in any graph -/

/-- C131: replacing a token of any graph of tokens by a separate graph `N` with first tokens `S` and last tokens `T` lets the token stand for
what the paths of that graph stand for, and changes nothing else. -/
theorem replace_substitutes {s : Store} {sg : Seg} {t : Nat} {S T : List Nat} (N : Nat → Prop) (hs : Sym s) (hloop : t ∉ s.next t) (ht : ¬ N t)
    (hS : ∀ x ∈ S, N x) (hT : ∀ x ∈ T, N x) (hsep : ∀ x y, y ∈ s.next x → (N x ↔ N y)) (hF : ∀ x ∈ sg.first, ¬ N x) (hL : ∀ x ∈ sg.last, ¬ N x)
    (hF1 : sg.first.count t ≤ 1) (hL1 : sg.last.count t ≤ 1)
    (hin : ∀ x, N x → sg.start ≤ (s.tok x).start ∧ (s.tok x).stop ≤ sg.stop) :
    ∃ s' sg', replace t S T s sg = some (s', sg') ∧ s'.tok = s.tok ∧ sg'.start = sg.start ∧ sg'.stop = sg.stop ∧
      ∀ (V : Nat → List Word → Prop) (u : List Word), Lang (fun x y => y ∈ s'.next x) (· ∈ sg'.first) (· ∈ sg'.last) V u ↔
        Lang (fun x y => y ∈ s.next x) (· ∈ sg.first) (· ∈ sg.last)
          (fun x w => (x ≠ t ∧ V x w) ∨ (x = t ∧ Lang (fun x y => y ∈ s.next x) (· ∈ S) (· ∈ T) V w)) u := by
  have htS : t ∉ S := fun h => ht (hS t h)
  have htT : t ∉ T := fun h => ht (hT t h)
  obtain ⟨s', sg', r1, r2, r3, r4, r5, r6, r7, r8, r9, r10⟩ := replace_spec hs (sg := sg) (t := t) (S := S) (T := T) hloop htS htT
    (fun _ x hx => by have := (hin x (hS x hx)).1; omega) (fun _ x hx => by have := (hin x (hT x hx)).2; omega)
  refine ⟨s', sg', r1, r3, r9, r10, ?_⟩
  intro V u
  have key := subst_lang (E := fun x y => y ∈ s.next x ∧ ¬ N x ∧ ¬ N y) (E' := fun x y => y ∈ s'.next x) (F := (· ∈ sg.first)) (F' := (· ∈ sg'.first))
    (L := (· ∈ sg.last)) (L' := (· ∈ sg'.last)) (t := t) (N := N) (R := fun x y => y ∈ s.next x ∧ N x ∧ N y) (S := (· ∈ S)) (T := (· ∈ T)) (V' := V)
    (V := fun x w => (x ≠ t ∧ V x w) ∨ (x = t ∧ Lang (fun x y => y ∈ s.next x) (· ∈ S) (· ∈ T) V w))
    ⟨?_, ?_, ?_, fun x y h => h.2, fun x y h => h.2, hS, hT, hF, hL, ht, fun h => hloop h.1⟩ ?_ ?_ u
  · rw [key]
    constructor
    · rintro ⟨x, hx, hr⟩
      exact ⟨x, hx, (reads_restrict (N := fun x => ¬ N x) (fun a b hab hn hb => hn ((hsep a b hab).2 hb)) (hF x hx) u).1 hr⟩
    · rintro ⟨x, hx, hr⟩
      exact ⟨x, hx, (reads_restrict (N := fun x => ¬ N x) (fun a b hab hn hb => hn ((hsep a b hab).2 hb)) (hF x hx) u).2 hr⟩
  · intro x y
    rw [r5]
    refine and_congr_right fun _ => and_congr_right fun _ => ?_
    constructor
    · rintro (h | ⟨h1, h2⟩ | ⟨h1, h2⟩)
      · by_cases hx : N x
        · exact Or.inr (Or.inl ⟨h, hx, (hsep x y h).1 hx⟩)
        · exact Or.inl ⟨h, hx, fun hy => hx ((hsep x y h).2 hy)⟩
      · exact Or.inr (Or.inr (Or.inl ⟨⟨h1, fun hx => ht ((hsep x t h1).1 hx), ht⟩, h2⟩))
      · exact Or.inr (Or.inr (Or.inr ⟨h1, h2, ht, fun hy => ht ((hsep t y h2).2 hy)⟩))
    · rintro (h | h | ⟨h1, h2⟩ | ⟨h1, h2⟩)
      · exact Or.inl h.1
      · exact Or.inl h.1
      · exact Or.inr (Or.inl ⟨h1.1, h2⟩)
      · exact Or.inr (Or.inr ⟨h1, h2.1⟩)
  · intro y
    rw [r7]
    by_cases h : t ∈ sg.first
    · rw [if_pos h, mem_erase_once (by rw [List.count_append, List.count_eq_zero.2 htS]; exact hF1), List.mem_append]
      constructor
      · rintro ⟨h1 | h1, h2⟩
        · exact Or.inl ⟨h1, h2⟩
        · exact Or.inr ⟨h, h1⟩
      · rintro (⟨h1, h2⟩ | ⟨_, h1⟩)
        · exact ⟨Or.inl h1, h2⟩
        · exact ⟨Or.inr h1, fun e => htS (e ▸ h1)⟩
    · rw [if_neg h, mem_erase_once hF1]
      simp [h]
  · intro y
    rw [r8]
    by_cases h : t ∈ sg.last
    · rw [if_pos h, mem_erase_once (by rw [List.count_append, List.count_eq_zero.2 htT]; exact hL1), List.mem_append]
      constructor
      · rintro ⟨h1 | h1, h2⟩
        · exact Or.inl ⟨h1, h2⟩
        · exact Or.inr ⟨h, h1⟩
      · rintro (⟨h1, h2⟩ | ⟨_, h1⟩)
        · exact ⟨Or.inl h1, h2⟩
        · exact ⟨Or.inr h1, fun e => htT (e ▸ h1)⟩
    · rw [if_neg h, mem_erase_once hL1]
      simp [h]
  · intro x hx _ w
    simp [hx]
  · intro w
    have : (∃ n, n ∈ S ∧ Reads (fun x y => y ∈ s.next x ∧ N x ∧ N y) (· ∈ T) V n w) ↔ Lang (fun x y => y ∈ s.next x) (· ∈ S) (· ∈ T) V w := by
      constructor
      · rintro ⟨x, hx, hr⟩
        exact ⟨x, hx, (reads_restrict (N := N) (fun a b hab hn => (hsep a b hab).1 hn) (hS x hx) w).1 hr⟩
      · rintro ⟨x, hx, hr⟩
        exact ⟨x, hx, (reads_restrict (N := N) (fun a b hab hn => (hsep a b hab).1 hn) (hS x hx) w).2 hr⟩
    rw [this]
    simp

/-! ## A concrete case -/

/-- The words of a small file: `a`, a word with the given text, `e`. -/
def demoText (mid : List Char) : Nat → List Char
  | 0 => ['a']
  | 1 => mid
  | _ => ['e']

/-- Three tokens in a row. -/
def demoStore (mid : List Char) : Store :=
  linkAll [(0, 1), (1, 2)] ⟨fun _ => [], fun _ => [], fun k => ⟨demoText mid k, 1000 * k, 1000 * k + 1000, none⟩, 3⟩

/-- Their segment. -/
def demoSeg : Seg := ⟨[0], [2], 0, 3000⟩

/-- Texts are as written, no word may be missed. -/
def demoEnv : Env := ⟨id, fun _ => false, none⟩

/-- `{_b_/_c_d_}`. -/
def demoWord : List Char := "{_b_/_c_d_}".toList

/-- `b`, or `c d`. -/
def demoAlt : Alts :=
  .one (.cons (.alt (.or (.cons (.word ['b']) .nil) (.one (.cons (.word ['c']) (.cons (.word ['d']) .nil))))) .nil)

theorem demo_next (mid : List Char) (x : Nat) : (demoStore mid).next x = if x = 0 then [1] else if x = 1 then [2] else [] := by
  unfold demoStore
  simp only [linkAll, link, upd]
  by_cases h0 : x = 0
  · subst h0; decide
  · by_cases h1 : x = 1
    · subst h1; decide
    · simp [h0, h1]

theorem demo_speeches (mid : List Char) : Speeches demoEnv (demoStore mid) [(demoSeg, [0, 1, 2])] := by
  refine ⟨⟨linkAll_sym _ (fun _ _ => rfl), ?_, ?_⟩, ?_, by decide⟩
  · intro x y h
    rw [demo_next] at h
    show x < 3 ∧ y < 3
    split at h
    · simp at h; omega
    · split at h
      · simp at h; omega
      · simp at h
  · intro x h
    rw [demo_next] at h
    split at h
    · simp at h; omega
    · split at h
      · simp at h; omega
      · simp at h
  · intro q hq
    have hq' : q = (demoSeg, [0, 1, 2]) := by simpa using hq
    subst hq'
    refine ⟨⟨rfl, rfl, ⟨by rw [demo_next]; rfl, by rw [demo_next]; rfl, trivial⟩, ?_⟩, ?_⟩
    · intro x hx
      show x < 3
      simp at hx; omega
    · intro r hr _
      have htok : (demoStore mid).tok r = ⟨demoText mid r, 1000 * r, 1000 * r + 1000, none⟩ := rfl
      have hr' : r ≤ 2 := by simp at hr; omega
      refine ⟨?_, ?_, ?_, ?_⟩ <;> rw [htok]
      · show (0 : Int) ≤ 1000 * r; omega
      · show (1000 * r : Int) ≤ 1000 * r + 1000; omega
      · intro _; show (0 : Int) ≤ 1000 * r; omega
      · intro _; show (1000 * r + 1000 : Int) ≤ 3000; omega

theorem demo_line (mid : List Char) : Line (demoStore mid).next ([] ++ [0, 1, 2] ++ []) := by
  refine ⟨⟨by rw [demo_next]; rfl, by rw [demo_next]; rfl, trivial⟩, ?_⟩
  intro x hx
  have : x = 2 := by simpa using hx.symm
  subst this
  rw [demo_next]; rfl

theorem demo_marked {mid : List Char} {r : Nat} (hr : r ∈ [0, 1, 2]) (hm : Marked (textOf demoEnv (demoStore mid) r)) : r = 1 := by
  rcases (by simpa using hr : r = 0 ∨ r = 1 ∨ r = 2) with rfl | rfl | rfl
  · exact absurd hm (by rw [← marked_iff]; show ¬ marked ['a'] = true; decide)
  · rfl
  · exact absurd hm (by rw [← marked_iff]; show ¬ marked ['e'] = true; decide)

/-- The hypotheses of `expansion_language`, `expansion_spoken` and `expansion_means_partial` are met by `a {_b_/_c_d_} e`. -/
example : (∀ q ∈ [(demoSeg, [0, 1, 2])], q.2.length < 20 ∧ ∀ r ∈ q.2, Marked (textOf demoEnv (demoStore demoWord) r) →
      Written (textOf demoEnv (demoStore demoWord) r) ((fun _ => demoAlt) r) ∧ ((fun _ => demoAlt) r).text.length < 20) ∧
    (∀ q ∈ [(demoSeg, [0, 1, 2])], ∀ r ∈ q.2, Marked (textOf demoEnv (demoStore demoWord) r) → demoAlt.Good ∧ ¬ demoAlt.den []) := by
  constructor
  · intro q hq
    have hq' : q = (demoSeg, [0, 1, 2]) := by simpa using hq
    subst hq'
    refine ⟨by decide, ?_⟩
    intro r hr hm
    have := demo_marked hr hm
    subst this
    refine ⟨⟨?_, by decide⟩, by decide⟩
    simp [demoAlt, Alts.Plain, Seq.Plain, Item.Plain, Ordinary, Alts.text, Seq.text, Item.text]
  · intro q _ r _ _
    simp [demoAlt, Alts.Good, Seq.Good, Item.Good, Alts.AllGood, Alts.den, Seq.den, Item.den, Seq.length]

/-- So `a b e` is read. -/
example : Joined (Val demoEnv (demoStore demoWord) (Spoken demoEnv (demoStore demoWord) (fun _ => demoAlt.den)) [0, 1, 2]) [0, 1, 2] [['a'], ['b'], ['e']] := by
  refine ⟨[['a']], [['b'], ['e']], rfl, Or.inr ⟨?_, rfl⟩, [['b']], [['e']], rfl, Or.inl ⟨by simp, ?_, [['b']], ?_, rfl⟩, [['e']], [], rfl, Or.inr ⟨?_, rfl⟩, rfl⟩
  · rw [← marked_iff]; decide
  · rw [← marked_iff]; decide
  · exact ⟨[['b']], [], rfl, Or.inl ⟨[['b']], [], rfl, rfl, rfl⟩, rfl⟩
  · rw [← marked_iff]; decide

/-- `{_b_/_@_}` offers the empty sequence, but by `silent_choice_lost` no path of `a {_b_/_@_} e` has fewer than three words. -/
def demoOpt : Alts := .one (.cons (.alt (.or (.cons (.word ['b']) .nil) (.one (.cons .eps .nil)))) .nil)

example : Written "{_b_/_@_}".toList demoOpt ∧ demoOpt.den [] := by
  refine ⟨⟨?_, by decide⟩, [], [], rfl, Or.inr ⟨[], [], rfl, rfl, rfl⟩, rfl⟩
  simp [demoOpt, Alts.Plain, Seq.Plain, Item.Plain, Ordinary, Alts.text, Seq.text, Item.text]

/-- `{_@_}` stands for nothing; by `silent_word_cuts` there is no path through `a {_@_} e`. -/
def demoNone : Alts := .one (.cons (.alt (.one (.cons .eps .nil))) .nil)

example : Written "{_@_}".toList demoNone ∧ demoNone.den [] ∧ ∀ w, demoNone.got w → w = [] := by
  refine ⟨⟨?_, by decide⟩, ⟨[], [], rfl, ⟨[], [], rfl, rfl, rfl⟩, rfl⟩, ?_⟩
  · simp [demoNone, Alts.Plain, Seq.Plain, Item.Plain, Alts.text, Seq.text, Item.text]
  · simp [demoNone, Alts.got, Seq.prod, Item.got, Seq.length]

/-- A word the expansion gets stuck on: `}_{`. -/
example : Stuck demoEnv (demoStore "}_{".toList) 1 :=
  ⟨by rw [← marked_iff]; decide, 1, 2, by decide, by decide, by decide, by decide⟩

/-- In `a b e` a graph of two tokens 3 and 4 can replace `b`. -/
example : let s := { link 3 4 (demoStore ['b']) with tok := fun _ => ⟨['b'], 1000, 2000, none⟩ }
    Sym s ∧ 1 ∉ s.next 1 ∧ (∀ x y, y ∈ s.next x → ((3 ≤ x) ↔ (3 ≤ y))) := by
  have hn : ∀ x, (link 3 4 (demoStore ['b'])).next x = if x = 3 then [4] else (demoStore ['b']).next x := by
    intro x
    rw [link_next]
    by_cases h : x = 3
    · subst h; rfl
    · simp [h]
  refine ⟨link_sym (linkAll_sym _ (fun _ _ => rfl)) 3 4, by decide, ?_⟩
  intro x y h
  rw [show ({ link 3 4 (demoStore ['b']) with tok := fun _ => ⟨['b'], 1000, 2000, none⟩ } : Store).next x = _ from hn x, demo_next] at h
  split at h
  · simp at h; omega
  · split at h
    · simp at h; omega
    · split at h
      · simp at h; omega
      · simp at h

end Verif.Expand
