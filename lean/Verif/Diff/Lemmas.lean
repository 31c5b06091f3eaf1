import Verif.Diff.Model
/-!
# Lemmas on alignments taken from `diff`
-/
set_option autoImplicit false
namespace Verif.Diff

theorem process_shown (e : Ed) (h : e.Plain) : process (shown e) = some (e.el, (e.left).getD [62]) := by
  unfold process
  cases e with
  | same w =>
    obtain ⟨_, _, h3⟩ := h w (.inl rfl)
    simp [shown, h3, Ed.el, Ed.left]
  | del w =>
    obtain ⟨h1, h2, h3⟩ := h w (.inl rfl)
    simp [shown, h3, h1, h2, Ed.el, Ed.left]
  | ins w =>
    obtain ⟨_, h2, h3⟩ := h w (.inr rfl)
    have : ¬ [62] = w := fun q => h2 q.symm
    simp [shown, h3, this, Ed.el, Ed.left]
  | sub r w =>
    obtain ⟨_, _, h3⟩ := h r (.inl rfl)
    obtain ⟨_, _, h4⟩ := h w (.inr rfl)
    simp [shown, h3, h4, Ed.el, Ed.left]

/-- The reference words of a script. -/
def lefts (E : List Ed) : List W := E.filterMap Ed.left

/-- A script that is empty or ends with a reference word. -/
def EndsLeft (P : List Ed) : Prop := P = [] ∨ ∃ e, P.getLast? = some e ∧ e.left ≠ none

theorem scan_false (c : W) : ∀ (E : List Ed) (cs : List W), (∀ e ∈ E, e.Plain) → lefts E = c :: cs →
    ∃ P E', E = P ++ E' ∧ scan false c (E.map shown) = some (P.map Ed.el, E'.map shown) ∧ lefts P = [c] ∧ lefts E' = cs ∧ EndsLeft P
  | [], cs, _, h => by cases h
  | e :: E, cs, hp, h => by
    have he := hp e List.mem_cons_self
    have hE := fun x hx => hp x (List.mem_cons_of_mem e hx)
    simp only [List.map_cons, scan, process_shown e he]
    cases hl : e.left with
    | none =>
      have h' : lefts E = c :: cs := by
        unfold lefts at h ⊢
        rwa [List.filterMap_cons_none hl] at h
      obtain ⟨P, E', h1, h2, h3, h4, h5⟩ := scan_false c E cs hE h'
      have hc : c ≠ [62] := by
        have hm : c ∈ lefts E := by rw [h']; exact List.mem_cons_self
        obtain ⟨x, hx1, hx2⟩ := List.mem_filterMap.mp hm
        exact (hE x hx1 c (.inl hx2)).2.1
      refine ⟨e :: P, E', by rw [h1]; rfl, ?_, ?_, h4, ?_⟩
      · simp only [Option.getD_none]
        rw [if_pos (.inl (fun q => hc q.symm)), h2]
        rfl
      · unfold lefts at h3 ⊢
        rw [List.filterMap_cons_none hl, h3]
      · right
        rcases h5 with h5 | ⟨x, hx, hx'⟩
        · subst h5; cases h3
        · refine ⟨x, ?_, hx'⟩
          rw [List.getLast?_cons, hx]; rfl
    | some w =>
      unfold lefts at h
      rw [List.filterMap_cons_some hl] at h
      injection h with hw hcs
      subst hw
      refine ⟨[e], E, rfl, ?_, ?_, hcs, .inr ⟨e, rfl, by rw [hl]; simp⟩⟩
      · simp
      · unfold lefts; rw [List.filterMap_cons_some hl]; rfl

theorem scan_true (c : W) : ∀ (E : List Ed), (∀ e ∈ E, e.Plain) → scan true c (E.map shown) = some (E.map Ed.el, [])
  | [], _ => rfl
  | e :: E, hp => by
    simp only [List.map_cons, scan, process_shown e (hp e List.mem_cons_self)]
    rw [if_pos (.inr trivial), scan_true c E (fun x hx => hp x (List.mem_cons_of_mem e hx))]
    rfl

theorem endsLeft_append {P Q : List Ed} (hp : EndsLeft P) (hq : EndsLeft Q) : EndsLeft (P ++ Q) := by
  rcases hq with hq | ⟨e, h1, h2⟩
  · subst hq; rwa [List.append_nil]
  · right
    refine ⟨e, ?_, h2⟩
    rw [List.getLast?_append, h1]; rfl

theorem lefts_append (P Q : List Ed) : lefts (P ++ Q) = lefts P ++ lefts Q := List.filterMap_append

theorem utt_false : ∀ (ws : List W) (E : List Ed) (cs : List W), (∀ e ∈ E, e.Plain) → lefts E = ws ++ cs →
    ∃ P E', E = P ++ E' ∧ utt false ws (E.map shown) = some (P.map Ed.el, E'.map shown) ∧ lefts P = ws ∧ lefts E' = cs ∧ EndsLeft P
  | [], E, cs, _, h => ⟨[], E, rfl, rfl, rfl, h, .inl rfl⟩
  | w :: ws, E, cs, hp, h => by
    obtain ⟨P, E', h1, h2, h3, h4, h5⟩ := scan_false w E (ws ++ cs) hp h
    obtain ⟨Q, E'', g1, g2, g3, g4, g5⟩ := utt_false ws E' cs (fun e he => hp e (by rw [h1]; exact List.mem_append_right _ he)) h4
    refine ⟨P ++ Q, E'', by rw [h1, g1, List.append_assoc], ?_, ?_, g4, endsLeft_append h5 g5⟩
    · unfold utt
      rw [h2]
      simp only [g2, Option.map_some, List.map_append]
    · rw [lefts_append, h3, g3]; rfl

theorem utt_nil : ∀ (ws : List W) (last : Bool), utt last ws [] = some ([], [])
  | [], _ => rfl
  | w :: ws, last => by
    unfold utt scan
    simp [utt_nil ws last]

theorem utt_true (w : W) (ws : List W) (E : List Ed) (hp : ∀ e ∈ E, e.Plain) :
    utt true (w :: ws) (E.map shown) = some (E.map Ed.el, []) := by
  unfold utt
  rw [scan_true w E hp]
  simp [utt_nil]

/-- The shares of the utterances when none of them is known to be the last. -/
theorem shares : ∀ (refs : List (List W)) (E : List Ed) (cs : List W), (∀ e ∈ E, e.Plain) → lefts E = refs.flatten ++ cs →
    ∃ (Ps : List (List Ed)) (E' : List Ed), E = Ps.flatten ++ E' ∧ Ps.map lefts = refs ∧ lefts E' = cs ∧ (∀ P ∈ Ps, EndsLeft P) ∧
      ∀ rEnd num r, (∀ i, r ≤ i → i < r + refs.length → isLast rEnd num i = false) → ∀ more : List (List W),
        chanLoop rEnd num r (refs ++ more) (E.map shown) =
          (chanLoop rEnd num (r + refs.length) more (E'.map shown)).map (fun ps => Ps.map (fun P => P.map Ed.el) ++ ps)
  | [], E, cs, _, h => ⟨[], E, rfl, rfl, h, by simp, fun rEnd num r _ more => by simp⟩
  | w :: refs, E, cs, hp, h => by
    rw [List.flatten_cons, List.append_assoc] at h
    obtain ⟨P, E', h1, h2, h3, h4, h5⟩ := utt_false w E (refs.flatten ++ cs) hp h
    obtain ⟨Ps, E'', g1, g2, g3, g4, g5⟩ := shares refs E' cs (fun e he => hp e (by rw [h1]; exact List.mem_append_right _ he)) h4
    refine ⟨P :: Ps, E'', by rw [h1, g1, List.flatten_cons, List.append_assoc], by rw [List.map_cons, h3, g2], g3, ?_, ?_⟩
    · intro Q hQ
      rcases List.mem_cons.mp hQ with q | q
      · rw [q]; exact h5
      · exact g4 Q q
    · intro rEnd num r hr more
      rw [List.cons_append]
      conv => lhs; unfold chanLoop
      rw [hr r (Nat.le_refl _) (by simp), h2]
      simp only
      rw [g5 rEnd num (r + 1) (fun i i1 i2 => hr i (by omega) (by simp only [List.length_cons]; omega)) more]
      rw [show r + 1 + refs.length = r + (w :: refs).length from by simp only [List.length_cons]; omega, Option.map_map]
      rfl

/-- The loop over references with a count is the loop over segments in which the last one is known. -/
theorem alignText_eq : ∀ (refs : List (List W)) (ls : List (List W)) (num r : Nat), num < r + refs.length - 1 ∨ r + refs.length - 1 < num →
    alignText refs ls = chanLoop (r + refs.length - 1) num r refs ls
  | [], ls, num, r, _ => by unfold alignText chanLoop; rfl
  | w :: refs, ls, num, r, hn => by
    have hl : isLast (r + (w :: refs).length - 1) num r = refs.isEmpty := by
      unfold isLast
      rw [if_neg (by omega)]
      cases refs with
      | nil => simp
      | cons a b => simp
    unfold alignText chanLoop
    rw [hl]
    cases hu : utt refs.isEmpty w ls with
    | none => rfl
    | some q =>
      obtain ⟨p, rest⟩ := q
      simp only
      cases refs with
      | nil => unfold alignText chanLoop; rfl
      | cons a b =>
        have e1 : r + (w :: a :: b).length - 1 = r + 1 + (a :: b).length - 1 := by simp only [List.length_cons]; omega
        rw [e1] at hn ⊢
        rw [alignText_eq (a :: b) rest num (r + 1) hn]

theorem alignTrans_eq : ∀ (is : List Nat) (refs refs' : List (List W)) (ls : List (List W)), is.Nodup →
    (∀ i ∈ is, refs'.getD i [] = refs.getD i []) → (∀ i ∈ is, i < refs'.length) →
    alignTrans refs' is ls = alignText (is.map (fun i => refs.getD i [])) ls
  | [], refs, refs', ls, _, _, _ => by unfold alignTrans; rfl
  | i :: is, refs, refs', ls, hn, he, hl => by
    rw [List.nodup_cons] at hn
    unfold alignTrans
    rw [List.map_cons]
    unfold alignText
    rw [he i List.mem_cons_self, List.isEmpty_map]
    cases hu : utt is.isEmpty (refs.getD i []) ls with
    | none => rfl
    | some q =>
      obtain ⟨p, rest⟩ := q
      simp only
      rw [alignTrans_eq is refs _ rest hn.2]
      · intro j hj
        rw [List.getD_eq_getElem?_getD, List.getElem?_set_ne (fun q => hn.1 (by rw [q]; exact hj)), ← List.getD_eq_getElem?_getD]
        exact he j (List.mem_cons_of_mem _ hj)
      · intro j hj
        rw [List.length_set]
        exact hl j (List.mem_cons_of_mem _ hj)

end Verif.Diff
