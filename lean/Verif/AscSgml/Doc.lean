import Verif.AscSgml.Words
import Verif.AscSgml.Group
/-!
# Reports of asclite: lemmas on whole reports
-/
set_option autoImplicit false
namespace Verif.AscSgml
open Verif.Text Verif.Lines
open Verif.Scorer (Verdict)
open Verif.Sgml (Entry LWord)

/-! ## Attributes -/

theorem attr_nil (n : List Nat) : attr [] n = [] := rfl

theorem attr_cons_eq (k v : List Nat) (as : List (List Nat × List Nat)) : attr ((k, v) :: as) k = v := by
  unfold attr
  rw [List.find?_cons_of_pos (by simp)]
  rfl

theorem attr_cons_ne (k v n : List Nat) (as : List (List Nat × List Nat)) (h : k ≠ n) : attr ((k, v) :: as) n = attr as n := by
  unfold attr
  rw [List.find?_cons_of_neg (by simpa using h)]

theorem attr_opt_ne (c : Prop) [Decidable c] (k v n : List Nat) (as : List (List Nat × List Nat)) (h : k ≠ n) :
    attr ((if c then [(k, v)] else []) ++ as) n = attr as n := by
  split
  · exact attr_cons_ne k v n as h
  · rfl

theorem attr_opt_eq (c : Prop) [Decidable c] (k v : List Nat) (as : List (List Nat × List Nat)) :
    attr ((if c then [(k, v)] else []) ++ as) k = if c then v else attr as k := by
  split
  · exact attr_cons_eq k v as
  · rfl

theorem attr_opt_end_ne (c : Prop) [Decidable c] (k v n : List Nat) (h : k ≠ n) : attr (if c then [(k, v)] else []) n = [] := by
  split
  · exact attr_cons_ne k v n [] h
  · rfl

theorem attr_opt_end_eq (c : Prop) [Decidable c] (k v : List Nat) : attr (if c then [(k, v)] else []) k = if c then v else [] := by
  split
  · exact attr_cons_eq k v []
  · rfl

theorem attr_two_ne (c : Prop) [Decidable c] (k v k' v' n : List Nat) (as : List (List Nat × List Nat)) (h : k ≠ n) (h' : k' ≠ n) :
    attr ((if c then [(k, v), (k', v')] else []) ++ as) n = attr as n := by
  split
  · rw [List.cons_append, attr_cons_ne k v n _ h]; exact attr_cons_ne k' v' n as h'
  · rfl

/-- The attributes of a path, associated to the right. -/
theorem pathAttrs_eq (o : Opts) (f : Flags) (g : Seg) : pathAttrs o f g =
    (aId, g.id) :: (aCnt, dec g.toks.length) :: ((if g.label ≠ [] then [(aLabels, g.label)] else []) ++
      ((if g.source ≠ [] then [(aFile, g.source)] else []) ++ ((if g.channel ≠ [] then [(aChannel, g.channel)] else []) ++
      ((aSeq, dec g.seq) :: ((if timeReal g.start g.stop then [(aT1, secs g.start), (aT2, secs g.stop)] else []) ++
      ((if auxNames o f ≠ [] then [(aAux, commas (auxNames o f))] else []) ++ (if o.caseSens then [(aCase, [49])] else []))))))) := by
  unfold pathAttrs
  simp only [List.append_assoc, List.cons_append, List.nil_append]

theorem attr_path (o : Opts) (f : Flags) (g : Seg) :
    attr (pathAttrs o f g) aId = g.id ∧ attr (pathAttrs o f g) aCnt = dec g.toks.length ∧
    attr (pathAttrs o f g) aLabels = g.label ∧ attr (pathAttrs o f g) aFile = g.source ∧
    attr (pathAttrs o f g) aChannel = g.channel ∧ attr (pathAttrs o f g) aSeq = dec g.seq ∧
    attr (pathAttrs o f g) aT1 = (if timeReal g.start g.stop then secs g.start else []) ∧
    attr (pathAttrs o f g) aT2 = (if timeReal g.start g.stop then secs g.stop else []) ∧
    attr (pathAttrs o f g) aAux = commas (auxNames o f) ∧
    attr (pathAttrs o f g) aCase = (if o.caseSens then [49] else []) := by
  rw [pathAttrs_eq]
  have hlab : ∀ l : List Nat, (if l ≠ [] then l else []) = l := by intro l; cases l <;> rfl
  have haux : (if auxNames o f ≠ [] then commas (auxNames o f) else []) = commas (auxNames o f) := by
    cases auxNames o f <;> rfl
  refine ⟨?_, ?_, ?_, ?_, ?_, ?_, ?_, ?_, ?_, ?_⟩
  · exact attr_cons_eq _ _ _
  · rw [attr_cons_ne _ _ _ _ (by decide)]; exact attr_cons_eq _ _ _
  · rw [attr_cons_ne _ _ _ _ (by decide), attr_cons_ne _ _ _ _ (by decide), attr_opt_eq, attr_opt_ne _ _ _ _ _ (by decide),
      attr_opt_ne _ _ _ _ _ (by decide), attr_cons_ne _ _ _ _ (by decide), attr_two_ne _ _ _ _ _ _ _ (by decide) (by decide),
      attr_opt_ne _ _ _ _ _ (by decide), attr_opt_end_ne _ _ _ _ (by decide)]
    exact hlab _
  · rw [attr_cons_ne _ _ _ _ (by decide), attr_cons_ne _ _ _ _ (by decide), attr_opt_ne _ _ _ _ _ (by decide), attr_opt_eq,
      attr_opt_ne _ _ _ _ _ (by decide), attr_cons_ne _ _ _ _ (by decide), attr_two_ne _ _ _ _ _ _ _ (by decide) (by decide),
      attr_opt_ne _ _ _ _ _ (by decide), attr_opt_end_ne _ _ _ _ (by decide)]
    exact hlab _
  · rw [attr_cons_ne _ _ _ _ (by decide), attr_cons_ne _ _ _ _ (by decide), attr_opt_ne _ _ _ _ _ (by decide),
      attr_opt_ne _ _ _ _ _ (by decide), attr_opt_eq, attr_cons_ne _ _ _ _ (by decide),
      attr_two_ne _ _ _ _ _ _ _ (by decide) (by decide), attr_opt_ne _ _ _ _ _ (by decide), attr_opt_end_ne _ _ _ _ (by decide)]
    exact hlab _
  · rw [attr_cons_ne _ _ _ _ (by decide), attr_cons_ne _ _ _ _ (by decide), attr_opt_ne _ _ _ _ _ (by decide),
      attr_opt_ne _ _ _ _ _ (by decide), attr_opt_ne _ _ _ _ _ (by decide)]
    exact attr_cons_eq _ _ _
  · rw [attr_cons_ne _ _ _ _ (by decide), attr_cons_ne _ _ _ _ (by decide), attr_opt_ne _ _ _ _ _ (by decide),
      attr_opt_ne _ _ _ _ _ (by decide), attr_opt_ne _ _ _ _ _ (by decide), attr_cons_ne _ _ _ _ (by decide)]
    split
    · exact attr_cons_eq _ _ _
    · rw [List.nil_append, attr_opt_ne _ _ _ _ _ (by decide), attr_opt_end_ne _ _ _ _ (by decide)]
  · rw [attr_cons_ne _ _ _ _ (by decide), attr_cons_ne _ _ _ _ (by decide), attr_opt_ne _ _ _ _ _ (by decide),
      attr_opt_ne _ _ _ _ _ (by decide), attr_opt_ne _ _ _ _ _ (by decide), attr_cons_ne _ _ _ _ (by decide)]
    split
    · rw [List.cons_append, attr_cons_ne _ _ _ _ (by decide)]
      exact attr_cons_eq _ _ _
    · rw [List.nil_append, attr_opt_ne _ _ _ _ _ (by decide), attr_opt_end_ne _ _ _ _ (by decide)]
  · rw [attr_cons_ne _ _ _ _ (by decide), attr_cons_ne _ _ _ _ (by decide), attr_opt_ne _ _ _ _ _ (by decide),
      attr_opt_ne _ _ _ _ _ (by decide), attr_opt_ne _ _ _ _ _ (by decide), attr_cons_ne _ _ _ _ (by decide),
      attr_two_ne _ _ _ _ _ _ _ (by decide) (by decide), attr_opt_eq, attr_opt_end_ne _ _ _ _ (by decide)]
    exact haux
  · rw [attr_cons_ne _ _ _ _ (by decide), attr_cons_ne _ _ _ _ (by decide), attr_opt_ne _ _ _ _ _ (by decide),
      attr_opt_ne _ _ _ _ _ (by decide), attr_opt_ne _ _ _ _ _ (by decide), attr_cons_ne _ _ _ _ (by decide),
      attr_two_ne _ _ _ _ _ _ _ (by decide) (by decide), attr_opt_ne _ _ _ _ _ (by decide), attr_opt_end_eq]

theorem auxNames_ascii (o : Opts) (f : Flags) : ∀ x ∈ commas (auxNames o f), 0 < x ∧ x < 128 ∧ x ≠ 34 ∧ x ≠ 10 := by
  unfold auxNames
  cases f.refT <;> cases f.hypT <;> cases f.refC <;> cases f.hypC <;> cases o.spkOpt <;> decide

/-- The declared names are read as the kinds of the values. -/
theorem auxKinds_spec (o : Opts) (f : Flags) :
    auxKinds ((commas (auxNames o f)).length + 1) [] (commas (auxNames o f)) = some (kinds o f) := by
  unfold auxNames kinds
  cases f.refT <;> cases f.hypT <;> cases f.refC <;> cases f.hypC <;> cases o.spkOpt <;> rfl

theorem auxNames_nil (o : Opts) (f : Flags) (h : commas (auxNames o f) = []) : kinds o f = [] := by
  unfold auxNames at h
  unfold kinds
  revert h
  cases f.refT <;> cases f.hypT <;> cases f.refC <;> cases f.hypC <;> cases o.spkOpt <;> decide

theorem pathAttrs_ok (e : Enc) (o : Opts) (f : Flags) (sys : List Nat) (g : Seg) (h : SegOk e sys g) :
    pathAttrs o f g ≠ [] ∧ (pathAttrs o f g).length ≤ 30 ∧ ∀ x ∈ pathAttrs o f g, Key x.1 ∧ Clean e x.2 := by
  have opt : ∀ (c : Prop) [Decidable c] (k v : List Nat), (if c then [(k, v)] else []).length ≤ 1 := by
    intro c _ k v; split <;> simp
  have opt2 : ∀ (c : Prop) [Decidable c] (k v k' v' : List Nat), (if c then [(k, v), (k', v')] else []).length ≤ 2 := by
    intro c _ k v k' v'; split <;> simp
  rw [pathAttrs_eq]
  refine ⟨by simp, ?_, ?_⟩
  · simp only [List.length_cons, List.length_append]
    have h1 := opt (g.label ≠ []) aLabels g.label
    have h2 := opt (g.source ≠ []) aFile g.source
    have h3 := opt (g.channel ≠ []) aChannel g.channel
    have h4 := opt2 (timeReal g.start g.stop = true) aT1 (secs g.start) aT2 (secs g.stop)
    have h5 := opt (auxNames o f ≠ []) aAux (commas (auxNames o f))
    have h6 := opt (o.caseSens = true) aCase [49]
    omega
  · have mem1 : ∀ (c : Prop) [Decidable c] (k v : List Nat) (x : List Nat × List Nat), x ∈ (if c then [(k, v)] else []) → x = (k, v) := by
      intro c _ k v x hx
      split at hx
      · exact List.mem_singleton.1 hx
      · cases hx
    intro x hx
    simp only [List.mem_cons, List.mem_append] at hx
    rcases hx with rfl | rfl | hx | hx | hx | rfl | hx | hx | hx
    · exact ⟨by dsimp only; decide, h.id⟩
    · exact ⟨by dsimp only; decide, clean_dec e _⟩
    · rw [mem1 _ _ _ x hx]; exact ⟨by dsimp only; decide, h.label⟩
    · rw [mem1 _ _ _ x hx]; exact ⟨by dsimp only; decide, h.source⟩
    · rw [mem1 _ _ _ x hx]; exact ⟨by dsimp only; decide, h.channel⟩
    · exact ⟨by dsimp only; decide, clean_dec e _⟩
    · split at hx
      · rcases List.mem_cons.1 hx with rfl | hx
        · exact ⟨by dsimp only; decide, clean_secs e _⟩
        · rw [List.mem_singleton.1 hx]; exact ⟨by dsimp only; decide, clean_secs e _⟩
      · cases hx
    · rw [mem1 _ _ _ x hx]; exact ⟨by dsimp only; decide, clean_ascii e _ (auxNames_ascii o f)⟩
    · rw [mem1 _ _ _ x hx]; exact ⟨by dsimp only; decide, clean_ascii e _ (by decide)⟩

/-! ## Words -/

theorem shown_display (cs : Bool) (k : Tok) : shown cs k = display cs k := by
  unfold shown display
  cases k.optional <;> cases k.frag <;> simp

/-- The declared values include all that the token has. -/
def Covers (hasT hasC : Bool) (k : Option Tok) : Prop :=
  ∀ x, k = some x → (timeReal x.start x.stop = true → hasT = true) ∧ (x.conf.isSome = true → hasC = true)

theorem viewWord_read (cs hasT hasC : Bool) (k : Option Tok) (h : Covers hasT hasC k) : viewWord (readWord cs hasT hasC k) = wordOf cs k := by
  cases k with
  | none => cases hasT <;> cases hasC <;> rfl
  | some k =>
    obtain ⟨h1, h2⟩ := h k rfl
    show (⟨shown cs k, Option.map (fun t => (millis t.1, millis t.2)) (if hasT then (if timeReal k.start k.stop then some (secs k.start, secs k.stop) else none) else none),
      if hasC then k.conf else none⟩ : RWord) = ⟨display cs k, realTimes k.start k.stop, k.conf⟩
    rw [shown_display]
    congr 1
    · unfold realTimes
      cases ht : timeReal k.start k.stop with
      | true =>
        rw [h1 ht, if_pos rfl, if_pos rfl, if_pos (by unfold timeReal at ht; exact of_decide_eq_true ht)]
        show some (millis (secs k.start), millis (secs k.stop)) = _
        rw [millis_secs, millis_secs]
      | false =>
        rw [if_neg (show ¬ (0 ≤ k.start ∧ 0 ≤ k.stop) by unfold timeReal at ht; exact of_decide_eq_false ht)]
        cases hasT <;> rfl
    · cases hc : k.conf with
      | none => cases hasC <;> rfl
      | some c => rw [h2 (by rw [hc]; rfl), if_pos rfl]

theorem viewEntry_mk (cs : Bool) (v : Verdict) (f : Flags) (ref hyp : Option Tok) (h1 : Covers f.refT f.refC ref)
    (h2 : Covers f.hypT f.hypC hyp) :
    viewEntry (mk v (readWord cs f.refT f.refC ref) (readWord cs f.hypT f.hypC hyp)) = entryOf cs v ref hyp := by
  have e1 := viewWord_read cs f.refT f.refC ref h1
  have e2 := viewWord_read cs f.hypT f.hypC hyp h2
  cases v <;> simp [mk, viewEntry, entryOf, e1, e2]

theorem look_mono (sys : List Nat) (ts : List TA) (f : Flags) :
    let r := ts.foldl (Flags.look sys) f
    (f.refT = true → r.refT = true) ∧ (f.hypT = true → r.hypT = true) ∧ (f.refC = true → r.refC = true) ∧ (f.hypC = true → r.hypC = true) := by
  induction ts generalizing f with
  | nil => exact ⟨id, id, id, id⟩
  | cons t ts ih =>
    obtain ⟨a, b, c, d⟩ := ih (f.look sys t)
    refine ⟨fun h => a ?_, fun h => b ?_, fun h => c ?_, fun h => d ?_⟩ <;> simp [Flags.look, h]

theorem look_covers (sys : List Nat) (ts : List TA) (f : Flags) (t : TA) (ht : t ∈ ts) :
    let r := ts.foldl (Flags.look sys) f
    Covers r.refT r.refC t.ref ∧ Covers r.hypT r.hypC ((t.get sys).bind Eval.tok) := by
  induction ts generalizing f with
  | nil => cases ht
  | cons t' ts ih =>
    rcases List.mem_cons.1 ht with rfl | ht
    · obtain ⟨a, b, c, d⟩ := look_mono sys ts (f.look sys t)
      refine ⟨?_, ?_⟩
      · intro x hx
        exact ⟨fun h => a (by simp [Flags.look, hx, h]), fun h => c (by simp [Flags.look, hx, h])⟩
      · intro x hx
        exact ⟨fun h => b (by simp [Flags.look, hx, h]), fun h => d (by simp [Flags.look, hx, h])⟩
    · exact ih (f.look sys t') ht

/-- The declarations of a report cover all its token alignments. -/
theorem flagsOf_covers (sys : List Nat) (ps : List Spk) (p : Spk) (hp : p ∈ ps) (g : Seg) (hg : g ∈ p.segs) (t : TA) (ht : t ∈ g.toks) :
    Covers (flagsOf sys ps).refT (flagsOf sys ps).refC t.ref ∧ Covers (flagsOf sys ps).hypT (flagsOf sys ps).hypC ((t.get sys).bind Eval.tok) :=
  look_covers sys _ _ t (List.mem_flatMap.2 ⟨g, List.mem_flatMap.2 ⟨p, hp, hg⟩, ht⟩)

/-! ## Reading the lines -/

theorem steps_append (e : Enc) (s : LState) (a b : List (List Nat)) : steps e s (a ++ b) = (steps e s a).bind fun s' => steps e s' b := by
  induction a generalizing s with
  | nil => rfl
  | cons l a ih =>
    show (step e s l).bind (fun s' => steps e s' (a ++ b)) = ((step e s l).bind fun s' => steps e s' a).bind fun s' => steps e s' b
    cases step e s l with
    | none => rfl
    | some s' => exact ih s'

/-- A line that ends with its only newline and has no NUL. -/
def IsLine (l : List Nat) : Prop := ∃ b, l = b ++ [10] ∧ ∀ x ∈ b, x ≠ 10 ∧ x ≠ 0

theorem tagLine_line (e : Enc) (n : List Nat) (as : List (List Nat × List Nat)) (hn : ∀ x ∈ n, x ≠ 10 ∧ x ≠ 0)
    (h : ∀ x ∈ as, Key x.1 ∧ Clean e x.2) : IsLine (tagLine n as) := by
  refine ⟨60 :: n ++ as.flatMap (fun a => 32 :: a.1 ++ [61, 34] ++ a.2 ++ [34]) ++ [62], by unfold tagLine; simp, ?_⟩
  intro x hx
  simp only [List.mem_append, List.mem_cons, List.mem_flatMap, List.not_mem_nil, or_false] at hx
  rcases hx with ((rfl | hx) | ⟨a, ha, hx⟩) | rfl
  · omega
  · exact hn x hx
  · obtain ⟨⟨_, k⟩, _, _, c10, c0⟩ := h a ha
    rcases hx with (((rfl | hx) | hx) | hx) | rfl
    · omega
    · have := k x hx; omega
    · omega
    · exact ⟨fun he => c10 (he ▸ hx), fun he => c0 (he ▸ hx)⟩
    · omega
  · omega

theorem endLine_line (n : List Nat) (hn : ∀ x ∈ n, x ≠ 10 ∧ x ≠ 0) : IsLine (endLine n) := by
  refine ⟨[60, 47] ++ n ++ [62], by unfold endLine; simp, ?_⟩
  intro x hx
  simp only [List.mem_append, List.mem_cons, List.not_mem_nil, or_false] at hx
  rcases hx with ((rfl | rfl) | hx) | rfl
  · omega
  · omega
  · exact hn x hx
  · omega

theorem step_data (e : Enc) (s : LState) (l : List Nat) (h : l.head? ≠ some 60) (p : LPath) (hp : s.path = some p) (es : List (Entry LWord))
    (hes : loadLine e p.kinds (l ++ [10]) = some es) (hc : (p.ents ++ es).length ≤ p.cap) :
    step e s (l ++ [10]) = some { s with path := some { p with ents := p.ents ++ es } } := by
  have hu : step e s (l ++ [10]) = (match s.path with
      | none => some s
      | some p =>
        match loadLine e p.kinds (l ++ [10]) with
        | none => none
        | some es =>
          if (p.ents ++ es).length ≤ p.cap then some { s with path := some { p with ents := p.ents ++ es } } else none) := by
    cases l with
    | nil => rfl
    | cons c l =>
      have hc : c ≠ 60 := fun h' => h (by rw [h']; rfl)
      unfold step
      split
      · rename_i heq
        simp at heq
        exact absurd heq.1 hc
      · rename_i heq
        simp at heq
        exact absurd heq.1 hc
      · rfl
  rw [hu, hp]
  dsimp only
  rw [hes]
  dsimp only
  rw [if_pos hc]

theorem addPath_last (G : List (List Nat × List LPath)) (n : List Nat) (ps : List LPath) (p : LPath) :
    addPath (G ++ [(n, ps)]) G.length p = G ++ [(n, ps ++ [p])] := by
  unfold addPath
  induction G with
  | nil => rfl
  | cons g G ih =>
    show g :: (G ++ [(n, ps)]).modify G.length _ = _
    rw [ih]
    rfl

/-- The state inside of a speaker. -/
def inSpk (done : List LSys) (y : LSys) (G : List (List Nat × List LPath)) (n : List Nat) (ps : List LPath) (K : List AKind) : LState :=
  ⟨[nSPEAKER, nSYSTEM], done, some { y with grps := G ++ [(n, ps)] }, some G.length, none, K⟩

theorem ready_of (e : Enc) (sys : List Nat) (g : Seg) (h : SegOk e sys g) (t : TA) (ht : t ∈ g.toks) : ∃ ev v, Ready sys t ev v := by
  obtain ⟨h1, ev, v, h2, h3, h4, h5⟩ := h.toks t ht
  exact ⟨ev, v, h2, h3, h4, h1, fun k hk => (h5 k hk).1⟩

theorem entries_view (o : Opts) (f : Flags) (sys : List Nat) (ts : List TA) (h : ∀ t ∈ ts, ∃ ev v, Ready sys t ev v)
    (hc : ∀ t ∈ ts, Covers f.refT f.refC t.ref ∧ Covers f.hypT f.hypC ((t.get sys).bind Eval.tok)) :
    (ts.map (readTA o f sys)).map viewEntry = entriesOf o.caseSens sys ts := by
  induction ts with
  | nil => rfl
  | cons t ts ih =>
    obtain ⟨ev, v, h1, h2, _⟩ := h t List.mem_cons_self
    obtain ⟨c1, c2⟩ := hc t List.mem_cons_self
    have hx : ((t.get sys).bind fun ev => ev.res.map fun v => entryOf o.caseSens v t.ref ev.tok) =
        some (entryOf o.caseSens v t.ref ev.tok) := by
      rw [h1, Option.bind_some, h2]
      rfl
    have hr : readTA o f sys t = mk v (readWord o.caseSens f.refT f.refC t.ref) (readWord o.caseSens f.hypT f.hypC ev.tok) := by
      unfold readTA
      rw [h1]
      dsimp only
      rw [h2]
    rw [h1, Option.bind_some] at c2
    rw [List.map_cons, List.map_cons, ih (fun x hx => h x (List.mem_cons_of_mem _ hx)) (fun x hx => hc x (List.mem_cons_of_mem _ hx)),
      hr, viewEntry_mk o.caseSens v f t.ref ev.tok c1 c2]
    unfold entriesOf
    rw [List.filterMap_cons, hx]

/-- A path is read as it was written. -/
theorem path_steps (e : Enc) (o : Opts) (f : Flags) (sys : List Nat) (g : Seg) (h : SegOk e sys g)
    (hc : ∀ t ∈ g.toks, Covers f.refT f.refC t.ref ∧ Covers f.hypT f.hypC ((t.get sys).bind Eval.tok))
    (done : List LSys) (y : LSys) (G : List (List Nat × List LPath)) (n : List Nat) (ps : List LPath) (K : List AKind) :
    ∃ ls p K', pathLines o f sys g = some ls ∧ (∀ l ∈ ls, IsLine l) ∧ viewPath p = pathOf o sys g ∧
      steps e (inSpk done y G n ps K) ls = some (inSpk done y G n (ps ++ [p]) K') := by
  obtain ⟨a1, a2, a3, a4, a5, a6, a7, a8, a9, a10⟩ := attr_path o f g
  obtain ⟨k1, k2, k3⟩ := pathAttrs_ok e o f sys g h
  obtain ⟨K', hK, hKf⟩ : ∃ K', (if attr (pathAttrs o f g) aAux = [] then some K else
      auxKinds ((attr (pathAttrs o f g) aAux).length + 1) [] (attr (pathAttrs o f g) aAux)) = some K' ∧ KindsFor o f K' := by
    rw [a9]
    by_cases h0 : commas (auxNames o f) = []
    · exact ⟨K, by rw [if_pos h0], Or.inr (auxNames_nil o f h0)⟩
    · exact ⟨kinds o f, by rw [if_neg h0]; exact auxKinds_spec o f, Or.inl rfl⟩
  obtain ⟨l, l1, l2, l3, l4⟩ := loadLine_spec e o f sys K' hKf g.toks (ready_of e sys g h)
  let p0 : LPath := ⟨pathCap g.toks.length, g.id, g.label, g.source, g.channel, dec g.seq,
    (if timeReal g.start g.stop then secs g.start else []), (if timeReal g.start g.stop then secs g.stop else []),
    (if o.caseSens then [49] else []) != [], K', []⟩
  have hnew : newPath K (pathAttrs o f g) = some p0 := by
    unfold newPath
    rw [hK]
    dsimp only
    rw [a1, a2, a3, a4, a5, a6, a7, a8, a10, numOf_dec]
  let p : LPath := { p0 with ents := g.toks.map (readTA o f sys) }
  refine ⟨[tagLine nPATH (pathAttrs o f g), l ++ [10], endLine nPATH], p, K', ?_, ?_, ?_, ?_⟩
  · unfold pathLines
    rw [l1]
    rfl
  · intro x hx
    simp only [List.mem_cons, List.not_mem_nil, or_false] at hx
    rcases hx with rfl | rfl | rfl
    · exact tagLine_line e _ _ (by decide) k3
    · exact ⟨l, rfl, l3⟩
    · exact endLine_line _ (by decide)
  · show (⟨g.id, g.label, g.source, g.channel, numOf (dec g.seq) 0,
      if (if timeReal g.start g.stop then secs g.start else []) = [] then none else
        some (millis (if timeReal g.start g.stop then secs g.start else []), millis (if timeReal g.start g.stop then secs g.stop else [])),
      (if o.caseSens then [49] else []) != [], (g.toks.map (readTA o f sys)).map viewEntry⟩ : RPath) = _
    rw [numOf_dec, entries_view o f sys g.toks (ready_of e sys g h) hc]
    unfold pathOf realTimes
    congr 1
    · cases ht : timeReal g.start g.stop with
      | true =>
        rw [if_pos rfl, if_pos rfl, if_neg (secs_bytes g.start).1, millis_secs, millis_secs,
          if_pos (by unfold timeReal at ht; exact of_decide_eq_true ht)]
      | false =>
        rw [if_neg (show ¬ (0 ≤ g.start ∧ 0 ≤ g.stop) by unfold timeReal at ht; exact of_decide_eq_false ht)]
        rfl
    · cases o.caseSens <;> rfl
  · have s1 : step e (inSpk done y G n ps K) (tagLine nPATH (pathAttrs o f g)) =
        some ⟨[nPATH, nSPEAKER, nSYSTEM], done, some { y with grps := G ++ [(n, ps)] }, some G.length, some p0, K'⟩ := by
      show begin e (inSpk done y G n ps K) (tagLine nPATH (pathAttrs o f g)) = _
      unfold begin
      rw [if_neg (by show ¬ 10 ≤ 2; omega), parseTag_spec e nPATH _ (by decide) k1 k2 k3]
      dsimp only
      rw [if_neg (by decide), if_neg (by decide), if_pos rfl]
      show (match some G.length, newPath K (pathAttrs o f g) with
        | some _, some p => some _
        | _, _ => none) = _
      rw [hnew]
      rfl
    have s2 := step_data e ⟨[nPATH, nSPEAKER, nSYSTEM], done, some { y with grps := G ++ [(n, ps)] }, some G.length, some p0, K'⟩ l l4 p0 rfl
      (g.toks.map (readTA o f sys)) l2 (by
        show (g.toks.map (readTA o f sys)).length ≤ pathCap g.toks.length
        rw [List.length_map]
        unfold pathCap
        split <;> omega)
    have s3 : step e ⟨[nPATH, nSPEAKER, nSYSTEM], done, some { y with grps := G ++ [(n, ps)] }, some G.length, some p, K'⟩ (endLine nPATH) =
        some (inSpk done y G n (ps ++ [p]) K') := by
      rw [show ∀ s, step e s (endLine nPATH) = finish s (endLine nPATH) from fun _ => rfl]
      unfold finish
      dsimp only
      rw [endTag_spec nPATH _ (by decide)]
      dsimp only
      rw [if_neg (by decide), if_neg (by decide), if_pos rfl, addPath_last]
      rfl
    show (step e _ _).bind (fun s' => steps e s' [l ++ [10], endLine nPATH]) = _
    rw [s1, Option.bind_some]
    show (step e _ _).bind (fun s' => steps e s' [endLine nPATH]) = _
    rw [s2, Option.bind_some]
    show (step e ⟨[nPATH, nSPEAKER, nSYSTEM], done, some { y with grps := G ++ [(n, ps)] }, some G.length, some p, K'⟩ (endLine nPATH)).bind
      (fun s' => some s') = _
    rw [s3]
    rfl

/-- The paths of a speaker are read as they were written. -/
theorem paths_steps (e : Enc) (o : Opts) (f : Flags) (sys : List Nat) (gs : List Seg) (h : ∀ g ∈ gs, SegOk e sys g)
    (hc : ∀ g ∈ gs, ∀ t ∈ g.toks, Covers f.refT f.refC t.ref ∧ Covers f.hypT f.hypC ((t.get sys).bind Eval.tok))
    (done : List LSys) (y : LSys) (G : List (List Nat × List LPath)) (n : List Nat) : ∀ (ps : List LPath) (K : List AKind),
    ∃ ls qs K', pathsLines o f sys gs = some ls ∧ (∀ l ∈ ls, IsLine l) ∧ qs.map viewPath = gs.map (pathOf o sys) ∧
      steps e (inSpk done y G n ps K) ls = some (inSpk done y G n (ps ++ qs) K') := by
  induction gs with
  | nil => intro ps K; exact ⟨[], [], K, rfl, fun l hl => (by cases hl), rfl, by rw [List.append_nil]; rfl⟩
  | cons g gs ih =>
    intro ps K
    obtain ⟨l1, p, K1, a1, a2, a3, a4⟩ := path_steps e o f sys g (h g List.mem_cons_self) (hc g List.mem_cons_self) done y G n ps K
    obtain ⟨l2, qs, K2, b1, b2, b3, b4⟩ := ih (fun x hx => h x (List.mem_cons_of_mem _ hx)) (fun x hx => hc x (List.mem_cons_of_mem _ hx))
      (ps ++ [p]) K1
    refine ⟨l1 ++ l2, p :: qs, K2, ?_, ?_, by rw [List.map_cons, List.map_cons, a3, b3], ?_⟩
    · show (match pathLines o f sys g, pathsLines o f sys gs with
        | some a, some b => some (a ++ b)
        | _, _ => none) = _
      rw [a1, b1]
    · intro l hl
      rcases List.mem_append.1 hl with hl | hl
      · exact a2 l hl
      · exact b2 l hl
    · rw [steps_append, a4, Option.bind_some, b4]
      simp

/-- The state inside of a system. -/
def inSys (done : List LSys) (y : LSys) (G : List (List Nat × List LPath)) (K : List AKind) : LState :=
  ⟨[nSYSTEM], done, some { y with grps := G }, none, none, K⟩

theorem spk_steps (e : Enc) (o : Opts) (f : Flags) (sys : List Nat) (p : Spk) (hn : Clean e p.name) (h : ∀ g ∈ p.segs, SegOk e sys g)
    (hc : ∀ g ∈ p.segs, ∀ t ∈ g.toks, Covers f.refT f.refC t.ref ∧ Covers f.hypT f.hypC ((t.get sys).bind Eval.tok))
    (done : List LSys) (y : LSys) (G : List (List Nat × List LPath)) (hG : p.name ∉ G.map Prod.fst) (K : List AKind) :
    ∃ ls qs K', spkLines o f sys p = some ls ∧ (∀ l ∈ ls, IsLine l) ∧ qs.map viewPath = p.segs.map (pathOf o sys) ∧
      steps e (inSys done y G K) ls = some (inSys done y (G ++ [(p.name, qs)]) K') := by
  obtain ⟨ls, qs, K', a1, a2, a3, a4⟩ := paths_steps e o f sys p.segs h hc done y G p.name [] K
  have hk : ∀ x ∈ [(aId, p.name)], Key x.1 ∧ Clean e x.2 := by
    intro x hx
    rw [List.mem_singleton.1 hx]
    exact ⟨by dsimp only; decide, hn⟩
  refine ⟨tagLine nSPEAKER [(aId, p.name)] :: ls ++ [endLine nSPEAKER], qs, K', by unfold spkLines; rw [a1]; rfl, ?_, a3, ?_⟩
  · intro l hl
    rcases List.mem_append.1 hl with hl | hl
    · rcases List.mem_cons.1 hl with rfl | hl
      · exact tagLine_line e _ _ (by decide) hk
      · exact a2 l hl
    · rw [List.mem_singleton.1 hl]; exact endLine_line _ (by decide)
  · have hfind : G.findIdx? (fun g => g.1 == p.name) = none := by
      rw [List.findIdx?_eq_none_iff]
      intro x hx
      have : x.1 ≠ p.name := fun h' => hG (List.mem_map.2 ⟨x, hx, h'⟩)
      simpa using this
    have s1 : step e (inSys done y G K) (tagLine nSPEAKER [(aId, p.name)]) = some (inSpk done y G p.name [] K) := by
      show begin e (inSys done y G K) (tagLine nSPEAKER [(aId, p.name)]) = _
      unfold begin
      rw [if_neg (by show ¬ 10 ≤ 1; omega), parseTag_spec e nSPEAKER _ (by decide) (by simp) (by simp) hk]
      dsimp only
      rw [if_neg (by decide), if_pos rfl, attr_cons_eq]
      show some (LState.mk _ _ (some { y with grps := (getGrp G p.name).1 }) (some (getGrp G p.name).2) _ _) = _
      unfold getGrp
      rw [hfind]
      rfl
    have s3 : step e (inSpk done y G p.name qs K') (endLine nSPEAKER) = some (inSys done y (G ++ [(p.name, qs)]) K') := by
      rw [show ∀ s, step e s (endLine nSPEAKER) = finish s (endLine nSPEAKER) from fun _ => rfl]
      unfold finish inSpk
      dsimp only
      rw [endTag_spec nSPEAKER _ (by decide)]
      dsimp only
      rw [if_neg (by decide), if_pos rfl]
      rfl
    rw [steps_append]
    show ((step e _ _).bind fun s' => steps e s' ls).bind _ = _
    rw [s1, Option.bind_some, a4, Option.bind_some, List.nil_append]
    show (step e _ _).bind _ = _
    rw [s3]
    rfl

/-- All speakers are read as they were written. -/
theorem spks_steps (e : Enc) (o : Opts) (f : Flags) (sys : List Nat) (ps : List Spk) (hnd : (ps.map Spk.name).Nodup)
    (hn : ∀ p ∈ ps, Clean e p.name) (h : ∀ p ∈ ps, ∀ g ∈ p.segs, SegOk e sys g)
    (hc : ∀ p ∈ ps, ∀ g ∈ p.segs, ∀ t ∈ g.toks, Covers f.refT f.refC t.ref ∧ Covers f.hypT f.hypC ((t.get sys).bind Eval.tok))
    (done : List LSys) (y : LSys) : ∀ (G : List (List Nat × List LPath)) (K : List AKind), (∀ p ∈ ps, p.name ∉ G.map Prod.fst) →
    ∃ ls H K', spksLines o f sys ps = some ls ∧ (∀ l ∈ ls, IsLine l) ∧
      H.map (fun g => (g.1, g.2.map viewPath)) = ps.map (fun p => (p.name, p.segs.map (pathOf o sys))) ∧
      steps e (inSys done y G K) ls = some (inSys done y (G ++ H) K') := by
  induction ps with
  | nil => intro G K _; exact ⟨[], [], K, rfl, fun l hl => (by cases hl), rfl, by rw [List.append_nil]; rfl⟩
  | cons p ps ih =>
    intro G K hG
    rw [List.map_cons, List.nodup_cons] at hnd
    obtain ⟨l1, qs, K1, a1, a2, a3, a4⟩ := spk_steps e o f sys p (hn p List.mem_cons_self) (h p List.mem_cons_self)
      (hc p List.mem_cons_self) done y G (hG p List.mem_cons_self) K
    obtain ⟨l2, H, K2, b1, b2, b3, b4⟩ := ih hnd.2 (fun x hx => hn x (List.mem_cons_of_mem _ hx)) (fun x hx => h x (List.mem_cons_of_mem _ hx))
      (fun x hx => hc x (List.mem_cons_of_mem _ hx)) (G ++ [(p.name, qs)]) K1 (by
        intro q hq hm
        rw [List.map_append, List.mem_append] at hm
        rcases hm with hm | hm
        · exact hG q (List.mem_cons_of_mem _ hq) hm
        · have : q.name = p.name := by simpa using hm
          exact hnd.1 (List.mem_map.2 ⟨q, hq, this⟩))
    refine ⟨l1 ++ l2, (p.name, qs) :: H, K2, ?_, ?_, by rw [List.map_cons, List.map_cons, b3, a3], ?_⟩
    · show (match spkLines o f sys p, spksLines o f sys ps with
        | some a, some b => some (a ++ b)
        | _, _ => none) = _
      rw [a1, b1]
    · intro l hl
      rcases List.mem_append.1 hl with hl | hl
      · exact a2 l hl
      · exact b2 l hl
    · rw [steps_append, a4, Option.bind_some, b4]
      simp

theorem cats_steps (e : Enc) (cs : List Cat) (h : ∀ c ∈ cs, CatOk e c) (done : List LSys) (K : List AKind) : ∀ y : LSys,
    (∀ l ∈ cs.flatMap catLines, IsLine l) ∧ steps e (inSys done y y.grps K) (cs.flatMap catLines) =
      some (inSys done { y with cats := y.cats ++ cs.map fun c => (c.type, c.id, c.title, c.desc) } y.grps K) := by
  induction cs with
  | nil => intro y; exact ⟨fun l hl => (by cases hl), by simp [steps, inSys]⟩
  | cons c cs ih =>
    intro y
    obtain ⟨h1, h2, h3, h4⟩ := h c List.mem_cons_self
    have hk : ∀ x ∈ [(aId, c.id), (aTitle, c.title), (aDesc, c.desc)], Key x.1 ∧ Clean e x.2 := by
      intro x hx
      simp only [List.mem_cons, List.not_mem_nil, or_false] at hx
      rcases hx with rfl | rfl | rfl
      · exact ⟨by dsimp only; decide, h2⟩
      · exact ⟨by dsimp only; decide, h3⟩
      · exact ⟨by dsimp only; decide, h4⟩
    have hty : (∀ x ∈ c.type, x ≠ 10 ∧ x ≠ 0) ∧ 32 ∉ c.type ∧ 62 ∉ c.type ∧ c.type ≠ nSYSTEM ∧ c.type ≠ nSPEAKER ∧ c.type ≠ nPATH := by
      rcases h1 with h1 | h1 <;> rw [h1] <;> decide
    obtain ⟨i1, i2⟩ := ih (fun x hx => h x (List.mem_cons_of_mem _ hx)) { y with cats := y.cats ++ [(c.type, c.id, c.title, c.desc)] }
    refine ⟨?_, ?_⟩
    · intro l hl
      rw [List.flatMap_cons] at hl
      rcases List.mem_append.1 hl with hl | hl
      · unfold catLines at hl
        rcases List.mem_cons.1 hl with rfl | hl
        · exact tagLine_line e _ _ hty.1 hk
        · rw [List.mem_singleton.1 hl]; exact endLine_line _ hty.1
      · exact i1 l hl
    · have s1 : step e (inSys done y y.grps K) (tagLine c.type [(aId, c.id), (aTitle, c.title), (aDesc, c.desc)]) =
          some ⟨[c.type, nSYSTEM], done, some { y with cats := y.cats ++ [(c.type, c.id, c.title, c.desc)] }, none, none, K⟩ := by
        have hs : ∀ s l, step e s (tagLine c.type l) = begin e s (tagLine c.type l) := by
          intro s l
          rcases h1 with h1 | h1 <;> rw [h1] <;> rfl
        rw [hs]
        unfold begin
        rw [if_neg (by show ¬ 10 ≤ 1; omega), parseTag_spec e c.type _ hty.2.1 (by simp) (by simp) hk]
        dsimp only
        rw [if_neg hty.2.2.2.1, if_neg hty.2.2.2.2.1, if_neg hty.2.2.2.2.2, if_pos h1]
        rw [attr_cons_eq, attr_cons_ne _ _ _ _ (by decide), attr_cons_eq, attr_cons_ne _ _ _ _ (by decide),
          attr_cons_ne _ _ _ _ (by decide), attr_cons_eq]
        rfl
      have s2 : step e ⟨[c.type, nSYSTEM], done, some { y with cats := y.cats ++ [(c.type, c.id, c.title, c.desc)] }, none, none, K⟩
          (endLine c.type) = some (inSys done { y with cats := y.cats ++ [(c.type, c.id, c.title, c.desc)] } y.grps K) := by
        have hs : ∀ s, step e s (endLine c.type) = finish s (endLine c.type) := by
          intro s
          rcases h1 with h1 | h1 <;> rw [h1] <;> rfl
        rw [hs]
        unfold finish
        dsimp only
        rw [endTag_spec c.type _ hty.2.2.1]
        dsimp only
        rw [if_neg hty.2.2.2.1, if_neg hty.2.2.2.2.1, if_neg hty.2.2.2.2.2]
        rfl
      rw [List.flatMap_cons, steps_append]
      have hcl : steps e (inSys done y y.grps K) (catLines c) =
          some (inSys done { y with cats := y.cats ++ [(c.type, c.id, c.title, c.desc)] } y.grps K) := by
        show (step e _ _).bind (fun s' => steps e s' [endLine c.type]) = _
        rw [s1, Option.bind_some]
        show (step e _ _).bind _ = _
        rw [s2]
        rfl
      rw [hcl, Option.bind_some]
      have : steps e (inSys done { y with cats := y.cats ++ [(c.type, c.id, c.title, c.desc)] } y.grps K) (cs.flatMap catLines) = _ := i2
      rw [this]
      simp

/-! ## Whole reports -/

/-- The state between systems. -/
def outside (done : List LSys) (K : List AKind) : LState := ⟨[], done, none, none, none, K⟩

theorem segs_mem {L : List Seg} {ps : List Spk} (h : Inv L ps) (p : Spk) (hp : p ∈ ps) (g : Seg) (hg : g ∈ p.segs) : g ∈ L ∧ g.spk = p.name := by
  have := (h.spks p hp).1.mem_iff.1 hg
  rw [List.mem_filter] at this
  exact ⟨this.1, by simpa using this.2⟩

theorem sysAttrs_ok (e : Enc) (o : Opts) (sys ref hyp : List Nat) (h1 : Clean e (baseName sys)) (h2 : Clean e ref) (h3 : Clean e hyp)
    (h4 : Clean e o.date) : ∀ x ∈ sysAttrs o sys ref hyp, Key x.1 ∧ Clean e x.2 := by
  have hb : ∀ b, Clean e (upBool b) := fun b => clean_ascii e _ (by cases b <;> decide)
  intro x hx
  unfold sysAttrs at hx
  simp only [List.mem_cons, List.not_mem_nil, or_false] at hx
  rcases hx with rfl | rfl | rfl | rfl | rfl | rfl | rfl | rfl | rfl
  · exact ⟨by dsimp only; decide, h1⟩
  · exact ⟨by dsimp only; decide, h2⟩
  · exact ⟨by dsimp only; decide, h3⟩
  · exact ⟨by dsimp only; decide, h4⟩
  · exact ⟨by dsimp only; decide, clean_ascii e _ (by decide)⟩
  · exact ⟨by dsimp only; decide, hb _⟩
  · exact ⟨by dsimp only; decide, hb _⟩
  · exact ⟨by dsimp only; decide, hb false⟩
  · exact ⟨by dsimp only; decide, clean_ascii e _ (by decide)⟩

theorem newSys_eq (o : Opts) (sys ref hyp : List Nat) :
    newSys (sysAttrs o sys ref hyp) = ⟨baseName sys, ref, hyp, o.date, o.fragCorr, o.optBoth, false, [], []⟩ := by
  obtain ⟨a, b, c, d, t⟩ := o
  cases a <;> cases b <;> rfl

/-- The report of a system is read as the report of what was aligned. -/
theorem system_steps (e : Enc) (o : Opts) (sys ref : List Nat) (sp : Speech) (sps : List Speech) (h : AlOk e o sys ref (sp :: sps))
    (done : List LSys) (K : List AKind) :
    ∃ ls y gs K', genSystem o sys (sp :: sps) = some ls ∧ (∀ l ∈ ls, IsLine l) ∧ Grouped (allSegs (sp :: sps)) gs ∧
      ((∀ x ∈ sp :: sps, OneSpeaker x) → ∀ g ∈ gs, g.2.Pairwise fun a b => a.seq ≤ b.seq) ∧
      viewSys y = reportOf o sys ref sp.cats (sp :: sps) gs ∧
      steps e (outside done K) ls = some (outside (done ++ [y]) K') := by
  generalize hal : sp :: sps = al at *
  obtain ⟨sp', sps', f1, f2, f3⟩ := h.first
  have hsp : sp' = sp ∧ sps' = sps := by rw [← hal] at f1; cases f1; exact ⟨rfl, rfl⟩
  obtain ⟨rfl, rfl⟩ := hsp
  have hknown : ∀ x ∈ al, ∀ g ∈ x.segs, Known sys g := by
    intro x hx g hg t ht
    obtain ⟨_, ev, v, h2, _⟩ := (h.segs g (List.mem_flatMap.2 ⟨x, hx, hg⟩)).toks t ht
    exact ⟨ev, h2⟩
  obtain ⟨s, p1, p2, p3, p4⟩ := prepAll_spec sys ref al Prep.new [] (pinv_new sys) hknown h.refs.2 (Or.inr ⟨sp', sps', f1, rfl, f2⟩)
  rw [List.nil_append] at p2
  have hperm := sortBy_perm Spk.seq s.spks
  have hhyp : s.hyp = hypFile sys al := by
    unfold hypFile
    rcases p2.files with ⟨_, h1⟩ | ⟨_, h1, h2⟩
    · show s.hyp = ((allSegs al).findSome? (firstFile sys)).getD []
      rw [h1]
      rfl
    · show s.hyp = ((allSegs al).findSome? (firstFile sys)).getD []
      rw [h1]
      exact h2
  have hclean : Clean e s.hyp := by
    rcases p2.files with ⟨_, h1⟩ | ⟨_, _, h2⟩
    · obtain ⟨g, hg, hf⟩ := List.exists_of_findSome?_eq_some h1
      unfold firstFile at hf
      cases ht : g.toks with
      | nil => rw [ht] at hf; cases hf
      | cons t ts =>
        rw [ht] at hf
        obtain ⟨_, ev, v, h2, _, _, h5⟩ := (h.segs g hg).toks t (by rw [ht]; exact List.mem_cons_self)
        have hf : ((t.get sys).bind fun ev => ev.tok.map Tok.file) = some s.hyp := hf
        rw [h2, Option.bind_some] at hf
        obtain ⟨k, hk, hk'⟩ := Option.map_eq_some_iff.1 hf
        rw [← hk']
        exact (h5 k hk).2
    · rw [h2]; exact clean_ascii e _ (by simp)
  have hseg : ∀ p ∈ sortBy Spk.seq s.spks, ∀ g ∈ p.segs, SegOk e sys g := fun p hp g hg =>
    h.segs g (segs_mem p2.inv p (hperm.mem_iff.1 hp) g hg).1
  have hname : ∀ p ∈ sortBy Spk.seq s.spks, Clean e p.name := by
    intro p hp
    obtain ⟨_, _, g, hg, _⟩ := p2.inv.spks p (hperm.mem_iff.1 hp)
    rw [← (segs_mem p2.inv p (hperm.mem_iff.1 hp) g hg).2]
    exact (hseg p hp g hg).spk
  let y0 : LSys := ⟨baseName sys, s.ref, s.hyp, o.date, o.fragCorr, o.optBoth, false, [], []⟩
  let y1 : LSys := { y0 with cats := sp'.cats.map fun c => (c.type, c.id, c.title, c.desc) }
  obtain ⟨c1, c2⟩ := cats_steps e sp'.cats f3 done K y0
  obtain ⟨ls, H, K', s1, s2, s3, s4⟩ := spks_steps e o (flagsOf sys (sortBy Spk.seq s.spks)) sys (sortBy Spk.seq s.spks)
    ((hperm.map Spk.name).nodup_iff.2 p2.inv.names) hname hseg
    (fun p hp g hg t ht => flagsOf_covers sys _ p hp g hg t ht) done y1 [] K (fun p _ hm => (by cases hm))
  have hattrs := sysAttrs_ok e o sys s.ref s.hyp h.title (by rw [p3]; exact h.refs.1) hclean h.date
  refine ⟨tagLine nSYSTEM (sysAttrs o sys s.ref s.hyp) :: sp'.cats.flatMap catLines ++ ls ++ [endLine nSYSTEM], { y1 with grps := H },
    groupsOf (sortBy Spk.seq s.spks), K', ?_, ?_, grouped _ _ p2.inv, ?_, ?_, ?_⟩
  · unfold genSystem
    rw [p1, ← hal]
    dsimp only
    rw [s1]
    rfl
  · intro l hl
    rcases List.mem_append.1 hl with hl | hl
    · rcases List.mem_append.1 hl with hl | hl
      · rcases List.mem_cons.1 hl with rfl | hl
        · exact tagLine_line e _ _ (by decide) hattrs
        · exact c1 l hl
      · exact s2 l hl
    · rw [List.mem_singleton.1 hl]; exact endLine_line _ (by decide)
  · intro hone g hg
    obtain ⟨p, hp, rfl⟩ := List.mem_map.1 hg
    exact p4 hone (fun p hp => (by cases hp)) p (hperm.mem_iff.1 hp)
  · show (⟨baseName sys, s.ref, s.hyp, o.date, o.fragCorr, o.optBoth, false, sp'.cats.map fun c => (c.type, c.id, c.title, c.desc),
      H.map fun g => (g.1, g.2.map viewPath)⟩ : RSys) = _
    rw [s3, p3, hhyp]
    unfold reportOf groupsOf
    rw [List.map_map]
    rfl
  · have b1 : step e (outside done K) (tagLine nSYSTEM (sysAttrs o sys s.ref s.hyp)) = some (inSys done y0 y0.grps K) := by
      show begin e (outside done K) (tagLine nSYSTEM (sysAttrs o sys s.ref s.hyp)) = _
      unfold begin
      rw [if_neg (by show ¬ 10 ≤ 0; omega), parseTag_spec e nSYSTEM _ (by decide) (by simp [sysAttrs]) (by simp [sysAttrs]) hattrs]
      dsimp only
      rw [if_pos rfl, newSys_eq]
      rfl
    have b2 : step e (inSys done y1 H K') (endLine nSYSTEM) = some (outside (done ++ [{ y1 with grps := H }]) K') := by
      rw [show ∀ s, step e s (endLine nSYSTEM) = finish s (endLine nSYSTEM) from fun _ => rfl]
      unfold finish inSys
      dsimp only
      rw [endTag_spec nSYSTEM _ (by decide)]
      dsimp only
      rw [if_pos rfl]
      rfl
    rw [steps_append, steps_append]
    show (((step e _ _).bind fun s' => steps e s' (sp'.cats.flatMap catLines)).bind _).bind _ = _
    rw [b1, Option.bind_some, c2, Option.bind_some]
    have s4' : steps e (inSys done { y0 with cats := y0.cats ++ sp'.cats.map fun c => (c.type, c.id, c.title, c.desc) } y0.grps K) ls =
      some (inSys done y1 H K') := s4
    rw [s4', Option.bind_some]
    show (step e _ _).bind _ = _
    rw [b2]
    rfl

/-- Lines make up a file. -/
theorem isLines_flatten (ls : List (List Nat)) (h : ∀ l ∈ ls, IsLine l) : IsLines ls.flatten ls := by
  induction ls with
  | nil => exact .nil
  | cons l ls ih =>
    obtain ⟨b, rfl, hb⟩ := h l List.mem_cons_self
    have := IsLines.cons (l := b) (fun hm => (hb 10 hm).1 rfl) (ih fun x hx => h x (List.mem_cons_of_mem _ hx))
    simpa using this

theorem readAll_lines (cap len : Nat) (hl : 2 ≤ len) (hc : len ≤ cap) (ls : List (List Nat)) (h : ∀ l ∈ ls, IsLine l) :
    readAll (ls.flatten.length + 1) cap len ls.flatten = some ls := by
  have h0 : ∀ c ∈ ls.flatten, c ≠ 0 := by
    intro c hcm
    obtain ⟨l, hlm, hcl⟩ := List.mem_flatten.1 hcm
    obtain ⟨b, rfl, hb⟩ := h l hlm
    rcases List.mem_append.1 hcl with h1 | h1
    · exact (hb c h1).2
    · rw [List.mem_singleton.1 h1]; decide
  obtain ⟨ls', h1, h2⟩ := readAll_spec (ls.flatten.length + 1) cap len ls.flatten h0 hl hc (by omega)
  rw [h1, h2.unique (isLines_flatten ls h)]

end Verif.AscSgml
