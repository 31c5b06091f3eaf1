import Verif.Chan.Model
/-!
# Lemmas about the assignment of words to utterances
-/
set_option autoImplicit false
namespace Verif.Chan

variable {K : Type}

/-- An item with the flags it gets. -/
def toks : Item K → List (Tok K)
  | .single w => [⟨w, false⟩]
  | .block f i l => ⟨f, true⟩ :: (i.map (fun w => ⟨w, true⟩) ++ [⟨l, true⟩])

/-- The preceding word is not within an alternation that goes on. -/
def Outside (p : Option (Tok K)) : Prop := ∀ t, p = some t → t.alternate = false ∨ t.w.sp = Sp.altEnd

theorem toks_words (it : Item K) : (toks it).map (·.w) = it.words := by
  cases it with
  | single w => rfl
  | block f i l => simp [toks, Item.words, Function.comp_def]

theorem mark_inner (last : Word K) (rest : List (Word K)) (hl : last.sp = Sp.altEnd) :
    ∀ (i : List (Word K)) (p : Tok K), p.alternate = true → p.w.sp ≠ Sp.altEnd → (∀ w ∈ i, w.sp ≠ Sp.altEnd) →
      mark (some p) (i ++ last :: rest) = i.map (fun w => (⟨w, true⟩ : Tok K)) ++ ⟨last, true⟩ :: mark (some ⟨last, true⟩) rest
  | [], p, h1, h2, _ => by
    simp [mark, h1, h2]
  | w :: i, p, h1, h2, h3 => by
    have ih := mark_inner last rest hl i ⟨w, true⟩ rfl (h3 w List.mem_cons_self) (fun x hx => h3 x (List.mem_cons_of_mem _ hx))
    simp only [List.cons_append, mark, h1, List.map_cons]
    simp only [h2, ne_eq, not_false_eq_true, decide_true, Bool.and_true, Bool.true_or]
    rw [ih]

theorem mark_items : ∀ (its : List (Item K)) (p : Option (Tok K)), Outside p → (∀ it ∈ its, it.Valid) →
    mark p (wordsOf its) = its.flatMap toks
  | [], p, _, _ => rfl
  | it :: its, p, hp, hv => by
    have hv' : ∀ x ∈ its, x.Valid := fun x hx => hv x (List.mem_cons_of_mem _ hx)
    have hit := hv it List.mem_cons_self
    unfold wordsOf
    rw [List.flatMap_cons, List.flatMap_cons]
    cases it with
    | single w =>
      obtain ⟨t, ht⟩ := hit
      have e : ∀ rest : List (Word K), mark p (w :: rest) = ⟨w, false⟩ :: mark (some ⟨w, false⟩) rest := by
        intro rest
        cases p with
        | none => simp [mark, ht]
        | some q =>
          rcases hp q rfl with h | h
          · simp [mark, ht, h]
          · simp [mark, ht, h]
      simp only [Item.words, toks, List.cons_append, List.nil_append]
      rw [e]
      congr 1
      exact mark_items its _ (by intro t2 h2; cases h2; exact Or.inl rfl) hv'
    | block f i l =>
      obtain ⟨h1, h2, h3⟩ := hit
      simp only [Item.words, toks, List.cons_append, mark, h1, Bool.or_true, List.append_assoc, List.nil_append]
      congr 1
      rw [mark_inner l _ h3 i ⟨f, true⟩ rfl (by simp [h1]) h2]
      congr 2
      exact mark_items its _ (by intro t2 h2; cases h2; exact Or.inr h3) hv'

theorem mark_w : ∀ (ws : List (Word K)) (p : Option (Tok K)), (mark p ws).map (·.w) = ws
  | [], _ => rfl
  | w :: ws, p => by
    unfold mark
    simp only [List.map_cons]
    rw [mark_w ws]

/-- The time by which an item is assigned. -/
def imid : Item K → Rat
  | .single w => mid w
  | .block f i l => bigMid 0 (toks (.block f i l))

theorem bigMid_spec (l : Word K) (rest : List (Tok K)) (hl : l.sp = Sp.altEnd) : ∀ (i : List (Word K)) (m : Rat),
    (∀ w ∈ i, w.sp ≠ Sp.altEnd) →
    (m ≤ bigMid m (i.map (fun w => (⟨w, true⟩ : Tok K)) ++ ⟨l, true⟩ :: rest) ∧
    (∀ w ∈ i, (∃ t, w.sp = Sp.word t) → mid w ≤ bigMid m (i.map (fun w => (⟨w, true⟩ : Tok K)) ++ ⟨l, true⟩ :: rest)) ∧
    (bigMid m (i.map (fun w => (⟨w, true⟩ : Tok K)) ++ ⟨l, true⟩ :: rest) = m ∨
      ∃ w ∈ i, (∃ t, w.sp = Sp.word t) ∧ bigMid m (i.map (fun w => (⟨w, true⟩ : Tok K)) ++ ⟨l, true⟩ :: rest) = mid w))
  | [], m, _ => by
    simp [bigMid, hl]
  | w :: i, m, h => by
    have hi : ∀ x ∈ i, x.sp ≠ Sp.altEnd := fun x hx => h x (List.mem_cons_of_mem _ hx)
    have hw := h w List.mem_cons_self
    simp only [List.map_cons, List.cons_append]
    unfold bigMid
    simp only
    cases hs : w.sp with
    | altEnd => exact absurd hs hw
    | alt =>
      obtain ⟨a, b, c⟩ := bigMid_spec l rest hl i m hi
      simp only
      refine ⟨a, ?_, ?_⟩
      · intro x hx ht
        rcases List.mem_cons.mp hx with rfl | hx
        · obtain ⟨t, ht⟩ := ht; rw [hs] at ht; cases ht
        · exact b x hx ht
      · rcases c with c | ⟨x, hx, c⟩
        · exact Or.inl c
        · exact Or.inr ⟨x, List.mem_cons_of_mem _ hx, c⟩
    | word t =>
      simp only
      by_cases hm : mid w > m
      · rw [if_pos hm]
        obtain ⟨a, b, c⟩ := bigMid_spec l rest hl i (mid w) hi
        refine ⟨by grind, ?_, ?_⟩
        · intro x hx ht
          rcases List.mem_cons.mp hx with rfl | hx
          · exact a
          · exact b x hx ht
        · rcases c with c | ⟨x, hx, c⟩
          · exact Or.inr ⟨w, List.mem_cons_self, ⟨t, hs⟩, c⟩
          · exact Or.inr ⟨x, List.mem_cons_of_mem _ hx, c⟩
      · rw [if_neg hm]
        obtain ⟨a, b, c⟩ := bigMid_spec l rest hl i m hi
        refine ⟨a, ?_, ?_⟩
        · intro x hx ht
          rcases List.mem_cons.mp hx with rfl | hx
          · grind
          · exact b x hx ht
        · rcases c with c | ⟨x, hx, c⟩
          · exact Or.inl c
          · exact Or.inr ⟨x, List.mem_cons_of_mem _ hx, c⟩

theorem bigMid_rest (l : Word K) (rest rest' : List (Tok K)) (hl : l.sp = Sp.altEnd) : ∀ (i : List (Word K)) (m : Rat),
    bigMid m (i.map (fun w => (⟨w, true⟩ : Tok K)) ++ ⟨l, true⟩ :: rest) =
    bigMid m (i.map (fun w => (⟨w, true⟩ : Tok K)) ++ ⟨l, true⟩ :: rest')
  | [], m => by simp [bigMid, hl]
  | w :: i, m => by
    simp only [List.map_cons, List.cons_append]
    unfold bigMid
    simp only
    cases w.sp with
    | altEnd => rfl
    | alt => exact bigMid_rest l rest rest' hl i m
    | word t =>
      simp only
      split
      · exact bigMid_rest l rest rest' hl i _
      · exact bigMid_rest l rest rest' hl i _

theorem imid_spec (it : Item K) (h : it.Valid) : it.HasMid (imid it) := by
  cases it with
  | single w => rfl
  | block f i l =>
    obtain ⟨h1, h2, h3⟩ := h
    have := bigMid_spec l [] h3 i 0 h2
    unfold imid toks
    unfold bigMid
    simp only [h1]
    exact this

theorem overAlt_items (l : Word K) (rest : List (Tok K)) (hl : l.sp = Sp.altEnd) : ∀ (i : List (Word K)),
    (∀ w ∈ i, w.sp ≠ Sp.altEnd) → overAlt (i.map (fun w => (⟨w, true⟩ : Tok K)) ++ ⟨l, true⟩ :: rest) =
      some (i.map (fun w => (⟨w, true⟩ : Tok K)) ++ [⟨l, true⟩], rest)
  | [], _ => by simp [overAlt, hl]
  | w :: i, h => by
    have ih := overAlt_items l rest hl i (fun x hx => h x (List.mem_cons_of_mem _ hx))
    simp only [List.map_cons, List.cons_append]
    unfold overAlt
    rw [if_neg (h w List.mem_cons_self), ih]
    rfl

theorem takeUtt_items (t2 : Rat) : ∀ (its : List (Item K)) (f : Nat), its.length ≤ f → (∀ it ∈ its, it.Valid) →
    takeUtt t2 f (its.flatMap toks) = some ((its.takeWhile (fun it => decide (imid it < t2))).flatMap toks,
      (its.dropWhile (fun it => decide (imid it < t2))).flatMap toks)
  | [], 0, _, _ => rfl
  | [], _ + 1, _, _ => rfl
  | it :: its, 0, h, _ => by simp at h
  | it :: its, f + 1, h, hv => by
    have ih := takeUtt_items t2 its f (by simpa using h) (fun x hx => hv x (List.mem_cons_of_mem _ hx))
    have hit := hv it List.mem_cons_self
    rw [List.flatMap_cons]
    cases it with
    | single w =>
      simp only [toks, List.cons_append, List.nil_append]
      unfold takeUtt
      simp only
      by_cases hm : mid w ≥ t2
      · have : ¬ imid (.single w) < t2 := by show ¬ mid w < t2; grind
        simp [hm, this, toks]
      · have : imid (.single w) < t2 := by show mid w < t2; grind
        simp [hm, this, toks, ih]
    | block f' i l =>
      obtain ⟨h1, h2, h3⟩ := hit
      have hmid : bigMid 0 (toks (.block f' i l) ++ its.flatMap toks) = imid (.block f' i l) := by
        unfold imid toks
        simp only [List.cons_append, List.append_assoc, List.nil_append]
        unfold bigMid
        simp only [h1]
        exact bigMid_rest l _ _ h3 i 0
      have hover : overAlt (toks (.block f' i l) ++ its.flatMap toks) = some (toks (.block f' i l), its.flatMap toks) := by
        unfold toks
        simp only [List.cons_append, List.append_assoc, List.nil_append]
        unfold overAlt
        rw [if_neg (by simp [h1]), overAlt_items l _ h3 i h2]
        rfl
      have hcons : ∃ rest, toks (.block f' i l) ++ its.flatMap toks = ⟨f', true⟩ :: rest :=
        ⟨_, by unfold toks; rw [List.cons_append]⟩
      obtain ⟨rest, hc⟩ := hcons
      rw [hc] at hmid hover ⊢
      unfold takeUtt
      simp only [if_true]
      rw [hmid]
      by_cases hm : imid (.block f' i l) ≥ t2
      · have : ¬ imid (.block f' i l) < t2 := by grind
        rw [if_pos hm]
        simp only [this, List.takeWhile_cons, List.dropWhile_cons, decide_false, List.flatMap_cons, List.flatMap_nil]
        simp [hc]
      · have : imid (.block f' i l) < t2 := by grind
        rw [if_neg hm, hover]
        simp [this, ih]

theorem takeUtt_concat (t2 : Rat) : ∀ (f : Nat) (ts : List (Tok K)) (a r : List (Tok K)), takeUtt t2 f ts = some (a, r) →
    a ++ r = ts := by
  have hover : ∀ (ts a r : List (Tok K)), overAlt ts = some (a, r) → a ++ r = ts := by
    intro ts
    induction ts with
    | nil => intro a r h; simp [overAlt] at h
    | cons t ts ih =>
      intro a r h
      unfold overAlt at h
      by_cases hs : t.w.sp = Sp.altEnd
      · rw [if_pos hs] at h; cases h; rfl
      · rw [if_neg hs, Option.map_eq_some_iff] at h
        obtain ⟨⟨a', r'⟩, h1, h2⟩ := h
        cases h2
        rw [List.cons_append, ih a' r' h1]
  intro f
  induction f with
  | zero => intro ts a r h; unfold takeUtt at h; cases h; rfl
  | succ f ih =>
    intro ts a r h
    cases ts with
    | nil => unfold takeUtt at h; cases h; rfl
    | cons t ts =>
      unfold takeUtt at h
      simp only at h
      generalize (if t.alternate = true then bigMid 0 (t :: ts) else mid t.w) = m at h
      by_cases hm : m ≥ t2
      · rw [if_pos hm] at h; cases h; rfl
      · rw [if_neg hm] at h
        by_cases ha : t.alternate = true
        · rw [if_pos ha] at h
          cases ho : overAlt (t :: ts) with
          | none => rw [ho] at h; cases h
          | some p =>
            obtain ⟨b, c⟩ := p
            rw [ho] at h
            simp only [Option.map_eq_some_iff] at h
            obtain ⟨⟨a', r'⟩, h1, h2⟩ := h
            cases h2
            rw [List.append_assoc, ih c a' r' h1, hover _ b c ho]
        · rw [if_neg ha, Option.map_eq_some_iff] at h
          obtain ⟨⟨a', r'⟩, h1, h2⟩ := h
          cases h2
          rw [List.cons_append, ih ts a' r' h1]

/-- Whatever utterances are skipped, the words given out are a first part of the words, in order, and all of them if the last
utterance is not skipped. -/
theorem uttLoop_words (keep : Utt K → Bool) : ∀ (us : List (Utt K)) (ts : List (Tok K)) (out : List (Utt K × List (Tok K))),
    uttLoop keep us ts = some out → out.map (·.1) = us.filter keep ∧ (∃ rest, out.flatMap (·.2) ++ rest = ts) ∧
      ((∃ u, us.getLast? = some u ∧ keep u = true) → out.flatMap (·.2) = ts)
  | [], ts, out, h => by
    unfold uttLoop at h; cases h
    exact ⟨rfl, ⟨ts, rfl⟩, by rintro ⟨u, h, _⟩; simp at h⟩
  | u :: us, ts, out, h => by
    unfold uttLoop at h
    by_cases hk : keep u = true
    · rw [if_pos hk] at h
      cases hs : segmentUtt us.isEmpty u.t2 ts with
      | none => rw [hs] at h; cases h
      | some p =>
        obtain ⟨a, r⟩ := p
        rw [hs] at h
        simp only [Option.map_eq_some_iff] at h
        obtain ⟨o, h1, h2⟩ := h
        cases h2
        obtain ⟨e1, ⟨rest, e2⟩, e3⟩ := uttLoop_words keep us r o h1
        have hc : a ++ r = ts := by
          unfold segmentUtt at hs
          split at hs
          · cases hs; simp
          · exact takeUtt_concat u.t2 _ ts a r hs
        refine ⟨by simp [hk, e1], ⟨rest, ?_⟩, ?_⟩
        · rw [List.flatMap_cons, List.append_assoc, e2, hc]
        · intro hl
          rw [List.flatMap_cons]
          cases hus : us with
          | nil =>
            rw [hus] at h1 hs
            unfold uttLoop at h1; cases h1
            unfold segmentUtt at hs
            simp at hs
            simp [hs.1]
          | cons v vs =>
            rw [hus] at hl e3
            rw [List.getLast?_cons_cons] at hl
            rw [e3 hl, hc]
    · rw [if_neg hk] at h
      obtain ⟨e1, e2, e3⟩ := uttLoop_words keep us ts out h
      refine ⟨by simp [hk, e1], e2, ?_⟩
      rintro ⟨v, hv, hkv⟩
      cases us with
      | nil => simp at hv; subst hv; exact absurd hkv hk
      | cons w ws => rw [List.getLast?_cons_cons] at hv; exact e3 ⟨v, hv, hkv⟩

end Verif.Chan
