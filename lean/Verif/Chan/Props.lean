import Verif.Chan.Lemmas
/-!
# C36, C69: which words an utterance is scored with
-/
set_option autoImplicit false
namespace Verif.Chan

variable {K : Type}

/-- The specification determines the time by which an item is assigned. -/
theorem hasMid_unique (it : Item K) (m m' : Rat) (h : it.HasMid m) (h' : it.HasMid m') : m = m' := by
  cases it with
  | single w => rw [show m = mid w from h, show m' = mid w from h']
  | block f i l =>
    obtain ⟨a, b, c⟩ := h
    obtain ⟨a', b', c'⟩ := h'
    rcases c with c | ⟨w, hw, ht, c⟩
    · rcases c' with c' | ⟨w', hw', ht', c'⟩
      · rw [c, c']
      · have := b w' hw' ht'; grind
    · have h1 := b' w hw ht
      rcases c' with c' | ⟨w', hw', ht', c'⟩
      · grind
      · have := b w' hw' ht'; grind

/-- The conditions on the groups. -/
def Greedy (us : List (Utt K)) (groups : List (List (Item K))) : Prop :=
  ∀ (k : Nat) (u : Utt K) (g : List (Item K)), k + 1 < us.length → us[k]? = some u → groups[k]? = some g →
    (∀ it ∈ g, ∃ m, it.HasMid m ∧ m < u.t2) ∧
    (∀ it, (groups.drop (k + 1)).flatten.head? = some it → ∃ m, it.HasMid m ∧ u.t2 ≤ m)

theorem mem_takeWhile {A : Type} (p : A → Bool) : ∀ (l : List A) (x : A), x ∈ l.takeWhile p → p x = true
  | [], x, h => by simp at h
  | a :: l, x, h => by
    rw [List.takeWhile_cons] at h
    by_cases ha : p a = true
    · rw [if_pos ha] at h
      rcases List.mem_cons.mp h with rfl | h
      · exact ha
      · exact mem_takeWhile p l x h
    · rw [if_neg ha] at h; simp at h

theorem uttLoop_items : ∀ (us : List (Utt K)) (its : List (Item K)), us ≠ [] → (∀ it ∈ its, it.Valid) →
    ∃ groups : List (List (Item K)), groups.length = us.length ∧ groups.flatten = its ∧
      uttLoop (fun _ => true) us (its.flatMap toks) = some (us.zip (groups.map (fun g => g.flatMap toks))) ∧
      Greedy us groups
  | [], _, h, _ => absurd rfl h
  | [u], its, _, _ => by
    refine ⟨[its], rfl, by simp, ?_, ?_⟩
    · simp [uttLoop, segmentUtt]
    · intro k _ _ h; simp at h
  | u :: v :: us, its, _, hv => by
    have hd : ∀ it ∈ its.dropWhile (fun it => decide (imid it < u.t2)), it.Valid :=
      fun it h => hv it ((List.dropWhile_sublist _).subset h)
    obtain ⟨gs, h1, h2, h3, h4⟩ := uttLoop_items (v :: us) (its.dropWhile (fun it => decide (imid it < u.t2))) (by simp) hd
    refine ⟨its.takeWhile (fun it => decide (imid it < u.t2)) :: gs, by simp [h1], ?_, ?_, ?_⟩
    · rw [List.flatten_cons, h2, List.takeWhile_append_dropWhile]
    · have hlen : its.length ≤ (its.flatMap toks).length := by
        clear h1 h2 h3 h4 hd hv
        induction its with
        | nil => simp
        | cons it its ih =>
          rw [List.flatMap_cons, List.length_append, List.length_cons]
          have : 1 ≤ (toks it).length := by cases it <;> simp [toks]
          omega
      have ht := takeUtt_items u.t2 its _ hlen hv
      unfold uttLoop
      simp only [if_true]
      unfold segmentUtt
      simp only [List.isEmpty_cons]
      rw [if_neg (by simp), ht]
      simp only
      rw [h3]
      rfl
    · intro k w g hk hw hg
      cases k with
      | zero =>
        simp only [List.getElem?_cons_zero, Option.some.injEq] at hw hg
        subst hw hg
        refine ⟨?_, ?_⟩
        · intro it hit
          have hmem : it ∈ its := (List.takeWhile_sublist _).subset hit
          have := mem_takeWhile _ _ it hit
          exact ⟨imid it, imid_spec it (hv it hmem), by simpa using this⟩
        · intro it hit
          rw [List.drop_succ_cons, List.drop_zero, h2] at hit
          have hmem : it ∈ its.dropWhile (fun it => decide (imid it < u.t2)) := List.mem_of_mem_head? hit
          refine ⟨imid it, imid_spec it (hd it hmem), ?_⟩
          have := List.head?_dropWhile_not (fun it => decide (imid it < u.t2)) its
          rw [hit] at this
          simp only [decide_eq_false_iff_not] at this
          grind
      | succ k =>
        simp only [List.getElem?_cons_succ] at hw hg
        have := h4 k w g (by simpa using hk) hw hg
        rw [List.drop_succ_cons]
        exact this

/-- **C36** The words of a channel are distributed over its utterances in order, none lost and none twice, with alternations kept
together: there is a group of items per utterance, the groups follow one another to form all items, and the words of the
`k`-th group are what the `k`-th utterance is scored with.  Every item of an utterance other than the last has its midpoint
before the end of the utterance, and the first item after it does not. -/
theorem utterance_words (us : List (Utt K)) (hu : us ≠ []) (its : List (Item K)) (hv : ∀ it ∈ its, it.Valid) :
    ∃ (groups : List (List (Item K))) (out : List (Utt K × List (Tok K))),
      alignChannel false us (mark none (wordsOf its)) = some out ∧
      groups.length = us.length ∧ groups.flatten = its ∧
      out.map (fun x => (x.1, x.2.map (·.w))) = us.zip (groups.map wordsOf) ∧
      (∀ (k : Nat) (u : Utt K) (g : List (Item K)), k + 1 < us.length → us[k]? = some u → groups[k]? = some g →
        (∀ it ∈ g, ∃ m, it.HasMid m ∧ m < u.t2) ∧
        (∀ it, (groups.drop (k + 1)).flatten.head? = some it → ∃ m, it.HasMid m ∧ u.t2 ≤ m)) := by
  obtain ⟨gs, h1, h2, h3, h4⟩ := uttLoop_items us its hu hv
  refine ⟨gs, us.zip (gs.map (fun g => g.flatMap toks)), ?_, h1, h2, ?_, h4⟩
  · unfold alignChannel
    rw [mark_items its none (by intro t h; cases h) hv]
    have : (kept false (its.flatMap toks) : Utt K → Bool) = (fun _ => true) := by funext u; rfl
    rw [this]
    exact h3
  · rw [List.map_zip_eq_zipWith]
    clear h2 h3 h4 hu
    induction us generalizing gs with
    | nil => simp
    | cons u us ih =>
      cases gs with
      | nil => simp at h1
      | cons g gs =>
        simp only [List.map_cons, List.zipWith_cons_cons, List.zip_cons_cons]
        rw [ih gs (by simpa using h1)]
        congr 2
        clear ih h1
        unfold wordsOf
        show (u, List.map (·.w) (g.flatMap toks)) = (u, g.flatMap Item.words)
        rw [List.map_flatMap]
        have : (fun a : Item K => List.map (·.w) (toks a)) = Item.words := funext toks_words
        rw [this]

/-- **C36** When the items come in the order of their midpoints, an item belongs to the first utterance ending after its
midpoint: all earlier utterances end at or before it. -/
theorem utterance_is_first (us : List (Utt K)) (groups : List (List (Item K))) (hlen : groups.length = us.length)
    (hg : ∀ (k : Nat) (u : Utt K) (g : List (Item K)), k + 1 < us.length → us[k]? = some u → groups[k]? = some g →
        (∀ it ∈ g, ∃ m, it.HasMid m ∧ m < u.t2) ∧
        (∀ it, (groups.drop (k + 1)).flatten.head? = some it → ∃ m, it.HasMid m ∧ u.t2 ≤ m))
    (hs : groups.flatten.Pairwise (fun a b => ∀ m m', a.HasMid m → b.HasMid m' → m ≤ m'))
    (j k : Nat) (hjk : j < k) (u : Utt K) (g : List (Item K)) (hu : us[j]? = some u) (hk : groups[k]? = some g)
    (it : Item K) (hit : it ∈ g) (m : Rat) (hm : it.HasMid m) : u.t2 ≤ m := by
  have hkl : k < groups.length := (List.getElem?_eq_some_iff.mp hk).1
  have hmem : it ∈ (groups.drop (j + 1)).flatten := by
    rw [List.mem_flatten]
    refine ⟨g, ?_, hit⟩
    apply List.mem_of_getElem? (i := k - (j + 1))
    rw [List.getElem?_drop, show j + 1 + (k - (j + 1)) = k by omega]
    exact hk
  obtain ⟨g', hg'⟩ : ∃ g', groups[j]? = some g' := ⟨_, List.getElem?_eq_getElem (by omega)⟩
  have h2 := (hg j u g' (by omega) hu hg').2
  have hsub : ((groups.drop (j + 1)).flatten).Pairwise (fun a b => ∀ m m', a.HasMid m → b.HasMid m' → m ≤ m') := by
    have : groups.flatten = (groups.take (j + 1)).flatten ++ (groups.drop (j + 1)).flatten := by
      rw [← List.flatten_append, List.take_append_drop]
    rw [this] at hs
    exact (List.pairwise_append.mp hs).2.1
  cases hL : (groups.drop (j + 1)).flatten with
  | nil => rw [hL] at hmem; simp at hmem
  | cons x xs =>
    rw [hL] at hmem hsub h2
    obtain ⟨mx, hx1, hx2⟩ := h2 x rfl
    rcases List.mem_cons.mp hmem with rfl | hmem
    · rw [hasMid_unique it m mx hm hx1]; exact hx2
    · have := (List.pairwise_cons.mp hsub).1 it hmem mx m hx1 hm
      grind

/-- **C36** When utterances without words nearby are left out, the words given out are still a first part of the channel's
words, and all of them if the last utterance is not left out. -/
theorem reduced_words (us : List (Utt K)) (ts : List (Tok K)) (out : List (Utt K × List (Tok K)))
    (h : alignChannel true us ts = some out) :
    (∃ rest, out.flatMap (·.2) ++ rest = ts) ∧
    ((∃ u, us.getLast? = some u ∧ kept true ts u = true) → out.flatMap (·.2) = ts) :=
  (uttLoop_words (kept true ts) us ts out h).2

/-- What fails: when the last utterance is left out, words after the end of the last one kept are scored nowhere. -/
theorem reduced_words_lost :
    alignChannel true [⟨(), 0, 1, false⟩, ⟨(), 5, 6, false⟩]
      [⟨⟨(), 0, 1/2, Sp.word "a"⟩, false⟩, ⟨⟨(), 2, 1/2, Sp.word "b"⟩, false⟩] =
    some [(⟨(), 0, 1, false⟩, [⟨⟨(), 0, 1/2, Sp.word "a"⟩, false⟩])] := by
  decide +kernel

/-- What fails: an alternation whose end mark is missing makes the code run beyond the channel's words. -/
theorem open_alternation_undefined :
    alignChannel false [⟨(), 0, 1, false⟩, ⟨(), 5, 6, false⟩]
      (mark none [⟨(), 0, 0, Sp.alt⟩, ⟨(), 0, 1, Sp.word "a"⟩]) = none := by
  decide +kernel

/-! ## Whole files -/

section
variable [DecidableEq K]

theorem run_spec {X : Type} (key : X → K) (x : X) (xs : List X) :
    (run key (x :: xs)).1 ++ (run key (x :: xs)).2 = x :: xs ∧ (run key (x :: xs)).1 ≠ [] ∧
      (∀ y ∈ (run key (x :: xs)).1, key y = key x) := by
  refine ⟨?_, by simp [run], ?_⟩
  · simp [run, List.takeWhile_append_dropWhile]
  · intro y hy
    simp only [run, List.mem_cons] at hy
    rcases hy with rfl | hy
    · rfl
    · simpa using mem_takeWhile _ _ y hy

theorem runKeys_head (a : K) (l : List K) : ∃ r, runKeys (a :: l) = a :: r := by
  unfold runKeys
  cases runKeys l with
  | nil => exact ⟨[], rfl⟩
  | cons b r =>
    simp only
    by_cases h : a = b
    · rw [if_pos h, h]; exact ⟨r, rfl⟩
    · rw [if_neg h]; exact ⟨b :: r, rfl⟩

theorem runKeys_run {X : Type} (key : X → K) (k : K) : ∀ (l : List X),
    runKeys (k :: l.map key) = k :: runKeys ((l.dropWhile (fun y => decide (key y = k))).map key)
  | [] => rfl
  | y :: l => by
    have ih := runKeys_run key k l
    rw [List.dropWhile_cons, List.map_cons]
    by_cases h : key y = k
    · rw [h]
      conv => lhs; unfold runKeys
      rw [ih]
      simp
    · conv => lhs; unfold runKeys
      obtain ⟨r, hr⟩ := runKeys_head (key y) (l.map key)
      rw [hr]
      simp only [decide_eq_true_eq, h, if_false, List.map_cons, hr]
      rw [if_neg (fun e => h e.symm)]

theorem runKeys_split {X : Type} (key : X → K) (x : X) (xs : List X) :
    runKeys ((x :: xs).map key) = key x :: runKeys ((run key (x :: xs)).2.map key) := by
  rw [List.map_cons, runKeys_run]
  rfl

theorem channel_all (us : List (Utt K)) (hu : us ≠ []) (ts : List (Tok K)) (out : List (Utt K × List (Tok K)))
    (h : alignChannel false us ts = some out) : out.map (·.1) = us ∧ out.flatMap (·.2) = ts := by
  have hk : (kept false ts : Utt K → Bool) = (fun _ => true) := by funext u; rfl
  unfold alignChannel at h
  rw [hk] at h
  obtain ⟨h1, _, h3⟩ := uttLoop_words _ us ts out h
  refine ⟨by rw [h1]; exact List.filter_eq_self.mpr (fun _ _ => rfl), h3 ?_⟩
  cases hl : us.getLast? with
  | none => rw [List.getLast?_eq_none_iff] at hl; exact absurd hl hu
  | some u => exact ⟨u, rfl, rfl⟩

theorem Out.map_ok {A B : Type} (f : A → B) (o : Out A) (b : B) (h : o.map f = .ok b) : ∃ a, o = .ok a ∧ f a = b := by
  cases o with
  | undefined => simp [Out.map] at h
  | error => simp [Out.map] at h
  | ok a => simp only [Out.map, Out.ok.injEq] at h; exact ⟨a, rfl, h⟩

theorem Out.map_error {A B : Type} (f : A → B) (o : Out A) : o.map f = .error ↔ o = .error := by
  cases o <;> simp [Out.map]

/-- What an aligned part contributes. -/
def Fits (us : List (Utt K)) (ts : List (Tok K)) (out : List (Utt K × List (Tok K))) : Prop :=
  out.map (·.1) = us ∧ out.flatMap (·.2) = ts ∧ ∀ x ∈ out, ∀ t ∈ x.2, t.w.key = x.1.key

omit [DecidableEq K] in
theorem Fits.append {us us' : List (Utt K)} {ts ts' : List (Tok K)} {o o' : List (Utt K × List (Tok K))}
    (h : Fits us ts o) (h' : Fits us' ts' o') : Fits (us ++ us') (ts ++ ts') (o ++ o') := by
  refine ⟨by rw [List.map_append, h.1, h'.1], by rw [List.flatMap_append, h.2.1, h'.2.1], ?_⟩
  intro x hx
  rcases List.mem_append.mp hx with hx | hx
  · exact h.2.2 x hx
  · exact h'.2.2 x hx

theorem channel_fits (us : List (Utt K)) (hu : us ≠ []) (ts : List (Tok K)) (out : List (Utt K × List (Tok K)))
    (h : alignChannel false us ts = some out) (hk : ∀ u ∈ us, ∀ t ∈ ts, t.w.key = u.key) : Fits us ts out := by
  obtain ⟨h1, h2⟩ := channel_all us hu ts out h
  refine ⟨h1, h2, ?_⟩
  intro x hx t ht
  apply hk
  · rw [← h1]; exact List.mem_map_of_mem hx
  · rw [← h2]; exact List.mem_flatMap.mpr ⟨x, hx, ht⟩

theorem fileLoop_ok : ∀ (f : Nat) (us : List (Utt K)) (ts : List (Tok K)) (out : List (Utt K × List (Tok K))),
    fileLoop false f us ts = .ok out →
      Fits us ts out ∧ (runKeys (ts.map (·.w.key))).Sublist (runKeys (us.map (·.key)))
  | 0, us, ts, out, h => by unfold fileLoop at h; cases h
  | f + 1, us, ts, out, h => by
    cases us with
    | nil =>
      cases ts with
      | nil => unfold fileLoop at h; cases h; exact ⟨⟨rfl, rfl, by simp⟩, by simp [runKeys]⟩
      | cons t ts => unfold fileLoop at h; cases h
    | cons u us =>
      obtain ⟨r1, r2, r3⟩ := run_spec Utt.key u us
      have rk := runKeys_split Utt.key u us
      cases ts with
      | nil =>
        unfold fileLoop at h
        simp only at h
        cases ha : alignChannel false (run Utt.key (u :: us)).1 ([] : List (Tok K)) with
        | none => rw [ha] at h; cases h
        | some a =>
          rw [ha] at h
          obtain ⟨x, hx, he⟩ := Out.map_ok _ _ _ h
          obtain ⟨i1, i2⟩ := fileLoop_ok f _ _ _ hx
          have := (channel_fits _ r2 _ _ ha (by simp)).append i1
          rw [r1, he] at this
          exact ⟨this, by simp [runKeys]⟩
      | cons t ts =>
        unfold fileLoop at h
        simp only at h
        obtain ⟨s1, s2, s3⟩ := run_spec (fun (x : Tok K) => x.w.key) t ts
        have sk := runKeys_split (fun (x : Tok K) => x.w.key) t ts
        by_cases hk : t.w.key = u.key
        · rw [if_pos hk] at h
          cases ha : alignChannel false (run Utt.key (u :: us)).1 (run (fun (x : Tok K) => x.w.key) (t :: ts)).1 with
          | none => rw [ha] at h; cases h
          | some a =>
            rw [ha] at h
            obtain ⟨x, hx, he⟩ := Out.map_ok _ _ _ h
            obtain ⟨i1, i2⟩ := fileLoop_ok f _ _ _ hx
            have := (channel_fits _ r2 _ _ ha (by
              intro v hv w hw
              rw [r3 v hv, s3 w hw]; exact hk)).append i1
            rw [r1, s1, he] at this
            refine ⟨this, ?_⟩
            rw [sk, rk, hk]
            exact i2.cons_cons _
        · rw [if_neg hk] at h
          cases ha : alignChannel false (run Utt.key (u :: us)).1 ([] : List (Tok K)) with
          | none => rw [ha] at h; cases h
          | some a =>
            rw [ha] at h
            obtain ⟨x, hx, he⟩ := Out.map_ok _ _ _ h
            obtain ⟨i1, i2⟩ := fileLoop_ok f _ _ _ hx
            have := (channel_fits _ r2 _ _ ha (by simp)).append i1
            rw [r1, he, List.nil_append] at this
            refine ⟨this, ?_⟩
            rw [rk]
            exact i2.cons _

theorem fileLoop_error : ∀ (f : Nat) (us : List (Utt K)) (ts : List (Tok K)),
    fileLoop false f us ts = .error → ¬ (runKeys (ts.map (·.w.key))).Sublist (runKeys (us.map (·.key)))
  | 0, us, ts, h => by unfold fileLoop at h; cases h
  | f + 1, us, ts, h => by
    cases us with
    | nil =>
      cases ts with
      | nil => unfold fileLoop at h; cases h
      | cons t ts =>
        obtain ⟨r, hr⟩ := runKeys_head t.w.key (ts.map (·.w.key))
        rw [List.map_cons, hr]
        intro hs
        exact absurd (List.sublist_nil.mp hs) (by simp)
    | cons u us =>
      have rk := runKeys_split Utt.key u us
      cases ts with
      | nil =>
        unfold fileLoop at h
        simp only at h
        cases ha : alignChannel false (run Utt.key (u :: us)).1 ([] : List (Tok K)) with
        | none => rw [ha] at h; cases h
        | some a =>
          rw [ha] at h
          have hx := (Out.map_error _ _).mp h
          exact absurd (by simp [runKeys]) (fileLoop_error f _ _ hx)
      | cons t ts =>
        unfold fileLoop at h
        simp only at h
        have sk := runKeys_split (fun (x : Tok K) => x.w.key) t ts
        by_cases hk : t.w.key = u.key
        · rw [if_pos hk] at h
          cases ha : alignChannel false (run Utt.key (u :: us)).1 (run (fun (x : Tok K) => x.w.key) (t :: ts)).1 with
          | none => rw [ha] at h; cases h
          | some a =>
            rw [ha] at h
            have hx := (Out.map_error _ _).mp h
            have ih := fileLoop_error f _ _ hx
            rw [sk, rk, hk]
            intro hs
            exact ih (List.cons_sublist_cons.mp hs)
        · rw [if_neg hk] at h
          cases ha : alignChannel false (run Utt.key (u :: us)).1 ([] : List (Tok K)) with
          | none => rw [ha] at h; cases h
          | some a =>
            rw [ha] at h
            have hx := (Out.map_error _ _).mp h
            have ih := fileLoop_error f _ _ hx
            rw [rk]
            intro hs
            rw [sk] at hs ih
            rcases List.sublist_cons_iff.mp hs with h2 | ⟨r, h2, _⟩
            · exact ih h2
            · exact hk (List.cons.inj h2).1

/-- All words of an item are of one file and channel. -/
def Uniform (it : Item K) : Prop := ∃ k, ∀ w ∈ it.words, w.key = k

/-- The file and channel of an item. -/
def itemKey : Item K → K
  | .single w => w.key
  | .block f _ _ => f.key

omit [DecidableEq K] in
theorem toks_key (it : Item K) (h : Uniform it) : ∀ t ∈ toks it, t.w.key = itemKey it := by
  obtain ⟨k, hk⟩ := h
  have h1 : itemKey it = k := by
    cases it with
    | single w => exact hk w (by simp [Item.words])
    | block f i l => exact hk f (by simp [Item.words])
  intro t ht
  rw [h1]
  apply hk
  rw [← toks_words]
  exact List.mem_map_of_mem ht

theorem takeWhile_all {A : Type} (p : A → Bool) : ∀ (l r : List A), (∀ x ∈ l, p x = true) →
    (l ++ r).takeWhile p = l ++ r.takeWhile p ∧ (l ++ r).dropWhile p = r.dropWhile p
  | [], r, _ => ⟨rfl, rfl⟩
  | a :: l, r, h => by
    have ih := takeWhile_all p l r (fun x hx => h x (List.mem_cons_of_mem _ hx))
    have ha := h a List.mem_cons_self
    simp [ha, ih]

theorem while_items (k : K) : ∀ (its : List (Item K)), (∀ it ∈ its, Uniform it) →
    (its.flatMap toks).takeWhile (fun y => decide (y.w.key = k)) = (its.takeWhile (fun it => decide (itemKey it = k))).flatMap toks ∧
    (its.flatMap toks).dropWhile (fun y => decide (y.w.key = k)) = (its.dropWhile (fun it => decide (itemKey it = k))).flatMap toks
  | [], _ => ⟨rfl, rfl⟩
  | it :: its, h => by
    have ih := while_items k its (fun x hx => h x (List.mem_cons_of_mem _ hx))
    have hk := toks_key it (h it List.mem_cons_self)
    rw [List.flatMap_cons]
    by_cases e : itemKey it = k
    · have := takeWhile_all (fun y : Tok K => decide (y.w.key = k)) (toks it) (its.flatMap toks)
        (by intro x hx; rw [hk x hx]; simpa using e)
      rw [this.1, this.2, ih.1, ih.2]
      simp [e]
    · have hne : ∃ t r, toks it = t :: r ∧ t.w.key = itemKey it := by
        cases hc : toks it with
        | nil => cases it <;> simp [toks] at hc
        | cons t r => exact ⟨t, r, rfl, hk t (by rw [hc]; exact List.mem_cons_self)⟩
      obtain ⟨t, r, h1, h2⟩ := hne
      have h3 : ¬ t.w.key = k := by rw [h2]; exact e
      rw [h1]
      simp only [List.cons_append, List.takeWhile_cons, List.dropWhile_cons, e, h3, decide_false]
      simp [h1]

theorem fileLoop_defined : ∀ (f : Nat) (us : List (Utt K)) (its : List (Item K)), us.length < f → (∀ it ∈ its, it.Valid) →
    (∀ it ∈ its, Uniform it) → fileLoop false f us (its.flatMap toks) ≠ .undefined
  | 0, us, its, hf, _, _ => by omega
  | f + 1, us, its, hf, hv, hu => by
    have hmap : ∀ {A B : Type} (g : A → B) (o : Out A), o ≠ .undefined → o.map g ≠ .undefined := by
      intro A B g o h; cases o <;> simp_all [Out.map]
    have hchan : ∀ (vs : List (Utt K)) (js : List (Item K)), vs ≠ [] → (∀ it ∈ js, it.Valid) →
        ∃ a, alignChannel false vs (js.flatMap toks) = some a := by
      intro vs js h1 h2
      obtain ⟨gs, _, _, h3, _⟩ := uttLoop_items vs js h1 h2
      exact ⟨_, h3⟩
    cases us with
    | nil => cases h : its.flatMap toks <;> simp [fileLoop]
    | cons u us =>
      obtain ⟨r1, r2, r3⟩ := run_spec Utt.key u us
      have hlen : (run Utt.key (u :: us)).2.length < f := by
        have := congrArg List.length r1
        rw [List.length_append] at this
        have := List.length_pos_iff.mpr r2
        simp only [List.length_cons] at *
        omega
      obtain ⟨a0, ha0⟩ := hchan (run Utt.key (u :: us)).1 [] r2 (by simp)
      rw [List.flatMap_nil] at ha0
      cases its with
      | nil =>
        rw [List.flatMap_nil]
        unfold fileLoop
        simp only [ha0]
        exact hmap _ _ (fileLoop_defined f _ [] hlen (by simp) (by simp))
      | cons it its =>
        obtain ⟨t, r, h1, h2⟩ : ∃ t r, toks it = t :: r ∧ t.w.key = itemKey it := by
          cases hc : toks it with
          | nil => cases it <;> simp [toks] at hc
          | cons t r => exact ⟨t, r, rfl, toks_key it (hu it List.mem_cons_self) t (by rw [hc]; exact List.mem_cons_self)⟩
        have hts : (it :: its).flatMap toks = t :: (r ++ its.flatMap toks) := by
          rw [List.flatMap_cons, h1, List.cons_append]
        have hw := while_items t.w.key (it :: its) hu
        rw [hts, List.takeWhile_cons, List.dropWhile_cons] at hw
        simp only [decide_true, if_true] at hw
        have hrun : run (fun (x : Tok K) => x.w.key) (t :: (r ++ its.flatMap toks)) =
            (((it :: its).takeWhile (fun it => decide (itemKey it = t.w.key))).flatMap toks,
             ((it :: its).dropWhile (fun it => decide (itemKey it = t.w.key))).flatMap toks) := by
          unfold run
          simp only
          rw [hw.1, hw.2]
        have hv1 : ∀ x ∈ (it :: its).takeWhile (fun it => decide (itemKey it = t.w.key)), x.Valid :=
          fun x hx => hv x ((List.takeWhile_sublist _).subset hx)
        have hv2 : ∀ x ∈ (it :: its).dropWhile (fun it => decide (itemKey it = t.w.key)), x.Valid :=
          fun x hx => hv x ((List.dropWhile_sublist _).subset hx)
        have hu2 : ∀ x ∈ (it :: its).dropWhile (fun it => decide (itemKey it = t.w.key)), Uniform x :=
          fun x hx => hu x ((List.dropWhile_sublist _).subset hx)
        obtain ⟨a1, ha1⟩ := hchan (run Utt.key (u :: us)).1 _ r2 hv1
        have i1 := fileLoop_defined f (run Utt.key (u :: us)).2 _ hlen hv2 hu2
        have i2 := fileLoop_defined f (run Utt.key (u :: us)).2 (it :: its) hlen hv hu
        rw [hts] at i2 ⊢
        unfold fileLoop
        simp only [hrun]
        by_cases hk : t.w.key = u.key
        · rw [if_pos hk, ha1]
          exact hmap _ _ i1
        · rw [if_neg hk, ha0]
          exact hmap _ _ i2

/-- **C69** When two files are aligned without an error report, every reference utterance appears once, in order, every word of
the hypothesis file is given to exactly one utterance, in order, and a word only goes to an utterance of its own file and
channel. -/
theorem files_partition (us : List (Utt K)) (ws : List (Word K)) (out : List (Utt K × List (Tok K)))
    (h : alignFiles false us ws = .ok out) :
    out.map (·.1) = us ∧ (out.flatMap (·.2)).map (·.w) = ws ∧ ∀ x ∈ out, ∀ t ∈ x.2, t.w.key = x.1.key := by
  obtain ⟨⟨h1, h2, h3⟩, _⟩ := fileLoop_ok _ us _ out h
  exact ⟨h1, by rw [h2, mark_w], h3⟩

/-- **C69** With complete alternations the alignment succeeds exactly when the hypothesis file's sequence of files and channels is
contained in order in that of the reference file; otherwise the error is reported. -/
theorem files_ok_iff (us : List (Utt K)) (its : List (Item K)) (hv : ∀ it ∈ its, it.Valid) (hu : ∀ it ∈ its, Uniform it) :
    ((∃ out, alignFiles false us (wordsOf its) = .ok out) ↔
      (runKeys ((wordsOf its).map (·.key))).Sublist (runKeys (us.map (·.key)))) ∧
    (alignFiles false us (wordsOf its) = .error ↔
      ¬ (runKeys ((wordsOf its).map (·.key))).Sublist (runKeys (us.map (·.key)))) := by
  have hd : alignFiles false us (wordsOf its) ≠ .undefined := by
    unfold alignFiles
    rw [mark_items its none (by intro t h; cases h) hv]
    exact fileLoop_defined _ us its (by omega) hv hu
  have hkeys : (mark none (wordsOf its)).map (·.w.key) = (wordsOf its).map (·.key) := by
    conv => rhs; rw [← mark_w (wordsOf its) none, List.map_map]
    rfl
  cases ho : alignFiles false us (wordsOf its) with
  | undefined => exact absurd ho hd
  | error =>
    have := fileLoop_error _ _ _ ho
    rw [hkeys] at this
    exact ⟨⟨(by rintro ⟨o, h⟩; cases h), fun h => absurd h this⟩, ⟨fun _ => this, fun _ => rfl⟩⟩
  | ok out =>
    have := (fileLoop_ok _ _ _ _ ho).2
    rw [hkeys] at this
    exact ⟨⟨fun _ => this, fun _ => ⟨out, rfl⟩⟩, ⟨(by intro h; cases h), fun h => absurd this h⟩⟩

end

/-! ## The hypotheses are met -/

/-- Two words and an alternation of channel 1, a word of channel 2. -/
def exItems : List (Item Nat) :=
  [.single ⟨1, 0, 1, Sp.word "a"⟩,
   .block ⟨1, 1, 0, Sp.alt⟩ [⟨1, 1, 1, Sp.word "b"⟩, ⟨1, 1, 0, Sp.alt⟩, ⟨1, 2, 2, Sp.word "c"⟩] ⟨1, 1, 0, Sp.altEnd⟩,
   .single ⟨1, 5, 1, Sp.word "d"⟩, .single ⟨2, 1, 1, Sp.word "e"⟩]

def exUtts : List (Utt Nat) := [⟨1, 0, 2, false⟩, ⟨1, 3, 5, false⟩, ⟨3, 0, 1, false⟩, ⟨2, 0, 9, false⟩]

example : ∀ it ∈ exItems, it.Valid := by
  unfold exItems
  intro it h
  simp only [List.mem_cons, List.not_mem_nil, or_false] at h
  rcases h with rfl | rfl | rfl | rfl
  · exact ⟨_, rfl⟩
  · exact ⟨rfl, by decide +kernel, rfl⟩
  · exact ⟨_, rfl⟩
  · exact ⟨_, rfl⟩

example : (alignFiles false exUtts (wordsOf exItems)).map (fun o => o.map (fun x => (x.1.key, x.2.map (fun t => t.w.sp)))) =
    .ok [(1, [Sp.word "a"]), (1, [Sp.alt, Sp.word "b", Sp.alt, Sp.word "c", Sp.altEnd, Sp.word "d"]), (3, []), (2, [Sp.word "e"])] := by
  decide +kernel

example : alignFiles false exUtts [⟨2, 0, 1, Sp.word "a"⟩, ⟨1, 0, 1, Sp.word "b"⟩] = .error := by decide +kernel

end Verif.Chan
