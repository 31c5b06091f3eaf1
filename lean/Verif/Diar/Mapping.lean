import Verif.Diar.Match
/-!
# The mapping of speakers by names, and the error of speakers
-/
set_option autoImplicit false
namespace Verif.Diar

/-- Total overlap of a list of pairs of speakers. -/
def shared (o : Nat → Nat → Int) (P : List (Nat × Nat)) : Int := (P.map (fun p => o p.1 p.2)).sum

/-- Pairs of speakers, none twice on either side. -/
def OneEach (P : List (Nat × Nat)) : Prop := (P.map Prod.fst).Nodup ∧ (P.map Prod.snd).Nodup

/-- The names of a pair of numbers. -/
def nm (A B : List Nat) (p : Nat × Nat) : Option (Nat × Nat) := (A[p.1]?).bind (fun r => (B[p.2]?).map (fun s => (r, s)))

theorem cells_some {A B : List Nat} {o : Nat → Nat → Int} {k l : Nat} {v : Int} (h : cells A B o k l = some v) :
    ∃ r s, A[k]? = some r ∧ B[l]? = some s ∧ 0 < o r s ∧ v = o r s := by
  unfold cells at h
  cases hA : A[k]? with
  | none => rw [hA] at h; cases h
  | some r =>
    cases hB : B[l]? with
    | none => rw [hA, hB] at h; cases h
    | some s =>
      rw [hA, hB, Option.bind_some, Option.bind_some] at h
      split at h
      · rename_i hp
        exact ⟨r, s, rfl, rfl, hp, (Option.some.inj h).symm⟩
      · cases h

theorem filterMap_of {α β : Type} (f : α → Option β) (g : α → β) (l : List α) (h : ∀ a ∈ l, f a = some (g a)) : l.filterMap f = l.map g := by
  induction l with
  | nil => rfl
  | cons a l ih =>
    rw [List.filterMap_cons, h a (List.mem_cons_self ..), List.map_cons, ih (fun b hb => h b (List.mem_cons_of_mem _ hb))]

theorem nodup_get_inj {l : List Nat} (h : l.Nodup) {i j : Nat} {a : Nat} (hi : l[i]? = some a) (hj : l[j]? = some a) : i = j := by
  obtain ⟨hi', ei⟩ := List.getElem?_eq_some_iff.1 hi
  obtain ⟨hj', ej⟩ := List.getElem?_eq_some_iff.1 hj
  have h1 := h.idxOf_getElem i hi'
  have h2 := h.idxOf_getElem j hj'
  rw [ei] at h1
  rw [ej] at h2
  omega

theorem idxOf_get {l : List Nat} {a : Nat} (h : a ∈ l) : l[l.idxOf a]? = some a := by
  rw [List.getElem?_eq_getElem (List.idxOf_lt_length_of_mem h), List.getElem_idxOf]

theorem shared_gain (K M : Int) (o : Nat → Nat → Int) (P : List (Nat × Nat)) :
    (P.map (fun p => K * o p.1 p.2 + M)).sum = K * shared o P + P.length * M := by
  induction P with
  | nil => simp [shared]
  | cons p P ih =>
    have : shared o (p :: P) = o p.1 p.2 + shared o P := by unfold shared; rw [List.map_cons, List.sum_cons]
    rw [List.map_cons, List.sum_cons, ih, this, List.length_cons, Int.mul_add, Int.natCast_add, Int.add_mul]
    omega

/-- The matching with names. -/
theorem names_optimal (K M : Int) (hM : 0 ≤ M) (A B : List Nat) (hA : A.Nodup) (hB : B.Nodup) (o : Nat → Nat → Int)
    (n : Nat) (hnA : A.length ≤ n) (hnB : B.length ≤ n) (hK : n * M < K) (f : Found) (hf : Mates f n) (R : List (Nat × Nat))
    (h : bgm K M (cells A B o) n f = some R) :
    OneEach (R.filterMap (nm A B)) ∧ (∀ p ∈ R.filterMap (nm A B), 0 < o p.1 p.2 ∧ p.1 ∈ A ∧ p.2 ∈ B) ∧
      ∀ Q : List (Nat × Nat), OneEach Q → (∀ q ∈ Q, 0 < o q.1 q.2 ∧ q.1 ∈ A ∧ q.2 ∈ B) → shared o Q ≤ shared o (R.filterMap (nm A B)) := by
  have hnM : 0 ≤ (n : Int) * M := Int.mul_nonneg (by omega) hM
  obtain ⟨⟨r1, r2, r3⟩, hdef, hopt⟩ := bgm_optimal K M (by omega) hM (cells A B o) (fun k l v hv => by
    obtain ⟨_, _, _, _, h1, h2⟩ := cells_some hv; omega) n f hf R h
  let g : Nat × Nat → Nat × Nat := fun p => ((A[p.1]?).getD 0, (B[p.2]?).getD 0)
  have hR : ∀ p ∈ R, ∃ r s, A[p.1]? = some r ∧ B[p.2]? = some s ∧ 0 < o r s ∧ cells A B o p.1 p.2 = some (o r s) := by
    intro p hp
    obtain ⟨v, hv⟩ := Option.isSome_iff_exists.1 (hdef p hp)
    obtain ⟨r, s, h1, h2, h3, h4⟩ := cells_some hv
    exact ⟨r, s, h1, h2, h3, by rw [hv, h4]⟩
  have hnm : R.filterMap (nm A B) = R.map g := filterMap_of _ _ _ (fun p hp => by
    obtain ⟨r, s, h1, h2, _⟩ := hR p hp
    show (A[p.1]?).bind (fun r => (B[p.2]?).map (fun s => (r, s))) = some ((A[p.1]?).getD 0, (B[p.2]?).getD 0)
    rw [h1, h2]; rfl)
  have Rnd : R.Nodup := by
    have := r1
    unfold List.Nodup at this ⊢
    rw [List.pairwise_map] at this
    exact this.imp (fun h e => h (by rw [e]))
  have fst_inj : ∀ a ∈ R, ∀ b ∈ R, a.1 = b.1 → a = b := by
    intro a ha b hb hab
    refine Classical.byContradiction (fun hne => ?_)
    have hp := r1
    unfold List.Nodup at hp
    rw [List.pairwise_map] at hp
    -- both orders
    rcases List.getElem_of_mem ha with ⟨i, hi, rfl⟩
    rcases List.getElem_of_mem hb with ⟨j, hj, rfl⟩
    rw [List.pairwise_iff_getElem] at hp
    rcases Nat.lt_trichotomy i j with h | h | h
    · exact hp i j hi hj h hab
    · subst h; exact hne rfl
    · exact hp j i hj hi h hab.symm
  have snd_inj : ∀ a ∈ R, ∀ b ∈ R, a.2 = b.2 → a = b := by
    intro a ha b hb hab
    refine Classical.byContradiction (fun hne => ?_)
    have hp := r2
    unfold List.Nodup at hp
    rw [List.pairwise_map] at hp
    rcases List.getElem_of_mem ha with ⟨i, hi, rfl⟩
    rcases List.getElem_of_mem hb with ⟨j, hj, rfl⟩
    rw [List.pairwise_iff_getElem] at hp
    rcases Nat.lt_trichotomy i j with h | h | h
    · exact hp i j hi hj h hab
    · subst h; exact hne rfl
    · exact hp j i hj hi h hab.symm
  have one : OneEach (R.map g) := by
    constructor
    · rw [List.map_map]
      refine nodup_map_on Rnd (fun a ha b hb hab => fst_inj a ha b hb ?_)
      obtain ⟨r, s, h1, h2, _⟩ := hR a ha
      obtain ⟨r', s', h1', h2', _⟩ := hR b hb
      have : r = r' := by
        have e : (A[a.1]?).getD 0 = (A[b.1]?).getD 0 := hab
        rw [h1, h1'] at e; exact e
      subst this
      exact nodup_get_inj hA h1 h1'
    · rw [List.map_map]
      refine nodup_map_on Rnd (fun a ha b hb hab => snd_inj a ha b hb ?_)
      obtain ⟨r, s, h1, h2, _⟩ := hR a ha
      obtain ⟨r', s', h1', h2', _⟩ := hR b hb
      have : s = s' := by
        have e : (B[a.2]?).getD 0 = (B[b.2]?).getD 0 := hab
        rw [h2, h2'] at e; exact e
      subst this
      exact nodup_get_inj hB h2 h2'
  rw [hnm]
  refine ⟨one, fun p hp => ?_, fun Q hQ1 hQ2 => ?_⟩
  · obtain ⟨q, hq, rfl⟩ := List.mem_map.1 hp
    obtain ⟨r, s, h1, h2, h3, _⟩ := hR q hq
    have e : g q = (r, s) := by show ((A[q.1]?).getD 0, (B[q.2]?).getD 0) = (r, s); rw [h1, h2]; rfl
    rw [e]
    exact ⟨h3, List.mem_of_getElem? h1, List.mem_of_getElem? h2⟩
  · -- the numbers of the pairs of names
    have hPair : Pairing n (Q.map (fun q => (A.idxOf q.1, B.idxOf q.2))) := by
      refine ⟨?_, ?_, fun p hp => ?_⟩
      · rw [List.map_map]
        have : (Q.map (Prod.fst ∘ fun q => (A.idxOf q.1, B.idxOf q.2))) = (Q.map Prod.fst).map (fun a => A.idxOf a) := by
          rw [List.map_map]; rfl
        rw [this]
        refine nodup_map_on hQ1.1 (fun a ha b hb hab => ?_)
        obtain ⟨q, hq, rfl⟩ := List.mem_map.1 ha
        obtain ⟨q', hq', rfl⟩ := List.mem_map.1 hb
        have e1 := idxOf_get (hQ2 q hq).2.1
        have e2 := idxOf_get (hQ2 q' hq').2.1
        rw [hab, e2] at e1
        exact (Option.some.inj e1).symm
      · rw [List.map_map]
        have : (Q.map (Prod.snd ∘ fun q => (A.idxOf q.1, B.idxOf q.2))) = (Q.map Prod.snd).map (fun a => B.idxOf a) := by
          rw [List.map_map]; rfl
        rw [this]
        refine nodup_map_on hQ1.2 (fun a ha b hb hab => ?_)
        obtain ⟨q, hq, rfl⟩ := List.mem_map.1 ha
        obtain ⟨q', hq', rfl⟩ := List.mem_map.1 hb
        have e1 := idxOf_get (hQ2 q hq).2.2
        have e2 := idxOf_get (hQ2 q' hq').2.2
        rw [hab, e2] at e1
        exact (Option.some.inj e1).symm
      · obtain ⟨q, hq, rfl⟩ := List.mem_map.1 hp
        have h1 := List.idxOf_lt_length_of_mem (hQ2 q hq).2.1
        have h2 := List.idxOf_lt_length_of_mem (hQ2 q hq).2.2
        exact ⟨by simp only; omega, by simp only; omega⟩
    have key := hopt _ hPair
    have e1 : ((Q.map (fun q => (A.idxOf q.1, B.idxOf q.2))).map (fun p => gain K M (cells A B o) p.1 p.2)).sum =
        (Q.map (fun p => K * o p.1 p.2 + M)).sum := by
      rw [List.map_map]
      congr 1
      refine List.map_congr_left (fun q hq => ?_)
      have hq' := hQ2 q hq
      show gain K M (cells A B o) (A.idxOf q.1) (B.idxOf q.2) = _
      unfold gain cells
      rw [idxOf_get hq'.2.1, idxOf_get hq'.2.2, Option.bind_some, Option.bind_some, if_pos hq'.1]
      rfl
    have e2 : (R.map (fun p => gain K M (cells A B o) p.1 p.2)).sum = ((R.map g).map (fun p => K * o p.1 p.2 + M)).sum := by
      rw [List.map_map]
      congr 1
      refine List.map_congr_left (fun p hp => ?_)
      obtain ⟨r, s, h1, h2, h3, h4⟩ := hR p hp
      show gain K M (cells A B o) p.1 p.2 = K * o ((A[p.1]?).getD 0) ((B[p.2]?).getD 0) + M
      unfold gain
      rw [h4, h1, h2]
      rfl
    rw [e1, e2, shared_gain, shared_gain] at key
    have hlen : (R.map g).length ≤ n := by
      rw [List.length_map]
      have := List.Nodup.length_le_of_subset r1 (l₂ := List.range n) (fun a ha => by
        obtain ⟨p, hp, rfl⟩ := List.mem_map.1 ha
        exact List.mem_range.2 (r3 p hp).1)
      simpa using this
    have h5 : ((R.map g).length : Int) * M ≤ n * M := Int.mul_le_mul_of_nonneg_right (by omega) hM
    have h6 : 0 ≤ (Q.length : Int) * M := Int.mul_nonneg (by omega) hM
    apply Int.not_lt.1
    intro hlt
    have h7 : K * (shared o (R.map g) + 1) ≤ K * shared o Q := Int.mul_le_mul_of_nonneg_left (by omega) (by omega)
    rw [Int.mul_add] at h7
    omega

theorem maxOverlap_nonneg (rows cols : List Nat) (o : Nat → Nat → Int) : 0 ≤ maxOverlap rows cols o := by
  unfold maxOverlap
  generalize rows.flatMap (fun r => cols.map (fun s => o r s)) = l
  have : ∀ (l : List Int) (m : Int), m ≤ l.foldl max m := by
    intro l
    induction l with
    | nil => intro m; exact Int.le_refl _
    | cons a l ih => intro m; rw [List.foldl_cons]; have := ih (max m a); omega
  exact this l 0

/-- `map_speakers`: one to one, and no pairs share more time. -/
theorem mapSpeakers_optimal (K : Int) (rows cols : List Nat) (hr : rows.Nodup) (hc : cols.Nodup) (o : Nat → Nat → Int) (f : Found)
    (hf : Mates f (max rows.length cols.length + 1))
    (hK : ((max rows.length cols.length + 1 : Nat) : Int) * maxOverlap rows cols o < K)
    (P : List (Nat × Nat)) (h : mapSpeakers K rows cols o f = some P) :
    OneEach P ∧ (∀ p ∈ P, 0 < o p.1 p.2 ∧ p.1 ∈ rows ∧ p.2 ∈ cols) ∧
      ∀ Q : List (Nat × Nat), OneEach Q → (∀ q ∈ Q, 0 < o q.1 q.2 ∧ q.1 ∈ rows ∧ q.2 ∈ cols) → shared o Q ≤ shared o P := by
  unfold mapSpeakers at h
  dsimp only at h
  by_cases hlt : rows.length < cols.length
  · rw [if_pos hlt] at h
    obtain ⟨R, hR, rfl⟩ := Option.map_eq_some_iff.1 h
    obtain ⟨h1, h2, h3⟩ := names_optimal K _ (maxOverlap_nonneg rows cols o) cols rows hc hr (fun s r => o r s) _
      (by omega) (by omega) hK f hf R hR
    have e : R.filterMap (fun p => (rows[p.2]?).bind (fun r => (cols[p.1]?).map (fun s => (r, s)))) =
        (R.filterMap (nm cols rows)).map Prod.swap := by
      rw [List.map_filterMap]
      congr 1
      funext p
      unfold nm
      cases rows[p.2]? <;> cases cols[p.1]? <;> rfl
    rw [e]
    have sw1 : ∀ l : List (Nat × Nat), (l.map Prod.swap).map Prod.fst = l.map Prod.snd := fun l => by rw [List.map_map]; rfl
    have sw2 : ∀ l : List (Nat × Nat), (l.map Prod.swap).map Prod.snd = l.map Prod.fst := fun l => by rw [List.map_map]; rfl
    have sh : ∀ l : List (Nat × Nat), shared o (l.map Prod.swap) = shared (fun s r => o r s) l := fun l => by
      unfold shared; rw [List.map_map]; rfl
    refine ⟨⟨by rw [sw1]; exact h1.2, by rw [sw2]; exact h1.1⟩, fun p hp => ?_, fun Q hQ1 hQ2 => ?_⟩
    · obtain ⟨q, hq, rfl⟩ := List.mem_map.1 hp
      have := h2 q hq
      exact ⟨this.1, this.2.2, this.2.1⟩
    · have := h3 (Q.map Prod.swap) ⟨by rw [sw1]; exact hQ1.2, by rw [sw2]; exact hQ1.1⟩ (fun q hq => by
        obtain ⟨q', hq', rfl⟩ := List.mem_map.1 hq
        have := hQ2 q' hq'
        exact ⟨this.1, this.2.2, this.2.1⟩)
      rw [sh]
      have e2 : shared (fun s r => o r s) (Q.map Prod.swap) = shared o Q := by unfold shared; rw [List.map_map]; rfl
      rw [← e2]; exact this
  · rw [if_neg hlt] at h
    obtain ⟨R, hR, rfl⟩ := Option.map_eq_some_iff.1 h
    exact names_optimal K _ (maxOverlap_nonneg rows cols o) rows cols hr hc o _ (by omega) (by omega) hK f hf R hR

/-! ## Mappings as functions -/

/-- What a speaker of the reference shares with the one it is mapped to. -/
def with_ (o : Nat → Nat → Int) (map : Nat → Option Nat) (r : Nat) : Int := ((map r).map (o r)).getD 0

theorem mapOf_mem {P : List (Nat × Nat)} (h : (P.map Prod.fst).Nodup) (r s : Nat) : mapOf P r = some s ↔ (r, s) ∈ P := by
  induction P with
  | nil => simp [mapOf]
  | cons p P ih =>
    rw [List.map_cons, List.nodup_cons] at h
    have ih := ih h.2
    unfold mapOf at ih ⊢
    by_cases hp : p.1 = r
    · rw [List.find?_cons_of_pos (by simpa using hp), List.mem_cons]
      constructor
      · intro h'
        left
        have : p.2 = s := Option.some.inj h'
        exact Prod.ext hp.symm this.symm
      · rintro (h' | h')
        · rw [← h']; rfl
        · exact absurd (List.mem_map.2 ⟨(r, s), h', hp.symm⟩) h.1
    · rw [List.find?_cons_of_neg (by simpa using hp), ih, List.mem_cons]
      constructor
      · exact Or.inr
      · rintro (h' | h')
        · exact absurd (by rw [← h']) hp
        · exact h'

theorem mapOf_one {P : List (Nat × Nat)} (h : OneEach P) : OneToOne (mapOf P) := by
  intro r r' s h1 h2
  rw [mapOf_mem h.1] at h1 h2
  have hp := h.2
  unfold List.Nodup at hp
  rw [List.pairwise_map, List.pairwise_iff_getElem] at hp
  obtain ⟨i, hi, ei⟩ := List.getElem_of_mem h1
  obtain ⟨j, hj, ej⟩ := List.getElem_of_mem h2
  rcases Nat.lt_trichotomy i j with h | h | h
  · exact absurd (by rw [ei, ej]) (hp i j hi hj h)
  · subst h; rw [ei] at ej; exact (Prod.mk.inj ej).1
  · exact absurd (by rw [ei, ej]) (hp j i hj hi h)

/-- The pairs of a mapping that share time. -/
def pairsOf (o : Nat → Nat → Int) (map : Nat → Option Nat) (rows : List Nat) : List (Nat × Nat) :=
  rows.filterMap (fun r => (map r).bind (fun s => if 0 < o r s then some (r, s) else none))

theorem pairsOf_spec (o : Nat → Nat → Int) (ho : ∀ r s, 0 ≤ o r s) (map : Nat → Option Nat) (h1 : OneToOne map) (rows : List Nat) (hr : rows.Nodup) :
    OneEach (pairsOf o map rows) ∧ (∀ p, p ∈ pairsOf o map rows ↔ p.1 ∈ rows ∧ map p.1 = some p.2 ∧ 0 < o p.1 p.2) ∧
      shared o (pairsOf o map rows) = (rows.map (with_ o map)).sum := by
  induction rows with
  | nil => exact ⟨⟨by simp [pairsOf], by simp [pairsOf]⟩, fun p => by simp [pairsOf], rfl⟩
  | cons r rows ih =>
    rw [List.nodup_cons] at hr
    obtain ⟨⟨i1, i2⟩, i3, i4⟩ := ih hr.2
    rw [List.map_cons, List.sum_cons, ← i4]
    cases hm : map r with
    | none =>
      have e : pairsOf o map (r :: rows) = pairsOf o map rows := by unfold pairsOf; rw [List.filterMap_cons, hm]; rfl
      rw [e]
      refine ⟨⟨i1, i2⟩, fun p => ?_, ?_⟩
      · rw [i3, List.mem_cons]
        constructor
        · rintro ⟨a, b⟩; exact ⟨Or.inr a, b⟩
        · rintro ⟨a | a, b⟩
          · rw [a, hm] at b; cases b.1
          · exact ⟨a, b⟩
      · unfold with_; rw [hm]; simp
    | some s =>
      by_cases hp : 0 < o r s
      · have e : pairsOf o map (r :: rows) = (r, s) :: pairsOf o map rows := by
          unfold pairsOf; rw [List.filterMap_cons, hm, Option.bind_some, if_pos hp]
        rw [e]
        refine ⟨⟨?_, ?_⟩, fun p => ?_, ?_⟩
        · rw [List.map_cons, List.nodup_cons]
          refine ⟨fun hmem => ?_, i1⟩
          obtain ⟨p, hp', he⟩ := List.mem_map.1 hmem
          have := ((i3 p).1 hp').1
          rw [he] at this
          exact hr.1 this
        · rw [List.map_cons, List.nodup_cons]
          refine ⟨fun hmem => ?_, i2⟩
          obtain ⟨p, hp', he⟩ := List.mem_map.1 hmem
          have hh := (i3 p).1 hp'
          have := h1 p.1 r s (by rw [hh.2.1, he]) hm
          rw [this] at hh
          exact hr.1 hh.1
        · rw [List.mem_cons, i3, List.mem_cons]
          constructor
          · rintro (rfl | ⟨a, b⟩)
            · exact ⟨Or.inl rfl, hm, hp⟩
            · exact ⟨Or.inr a, b⟩
          · rintro ⟨a | a, b, c⟩
            · left
              rw [a, hm] at b
              exact Prod.ext a (Option.some.inj b).symm
            · exact Or.inr ⟨a, b, c⟩
        · unfold shared with_; rw [List.map_cons, List.sum_cons, hm]; rfl
      · have e : pairsOf o map (r :: rows) = pairsOf o map rows := by
          unfold pairsOf; rw [List.filterMap_cons, hm, Option.bind_some, if_neg hp]
        rw [e]
        refine ⟨⟨i1, i2⟩, fun p => ?_, ?_⟩
        · rw [i3, List.mem_cons]
          constructor
          · rintro ⟨a, b⟩; exact ⟨Or.inr a, b⟩
          · rintro ⟨a | a, b, c⟩
            · rw [a, hm] at b
              rw [a, ← Option.some.inj b] at c
              exact absurd c hp
            · exact ⟨a, b, c⟩
        · have h0 := ho r s
          have : with_ o map r = 0 := by
            unfold with_; rw [hm]
            show o r s = 0
            omega
          rw [this]; omega

/-! ## The error -/

theorem weigh_zero (l : List Sg) : weigh (fun _ => (0 : Int)) l = 0 := by
  induction l with
  | nil => rfl
  | cons a l ih => rw [weigh_cons, ih]; simp

theorem weigh_sum (rows : List Nat) (F : Nat → Sg → Int) (l : List Sg) :
    weigh (fun g => (rows.map (fun r => F r g)).sum) l = (rows.map (fun r => weigh (F r) l)).sum := by
  induction rows with
  | nil => exact weigh_zero l
  | cons r rows ih =>
    rw [List.map_cons, List.sum_cons, ← ih, ← weigh_add]
    congr 1

theorem sum_ind (p : Nat → Bool) (l : List Nat) : (l.map (fun r => if p r then (1 : Int) else 0)).sum = (l.filter p).length := by
  induction l with
  | nil => rfl
  | cons a l ih =>
    rw [List.map_cons, List.sum_cons, ih, List.filter_cons]
    split
    · rw [List.length_cons]; omega
    · omega

theorem overlap_nonneg {l : List Sg} (hpos : ∀ g ∈ l, g.tb < g.te) (r s : Nat) : 0 ≤ overlap l r s :=
  weigh_nonneg (fun a ha => ⟨by split <;> decide, hpos a ha⟩)

theorem overlap_pos {l : List Sg} (hpos : ∀ g ∈ l, g.tb < g.te) {r s : Nat} {g : Sg} (hg : g ∈ l) (h1 : r ∈ g.ref) (h2 : s ∈ g.sys) : 0 < overlap l r s := by
  have h0 := overlap_nonneg hpos r s
  have hne : overlap l r s ≠ 0 := by
    intro h
    have := (weigh_eq_zero (fun a ha => ⟨by split <;> decide, hpos a ha⟩)).1 h g hg
    rw [if_pos ⟨by simpa using h1, by simpa using h2⟩] at this
    cases this
  omega

/-- The time of mapped speakers is the overlap of the pairs of the mapping. -/
theorem weigh_nmap (l : List Sg) (hpos : ∀ g ∈ l, g.tb < g.te) (hn : ∀ g ∈ l, g.ref.Nodup) (rows : List Nat) (hr : rows.Nodup)
    (hrow : ∀ r s, 0 < overlap l r s → r ∈ rows) (map : Nat → Option Nat) :
    weigh (fun g => (nmap map g : Int)) l = (rows.map (with_ (overlap l) map)).sum := by
  have e : ∀ r, with_ (overlap l) map r = weigh (fun g => if g.ref.contains r && (map r).any (fun s => g.sys.contains s) then 1 else 0) l := by
    intro r
    unfold with_
    cases hm : map r with
    | none =>
      show (0 : Int) = _
      have : weigh (fun g => if g.ref.contains r && (none : Option Nat).any (fun s => g.sys.contains s) then (1 : Int) else 0) l = weigh (fun _ => 0) l :=
        weigh_congr (fun g _ => by simp)
      rw [this]
      exact (weigh_zero l).symm
    | some s =>
      show overlap l r s = _
      unfold overlap
      exact weigh_congr (fun g _ => by simp)
  have e' : rows.map (with_ (overlap l) map) = rows.map (fun r => weigh (fun g => if g.ref.contains r && (map r).any (fun s => g.sys.contains s) then 1 else 0) l) :=
    List.map_congr_left (fun r _ => e r)
  rw [e', ← weigh_sum]
  refine weigh_congr (fun g hg => ?_)
  rw [sum_ind]
  unfold nmap
  congr 1
  refine List.Perm.length_eq ((List.perm_ext_iff_of_nodup ((hn g hg).sublist List.filter_sublist) (hr.sublist List.filter_sublist)).2 (fun r => ?_))
  rw [List.mem_filter, List.mem_filter, Bool.and_eq_true]
  constructor
  · rintro ⟨a, b⟩
    refine ⟨?_, by simpa using a, b⟩
    cases hm : map r with
    | none => rw [hm] at b; cases b
    | some s =>
      rw [hm] at b
      exact hrow r s (overlap_pos hpos hg a (by simpa using b))
  · rintro ⟨_, a, b⟩
    exact ⟨by simpa using a, b⟩

end Verif.Diar
