import Verif.Bo.Spec
/-!
# Lemmas on probabilities by backing off
-/
set_option autoImplicit false
namespace Verif.Bo

/-- The search in a stretch in order, with one element behind the table at most, that is not the word. -/
theorem search_spec {lm : Lm} {k w lo n : Nat} (hb : ∀ j, (lm.words k).length ≤ j → word lm k j ≠ w)
    (hord : ∀ j j', lo ≤ j → j < j' → j' < n → word lm k j < word lm k j') (f b e : Nat) (hlo : lo ≤ b)
    (he : e ≤ n ∨ (n = (lm.words k).length ∧ e = n + 1)) (hf : e - b < f) :
    (∀ j, search lm k w f b e = some j → b ≤ j ∧ j < n ∧ j < e ∧ word lm k j = w) ∧
      (search lm k w f b e = none → ∀ j, b ≤ j → j < e → j < n → word lm k j ≠ w) := by
  induction f generalizing b e with
  | zero => omega
  | succ f ih =>
    unfold search
    by_cases h : b < e
    · rw [if_pos (by simpa using h)]
      dsimp only
      have hm : b + (e - 1 - b) / 2 < e ∧ b ≤ b + (e - 1 - b) / 2 ∧ (b + (e - 1 - b) / 2 = e - 1 → b = e - 1) := by omega
      generalize b + (e - 1 - b) / 2 = m at hm
      by_cases h1 : w < word lm k m
      · rw [if_pos (by simpa using h1)]
        have hm' : m ≤ n := by omega
        obtain ⟨i1, i2⟩ := ih b m hlo (.inl hm') (by omega)
        refine ⟨fun j hj => ?_, fun hnone j a1 a2 a3 => ?_⟩
        · obtain ⟨q1, q2, q3, q4⟩ := i1 j hj
          exact ⟨q1, q2, by omega, q4⟩
        · by_cases hjm : j < m
          · exact i2 hnone j a1 hjm a3
          · by_cases e2 : j = m
            · subst e2
              omega
            · have := hord m j (by omega) (by omega) a3
              omega
      · rw [if_neg (by simpa using h1)]
        by_cases h2 : word lm k m < w
        · rw [if_pos (by simpa using h2)]
          obtain ⟨i1, i2⟩ := ih (m + 1) e (by omega) he (by omega)
          refine ⟨fun j hj => ?_, fun hnone j a1 a2 a3 => ?_⟩
          · obtain ⟨q1, q2, q3, q4⟩ := i1 j hj
            exact ⟨by omega, q2, q3, q4⟩
          · by_cases hjm : m < j
            · exact i2 hnone j hjm a2 a3
            · by_cases e2 : j = m
              · subst e2
                omega
              · have := hord j m (by omega) (by omega) (by
                  rcases he with he | he
                  · omega
                  · by_cases e3 : m < n
                    · exact e3
                    · have := hm.2.2 (by omega)
                      omega)
                omega
        · rw [if_neg (by simpa using h2)]
          have hw : word lm k m = w := by omega
          refine ⟨fun j hj => ?_, fun hnone => by cases hnone⟩
          injection hj with hj
          subst hj
          refine ⟨hm.2.1, ?_, hm.1, hw⟩
          rcases he with he | he
          · omega
          · by_cases e3 : m < n
            · exact e3
            · exact absurd hw (hb m (by omega))
    · rw [if_neg (by simpa using h)]
      exact ⟨fun j hj => (by cases hj), fun _ j a1 a2 _ => by omega⟩

theorem word_some {lm : Lm} {k j w : Nat} (h : (lm.words k)[j]? = some w) : word lm k j = w := by
  unfold word
  rw [h]
  rfl

theorem words_of {lm : Lm} {k j w : Nat} (hj : j < (lm.words k).length) (h : word lm k j = w) : (lm.words k)[j]? = some w := by
  unfold word at h
  rw [List.getElem?_eq_getElem hj] at h ⊢
  rw [← h]
  rfl

/-- What must hold of the memory behind the tables. -/
def Clean (lm : Lm) (g : List Nat) : Prop := lm.past 0 = (lm.words 1).length ∧ (∀ k, lm.beyond k ∉ g) ∧ ∀ w ∈ g, w ≤ lm.vocab

theorem bound_or {lm : Lm} (hF : Fits lm) (k i : Nat) (hi : i < count lm k) :
    bound lm k i = finish lm k i ∨ (finish lm k i = (lm.words (k + 1)).length ∧ bound lm k i = finish lm k i + 1) := by
  have hl := hF.length k
  unfold bound finish
  by_cases hk : k = 0
  · subst hk
    rw [if_pos rfl]
    have hc : count lm 0 = lm.vocab + 1 := rfl
    rw [hc] at hl hi ⊢
    by_cases h : i < lm.vocab
    · rw [if_pos (by simpa using h), if_pos (by omega)]
      left
      unfold start
      rw [List.getElem?_eq_getElem (by omega)]
      rfl
    · rw [if_neg (by simpa using h), if_neg (by omega)]
      exact .inr ⟨rfl, rfl⟩
  · rw [if_neg hk]
    have hc : count lm k = (lm.words k).length := if_neg hk
    rw [hc] at hl hi ⊢
    by_cases h : i + 1 < (lm.words k).length
    · rw [if_pos (by simpa using h), if_pos h]
      left
      unfold start
      rw [List.getElem?_eq_getElem (by omega)]
      rfl
    · rw [if_neg (by simpa using h), if_neg h]
      exact .inr ⟨rfl, rfl⟩

/-- The search for a successor. -/
theorem child_spec {lm : Lm} (hF : Fits lm) {k i w : Nat} (hi : i < count lm k) (hw : lm.beyond (k + 1) ≠ w) :
    (∀ j, search lm (k + 1) w (bound lm k i + 1) (start lm k i) (bound lm k i) = some j → Child lm k i w j ∧ j < count lm (k + 1)) ∧
      (search lm (k + 1) w (bound lm k i + 1) (start lm k i) (bound lm k i) = none → ∀ j, ¬ Child lm k i w j) := by
  have hl := hF.length k
  have hs : (lm.starts k)[i]? = some (start lm k i) := by
    unfold start
    rw [List.getElem?_eq_getElem (by omega)]
    rfl
  obtain ⟨r1, r2⟩ := hF.range k i _ hs
  have hb : ∀ j, (lm.words (k + 1)).length ≤ j → word lm (k + 1) j ≠ w := by
    intro j hj
    unfold word
    rw [List.getElem?_eq_none hj]
    exact hw
  have hc : ∀ j, start lm k i ≤ j → j < finish lm k i → Child lm k i (word lm (k + 1) j) j :=
    fun j h1 h2 => ⟨⟨_, hs, h1⟩, h2, words_of (by omega) rfl⟩
  have hord : ∀ j j', start lm k i ≤ j → j < j' → j' < finish lm k i → word lm (k + 1) j < word lm (k + 1) j' :=
    fun j j' h1 h2 h3 => hF.order k i _ _ j j' (hc j h1 (by omega)) (hc j' (by omega) h3) h2
  have hbo := bound_or hF k i hi
  have he : bound lm k i ≤ finish lm k i ∨ (finish lm k i = (lm.words (k + 1)).length ∧ bound lm k i = finish lm k i + 1) := by
    rcases hbo with h | h
    · exact .inl (by omega)
    · exact .inr h
  obtain ⟨s1, s2⟩ := search_spec hb hord (bound lm k i + 1) (start lm k i) (bound lm k i) (Nat.le_refl _) he (by omega)
  refine ⟨fun j hj => ?_, fun hn j hj => ?_⟩
  · obtain ⟨q1, q2, _, q4⟩ := s1 j hj
    have := hc j q1 q2
    rw [q4] at this
    refine ⟨this, ?_⟩
    unfold count
    rw [if_neg (by omega)]
    omega
  · obtain ⟨⟨s, hs', h1⟩, h2, h3⟩ := hj
    rw [hs] at hs'
    injection hs' with hs'
    refine s2 hn j (by omega) ?_ h2 (word_some h3)
    rcases hbo with h | h <;> omega

theorem child_unique {lm : Lm} (hF : Fits lm) {k i w j j' : Nat} (h : Child lm k i w j) (h' : Child lm k i w j') : j = j' := by
  rcases Nat.lt_trichotomy j j' with q | q | q
  · exact absurd (hF.order k i w w j j' h h' q) (Nat.lt_irrefl _)
  · exact q
  · exact absurd (hF.order k i w w j' j h' h q) (Nat.lt_irrefl _)

/-- A walk finds as much of the words as is in the model. -/
theorem walk_spec {lm : Lm} (hF : Fits lm) (ws : List Nat) (k i : Nat) (hi : i < count lm k) (hw : ∀ m, ∀ w ∈ ws, lm.beyond m ≠ w) (n : Nat) (hn : n ≤ ws.length) :
    (n ≤ (walk lm k i ws).length → From lm k i (ws.take n) (((i :: walk lm k i ws)[n]?).getD 0)) ∧
      (∀ j, From lm k i (ws.take n) j → n ≤ (walk lm k i ws).length) := by
  induction ws generalizing k i n with
  | nil =>
    have : n = 0 := by simpa using hn
    subst this
    exact ⟨fun _ => rfl, fun _ _ => Nat.zero_le _⟩
  | cons w ws ih =>
    cases n with
    | zero => exact ⟨fun _ => rfl, fun _ _ => Nat.zero_le _⟩
    | succ n =>
      obtain ⟨c1, c2⟩ := child_spec hF (w := w) hi (hw _ w List.mem_cons_self)
      unfold walk
      cases e : search lm (k + 1) w (bound lm k i + 1) (start lm k i) (bound lm k i) with
      | none =>
        refine ⟨fun h => ?_, fun j hj => ?_⟩
        · simp at h
        · obtain ⟨m, hm, _⟩ := hj
          exact absurd hm (c2 e m)
      | some m =>
        obtain ⟨d1, d2⟩ := c1 m e
        obtain ⟨i1, i2⟩ := ih (k + 1) m d2 (fun a b hb => hw a b (List.mem_cons_of_mem _ hb)) n (by simpa using hn)
        refine ⟨fun h => ⟨m, d1, i1 (by simpa using h)⟩, fun j hj => ?_⟩
        obtain ⟨m', hm', hr⟩ := hj
        have := child_unique hF hm' d1
        subst this
        have := i2 j hr
        simpa using this

/-- A word is found if it has successors. -/
theorem first_spec {lm : Lm} (hF : Fits lm) (hp : lm.past 0 = (lm.words 1).length) {w : Nat} (hw : w ≤ lm.vocab) :
    start lm 0 w < start lm 0 (w + 1) ↔ ∃ v m, Child lm 0 w v m := by
  have hl : (lm.starts 0).length = lm.vocab + 1 := hF.length 0
  have hs : (lm.starts 0)[w]? = some (start lm 0 w) := by
    unfold start
    rw [List.getElem?_eq_getElem (by omega)]
    rfl
  have hfin : finish lm 0 w = start lm 0 (w + 1) := by
    have hc : count lm 0 = lm.vocab + 1 := rfl
    unfold finish start
    rw [hc]
    by_cases h : w + 1 < lm.vocab + 1
    · rw [if_pos h, List.getElem?_eq_getElem (by omega)]
      rfl
    · rw [if_neg h, List.getElem?_eq_none (by omega)]
      exact hp.symm
  obtain ⟨_, r2⟩ := hF.range 0 w _ hs
  constructor
  · intro h
    exact ⟨_, start lm 0 w, ⟨_, hs, Nat.le_refl _⟩, by omega, words_of (by omega) rfl⟩
  · rintro ⟨v, m, ⟨s, hs', h1⟩, h2, _⟩
    rw [hs] at hs'
    injection hs' with hs'
    omega

/-- The chain finds as much of the n-gram as is in the model. -/
theorem chain_spec {lm : Lm} (hF : Fits lm) {w : Nat} {ws : List Nat} (hc : Clean lm (w :: ws)) (n : Nat) (hn : n ≤ ws.length) :
    (n + 1 ≤ (chain lm (w :: ws)).length → Seen lm (w :: ws.take n) (((chain lm (w :: ws))[n]?).getD 0)) ∧
      (∀ j, Seen lm (w :: ws.take n) j → n + 1 ≤ (chain lm (w :: ws)).length) := by
  obtain ⟨hp, hb, hv⟩ := hc
  have hw := hv w List.mem_cons_self
  have hf := first_spec hF hp hw
  obtain ⟨a1, a2⟩ := walk_spec hF ws 0 w (by unfold count; simp; omega)
    (fun m x hx e => hb m (by rw [e]; exact List.mem_cons_of_mem _ hx)) n hn
  rw [chain]
  by_cases h : start lm 0 w < start lm 0 (w + 1)
  · rw [if_pos (by simpa using h)]
    exact ⟨fun q => ⟨hf.1 h, a1 (by simpa using q)⟩, fun j hj => by simpa using a2 j hj.2⟩
  · rw [if_neg (by simpa using h)]
    exact ⟨fun q => by simp at q, fun j hj => absurd (hf.2 hj.1) h⟩

end Verif.Bo
