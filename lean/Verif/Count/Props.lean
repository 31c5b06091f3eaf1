import Verif.Count.Model
import Verif.Count.Spec
/-!
# Theorems on counting words and n-grams
-/
set_option autoImplicit false
namespace Verif.Count

theorem hash_lt (m : Nat) (hm : 0 < m) (key : List Nat) : hash m key < m := by
  unfold hash
  suffices ∀ (l : List Nat) (h : Nat), h < m → l.foldl (fun h b => (64 * h + signed b) % 2 ^ 32 % m) h < m from this key 0 hm
  intro l
  induction l with
  | nil => intro h q; exact q
  | cons b l ih => intro h _; exact ih _ (Nat.mod_lt _ hm)

theorem chain_mem (key : List Nat) (l : List (List Nat × Nat)) (hs : l.Pairwise (fun a b => a.1 < b.1)) (w : List Nat) (c : Nat) :
    (w, c) ∈ chain key l ↔ (w ≠ key ∧ (w, c) ∈ l) ∨ (w = key ∧ ((∃ d, (w, d) ∈ l ∧ c = d + 1) ∨ ((∀ d, (w, d) ∉ l) ∧ c = 1))) := by
  induction l with
  | nil =>
    simp [chain]
  | cons e l ih =>
    obtain ⟨v, d⟩ := e
    rw [List.pairwise_cons] at hs
    have ih := ih hs.2
    rw [chain]
    by_cases h1 : v < key
    · rw [if_pos (by simpa using h1), List.mem_cons, ih]
      have hne : v ≠ key := fun q => List.lt_irrefl key (q ▸ h1)
      by_cases hk : w = key
      · subst hk
        simp [Ne.symm hne]
      · simp [hk]
    · rw [if_neg (by simpa using h1)]
      by_cases h2 : key = v
      · rw [if_pos (by simpa using h2)]
        subst h2
        have hno : ∀ d, (key, d) ∉ l := fun d q => List.lt_irrefl key (hs.1 _ q)
        by_cases hk : w = key
        · subst hk
          simp [hno]
        · simp [hk]
      · rw [if_neg (by simpa using h2)]
        have hlt : key < v := by
          rcases List.le_total v key with q | q
          · rcases List.le_iff_lt_or_eq.1 q with q | q
            · exact absurd q h1
            · exact absurd q.symm h2
          · rcases List.le_iff_lt_or_eq.1 q with q | q
            · exact q
            · exact absurd q h2
        have hno : ∀ d, (key, d) ∉ l := fun d q => List.lt_irrefl key (List.lt_trans hlt (hs.1 _ q))
        by_cases hk : w = key
        · subst hk
          simp [hno, h2]
        · simp [hk]

theorem chain_sorted (key : List Nat) (l : List (List Nat × Nat)) (hs : l.Pairwise (fun a b => a.1 < b.1)) :
    (chain key l).Pairwise (fun a b => a.1 < b.1) := by
  induction l with
  | nil => simp [chain]
  | cons e l ih =>
    obtain ⟨v, d⟩ := e
    have hs0 := hs
    rw [List.pairwise_cons] at hs
    rw [chain]
    by_cases h1 : v < key
    · rw [if_pos (by simpa using h1), List.pairwise_cons]
      refine ⟨fun e he => ?_, ih hs.2⟩
      obtain ⟨w, c⟩ := e
      rw [chain_mem key l hs.2] at he
      rcases he with ⟨_, he⟩ | ⟨he, _⟩
      · exact hs.1 _ he
      · exact he ▸ h1
    · rw [if_neg (by simpa using h1)]
      by_cases h2 : key = v
      · rw [if_pos (by simpa using h2), List.pairwise_cons]
        exact hs
      · rw [if_neg (by simpa using h2), List.pairwise_cons]
        have hlt : key < v := by
          rcases List.le_total v key with q | q
          · rcases List.le_iff_lt_or_eq.1 q with q | q
            · exact absurd q h1
            · exact absurd q.symm h2
          · rcases List.le_iff_lt_or_eq.1 q with q | q
            · exact q
            · exact absurd q h2
        refine ⟨fun e he => ?_, hs0⟩
        rcases List.mem_cons.1 he with rfl | he
        · exact hlt
        · exact List.lt_trans hlt (hs.1 _ he)

theorem table_inv (m : Nat) (hm : 0 < m) (text : List (List Nat)) : ∀ i,
    ((text.foldl (update m) (fun _ => [])) i).Pairwise (fun a b => a.1 < b.1) ∧
      ∀ w c, (w, c) ∈ (text.foldl (update m) (fun _ => [])) i ↔ hash m w = i ∧ c = text.count w ∧ 0 < c := by
  rw [← List.reverse_reverse text]
  generalize text.reverse = r
  induction r with
  | nil =>
    intro i
    refine ⟨by simp, fun w c => ?_⟩
    simp
  | cons k r ih =>
    intro i
    simp only [List.reverse_cons, List.foldl_append, List.foldl_cons, List.foldl_nil]
    have hlt := hash_lt m hm k
    obtain ⟨i1, i2⟩ := ih i
    rw [update, if_neg (by simp; omega)]
    by_cases hi : i = hash m k
    · rw [if_pos hi]
      refine ⟨chain_sorted _ _ i1, fun w c => ?_⟩
      rw [chain_mem _ _ i1]
      simp only [i2, List.count_append, List.count_cons, List.count_nil]
      by_cases hw : w = k
      · subst hw
        simp only [beq_self_eq_true, if_true, ne_eq, not_true, false_and, false_or, true_and]
        constructor
        · rintro (⟨d, ⟨_, rfl, _⟩, rfl⟩ | ⟨h, rfl⟩)
          · exact ⟨hi.symm, by omega, by omega⟩
          · refine ⟨hi.symm, ?_, by omega⟩
            have := h (r.reverse.count w)
            have : ¬ 0 < r.reverse.count w := fun q => this ⟨hi.symm, rfl, q⟩
            omega
        · rintro ⟨_, rfl, _⟩
          by_cases q : 0 < r.reverse.count w
          · exact .inl ⟨_, ⟨hi.symm, rfl, q⟩, by omega⟩
          · exact .inr ⟨fun d hd => by omega, by omega⟩
      · have : (k == w) = false := by simpa using fun q => hw q.symm
        simp [hw, this]
    · rw [if_neg hi]
      refine ⟨i1, fun w c => ?_⟩
      rw [i2]
      simp only [List.count_append, List.count_cons, List.count_nil]
      by_cases hw : w = k
      · subst hw
        simp [Ne.symm hi]
      · have : (k == w) = false := by simpa using fun q => hw q.symm
        simp [this]

/-! ## C323: frequencies of words -/

/-- Each word of the text is written once, with the number of times it occurs, and no other; for all sizes of the table. -/
theorem wfreq_counts (m : Nat) (hm : 0 < m) (text : List (List Nat)) :
    (∀ w c, (w, c) ∈ wfreq m text ↔ c = text.count w ∧ 0 < c) ∧ ((wfreq m text).map Prod.fst).Nodup := by
  constructor
  · intro w c
    unfold wfreq print
    rw [List.mem_flatMap]
    constructor
    · rintro ⟨i, _, h⟩
      exact (((table_inv m hm text i).2 w c).1 h).2
    · intro h
      exact ⟨hash m w, List.mem_range.2 (hash_lt m hm w), ((table_inv m hm text _).2 w c).2 ⟨rfl, h⟩⟩
  · unfold wfreq print
    unfold List.Nodup
    rw [List.pairwise_map, List.pairwise_flatMap]
    refine ⟨fun i _ => (table_inv m hm text i).1.imp (fun {a b} h (e : a.1 = b.1) => List.lt_irrefl b.1 (by rw [e] at h; exact h)), ?_⟩
    refine List.Pairwise.imp ?_ List.nodup_range
    rintro i j hij ⟨w, c⟩ hx ⟨v, d⟩ hy e
    dsimp only at e
    have h1 := (((table_inv m hm text i).2 w c).1 hx).1
    have h2 := (((table_inv m hm text j).2 v d).1 hy).1
    rw [e] at h1
    exact hij (h1.symm.trans h2)

example : wfreq 3 [[97], [98, 99], [97], [200]] = [([97], 2), ([98, 99], 1), ([200], 1)] := by decide +kernel

theorem write_keeps (z : List Nat) (gs : List (List Nat)) : ∀ (t : List Nat) (c : Nat), (t :: gs).getLast? ≠ some z → ∀ g,
    total g (write t c (gs ++ [z])) = (if t = g then c else 0) + gs.count g := by
  induction gs with
  | nil =>
    intro t c h g
    have ht : t ≠ z := by simpa using h
    simp only [List.nil_append, write]
    rw [if_neg (by simpa using ht)]
    by_cases e : t = g <;> simp [total, e]
  | cons x gs ih =>
    intro t c h g
    have h' : (x :: gs).getLast? ≠ some z := by simpa [List.getLast?_cons_cons] using h
    simp only [List.cons_append, write]
    by_cases e : t = x
    · rw [if_pos (by simpa using e)]
      subst e
      rw [ih t (c + 1) h' g, List.count_cons]
      by_cases q : t = g
      · simp [q]
        omega
      · simp [q]
    · rw [if_neg (by simpa using e)]
      have h2 := ih x 1 h' g
      have : total g ((t, c) :: write x 1 (gs ++ [z])) = (if t = g then c else 0) + total g (write x 1 (gs ++ [z])) := by
        by_cases q : t = g <;> simp [total, q]
      rw [this, h2, List.count_cons]
      by_cases q : x = g
      · simp [q]
        omega
      · simp [q]

theorem write_loses (z : List Nat) (gs : List (List Nat)) : ∀ (t : List Nat) (c : Nat), (t :: gs).getLast? = some z → (t :: gs).Pairwise (· ≤ ·) → ∀ g,
    total g (write t c (gs ++ [z])) = if g = z then 0 else (if t = g then c else 0) + gs.count g := by
  induction gs with
  | nil =>
    intro t c h _ g
    have ht : t = z := by simpa using h
    subst ht
    simp only [List.nil_append, write]
    rw [if_pos (by simp)]
    by_cases e : g = t
    · simp [total, e]
    · simp [total, e, Ne.symm e]
  | cons x gs ih =>
    intro t c h hs g
    have h' : (x :: gs).getLast? = some z := by simpa [List.getLast?_cons_cons] using h
    have hs' := (List.pairwise_cons.1 hs).2
    simp only [List.cons_append, write]
    by_cases e : t = x
    · rw [if_pos (by simpa using e)]
      subst e
      rw [ih t (c + 1) h' hs' g, List.count_cons]
      by_cases q : t = g
      · simp [q]
        split
        · rfl
        · omega
      · simp [q]
    · rw [if_neg (by simpa using e)]
      have htz : t ≠ z := by
        intro q
        have hz : z ∈ x :: gs := List.mem_of_getLast? h'
        have h1 : t ≤ x := (List.pairwise_cons.1 hs).1 x (by simp)
        have h2 : x ≤ z := by
          rcases List.mem_cons.1 hz with r | r
          · rw [r]
            exact List.le_refl _
          · exact (List.pairwise_cons.1 hs').1 z r
        exact e (List.le_antisymm h1 (q ▸ h2))
      have h2 := ih x 1 h' hs' g
      have : total g ((t, c) :: write x 1 (gs ++ [z])) = (if t = g then c else 0) + total g (write x 1 (gs ++ [z])) := by
        by_cases q : t = g <;> simp [total, q]
      rw [this, h2, List.count_cons]
      by_cases q : g = z
      · subst q
        simp [htz]
      · simp only [if_neg q]
        by_cases q : x = g
        · simp [q]
          omega
        · simp [q]

/-- What `qsort` does: the n-grams in order. -/
def Sorts (qsort : List (List Nat) → List (List Nat)) : Prop := ∀ l, (qsort l).Perm l ∧ (qsort l).Pairwise (· ≤ ·)

/-- The n-gram at the last position is the greatest of those sorted. -/
def Greatest (z : List Nat) (l : List (List Nat)) : Prop := z ∈ l ∧ ∀ g ∈ l, g ≤ z

theorem last_greatest {s : List (List Nat)} {z : List Nat} (hs : s.Pairwise (· ≤ ·)) : s.getLast? = some z ↔ Greatest z s := by
  induction s with
  | nil => simp [Greatest]
  | cons x s ih =>
    obtain ⟨h1, h2⟩ := List.pairwise_cons.1 hs
    cases s with
    | nil =>
      simp only [List.getLast?_singleton, Option.some.injEq, Greatest, List.mem_singleton]
      constructor
      · rintro rfl
        exact ⟨rfl, fun g hg => hg ▸ List.le_refl _⟩
      · rintro ⟨rfl, _⟩
        rfl
    | cons y s =>
      rw [List.getLast?_cons_cons, ih h2]
      constructor
      · rintro ⟨a, b⟩
        refine ⟨List.mem_cons_of_mem _ a, fun g hg => ?_⟩
        rcases List.mem_cons.1 hg with rfl | hg
        · exact h1 z a
        · exact b g hg
      · rintro ⟨a, b⟩
        refine ⟨?_, fun g hg => b g (List.mem_cons_of_mem _ hg)⟩
        rcases List.mem_cons.1 a with rfl | a
        · have := List.le_antisymm (h1 y (by simp)) (b y (by simp))
          rw [this]
          simp
        · exact a

theorem temp_total {qsort : List (List Nat) → List (List Nat)} (hq : Sorts qsort) (l : List (List Nat)) (z g : List Nat) :
    (¬ Greatest z l → total g (temp (qsort l) z) = l.count g) ∧ (Greatest z l → total g (temp (qsort l) z) = if g = z then 0 else l.count g) := by
  obtain ⟨hp, hs⟩ := hq l
  have hg : Greatest z (qsort l) ↔ Greatest z l := by
    unfold Greatest
    simp only [hp.mem_iff]
  rw [← hg, ← last_greatest hs, ← hp.count_eq g]
  unfold temp
  cases e : qsort l with
  | nil => simp [write, total]
  | cons t gs =>
    rw [e] at hs
    have hc : (t :: gs).count g = (if t = g then 1 else 0) + gs.count g := by
      rw [List.count_cons]
      by_cases q : t = g
      · simp [q]
        omega
      · simp [q]
    constructor
    · intro h
      simp only [List.cons_append]
      rw [write_keeps z gs t 1 h g, hc]
    · intro h
      simp only [List.cons_append]
      rw [write_loses z gs t 1 h hs g, hc]

/-- The n-grams still to be counted. -/
def todo : List Nat → List Nat → Bool → List (List Nat)
  | cur, [], p => if p then [cur] else []
  | cur, w :: rest, p => cur :: todo (cur.tail ++ [w]) rest p

/-- How much is left to read. -/
def left (s : Rd) : Nat := s.rest.length + s.pend.toNat

theorem fill_todo (memory k : Nat) : ∀ s : Rd, todo s.cur s.rest s.pend = (fill memory k s).1 ++ todo (fill memory k s).2.cur (fill memory k s).2.rest (fill memory k s).2.pend ∧
    left (fill memory k s).2 ≤ left s ∧ (0 < k → done s = false → left (fill memory k s).2 < left s) := by
  induction k with
  | zero =>
    intro s
    rw [fill]
    exact ⟨rfl, Nat.le_refl _, fun h => by omega⟩
  | succ k ih =>
    rintro ⟨cur, rest, pend⟩
    cases rest with
    | nil =>
      cases pend
      · rw [fill]
        exact ⟨rfl, Nat.le_refl _, fun _ h => by simp [done] at h⟩
      · rw [fill]
        refine ⟨by simp [todo], by simp [left], fun _ _ => by simp [left]⟩
    | cons w rest =>
      rw [fill]
      obtain ⟨a, b, _⟩ := ih ⟨cur.tail ++ [w], rest, pend⟩
      dsimp only at a ⊢
      refine ⟨?_, ?_, ?_⟩
      · rw [todo, a]
        rfl
      · simp only [left, List.length_cons] at b ⊢
        omega
      · intro _ _
        simp only [left, List.length_cons] at b ⊢
        omega

theorem fills_todo (memory size : Nat) (hs : 0 < size) (f : Nat) : ∀ s : Rd, left s < f →
    ((fills memory size f s).map Prod.fst).flatten = todo s.cur s.rest s.pend := by
  induction f with
  | zero => intro s h; omega
  | succ f ih =>
    intro s h
    rw [fills]
    cases hd : done s
    · rw [if_neg (by simp)]
      obtain ⟨a, _, c⟩ := fill_todo memory size s
      have := ih (fill memory size s).2 (by have := c hs hd; omega)
      simp only [List.map_cons, List.flatten_cons, this]
      exact a.symm
    · rw [if_pos rfl]
      obtain ⟨cur, rest, pend⟩ := s
      cases rest <;> cases pend <;> simp [done] at hd
      simp [todo]

theorem todo_windows (n : Nat) (hn : 0 < n) (rest : List Nat) : ∀ cur : List Nat, cur.length = n →
    windows n (cur ++ rest) = todo cur rest true ∧ (windows n (cur ++ rest)).dropLast = todo cur rest false := by
  have short : ∀ l : List Nat, l.length < n → windows n l = [] := by
    intro l h
    cases l with
    | nil => rfl
    | cons x l =>
      rw [windows, if_neg (by simp at h; omega)]
  induction rest with
  | nil =>
    intro cur hc
    cases cur with
    | nil => simp at hc; omega
    | cons x cur =>
      rw [List.append_nil, windows, if_pos (by simp at hc; omega), short cur (by simp at hc; omega), List.take_of_length_le (by omega)]
      simp [todo]
  | cons w rest ih =>
    intro cur hc
    cases cur with
    | nil => simp at hc; omega
    | cons x cur =>
      have hl : (cur ++ [w]).length = n := by simp at hc ⊢; omega
      obtain ⟨a, b⟩ := ih (cur ++ [w]) hl
      rw [List.append_assoc, List.singleton_append] at a b
      have htake : (x :: (cur ++ w :: rest)).take n = x :: cur := by
        rw [← List.cons_append, List.take_left' hc]
      have hne : windows n (cur ++ w :: rest) ≠ [] := by
        rw [a]
        cases rest <;> simp [todo]
      have he : windows n (x :: cur ++ w :: rest) = (x :: cur) :: windows n (cur ++ w :: rest) := by
        rw [List.cons_append, windows, if_pos (by simp at hc ⊢; omega), htake]
      rw [he, List.dropLast_cons_of_ne_nil hne, b, a]
      exact ⟨rfl, rfl⟩

/-! ## C324: n-grams of a text -/

/-- Together the buffers hold every n-gram of the text once, in order, if a blank or an end of line follows the last word; otherwise the last n-gram is missing. -/
theorem buffers_windows (n memory size : Nat) (text : List Nat) (hn : 0 < n) (hs : 0 < size) (ht : n ≤ text.length) :
    ((buffers n memory size text true).map Prod.fst).flatten = windows n text ∧
      ((buffers n memory size text false).map Prod.fst).flatten = (windows n text).dropLast := by
  obtain ⟨a, b⟩ := todo_windows n hn (text.drop n) (text.take n) (by simp; omega)
  rw [List.take_append_drop] at a b
  unfold buffers
  rw [b, a]
  constructor
  · rw [fills_todo memory size hs _ _ (by simp [left]; omega)]
  · rw [fills_todo memory size hs _ _ (by simp [left]; omega)]

theorem totals_le {qsort : List (List Nat) → List (List Nat)} (hq : Sorts qsort) (g : List Nat) (bs : List (List (List Nat) × List Nat)) :
    totals g (bs.map (fun b => temp (qsort b.1) b.2)) ≤ (bs.map Prod.fst).flatten.count g ∧
      ((∀ b ∈ bs, Greatest b.2 b.1 → b.2 ≠ g) → totals g (bs.map (fun b => temp (qsort b.1) b.2)) = (bs.map Prod.fst).flatten.count g) := by
  induction bs with
  | nil => exact ⟨Nat.le_refl _, fun _ => rfl⟩
  | cons b bs ih =>
    obtain ⟨k, l⟩ := temp_total hq b.1 b.2 g
    simp only [totals, List.map_cons, List.sum_cons, List.flatten_cons, List.count_append] at ih ⊢
    by_cases h : Greatest b.2 b.1
    · have l := l h
      refine ⟨?_, fun q => ?_⟩
      · have := ih.1
        by_cases e : g = b.2
        · rw [l, if_pos e]
          omega
        · rw [l, if_neg e]
          omega
      · have := ih.2 (fun x hx => q x (by simp [hx]))
        rw [l, if_neg (fun e => q b (by simp) h e.symm), this]
    · have k := k h
      refine ⟨?_, fun q => ?_⟩
      · have := ih.1
        omega
      · have := ih.2 (fun x hx => q x (by simp [hx]))
        rw [k, this]

/-- No n-gram is counted too often. An n-gram is counted as often as it occurs unless it is the greatest of a buffer and also at the last position of that buffer, where
the next n-gram or memory stands. -/
theorem ngrams_partial (qsort : List (List Nat) → List (List Nat)) (hq : Sorts qsort) (n memory size : Nat) (text : List Nat) (hn : 0 < n) (hs : 0 < size) (ht : n ≤ text.length)
    (g : List Nat) :
    totals g (files qsort n memory size text true) ≤ (windows n text).count g ∧
      ((∀ b ∈ buffers n memory size text true, Greatest b.2 b.1 → b.2 ≠ g) → totals g (files qsort n memory size text true) = (windows n text).count g) := by
  have := totals_le hq g (buffers n memory size text true)
  rw [(buffers_windows n memory size text hn hs ht).1] at this
  exact this

/-- An n-gram that is the greatest of a buffer and stands at its last position is not written for that buffer at all. -/
theorem greatest_lost (qsort : List (List Nat) → List (List Nat)) (hq : Sorts qsort) (l : List (List Nat)) (z : List Nat) (h : Greatest z l) :
    total z (temp (qsort l) z) = 0 ∧ 0 < l.count z := by
  refine ⟨?_, List.count_pos_iff.2 h.1⟩
  rw [(temp_total hq l z z).2 h, if_pos rfl]

theorem write_sorted (z : List Nat) (gs : List (List Nat)) : ∀ (t : List Nat) (c : Nat), (t :: gs).Pairwise (· ≤ ·) →
    (∀ e ∈ write t c (gs ++ [z]), e.1 ∈ t :: gs) ∧ (write t c (gs ++ [z])).Pairwise (fun a b => a.1 < b.1) := by
  induction gs with
  | nil =>
    intro t c _
    simp only [List.nil_append, write]
    split <;> simp
  | cons x gs ih =>
    intro t c hs
    obtain ⟨h1, h2⟩ := List.pairwise_cons.1 hs
    simp only [List.cons_append, write]
    by_cases ne : t = x
    · rw [if_pos (by simpa using ne)]
      subst ne
      obtain ⟨a, b⟩ := ih t (c + 1) h2
      exact ⟨fun e he => List.mem_cons_of_mem _ (a e he), b⟩
    · rw [if_neg (by simpa using ne)]
      obtain ⟨a, b⟩ := ih x 1 h2
      refine ⟨fun e he => ?_, List.pairwise_cons.2 ⟨fun e he => ?_, b⟩⟩
      · rcases List.mem_cons.1 he with rfl | he
        · simp
        · exact List.mem_cons_of_mem _ (a e he)
      · have hx : x ≤ e.1 := by
          rcases List.mem_cons.1 (a e he) with q | q
          · exact q ▸ List.le_refl _
          · exact (List.pairwise_cons.1 h2).1 _ q
        have htx : t < x := by
          rcases List.le_iff_lt_or_eq.1 (h1 x (by simp)) with q | q
          · exact q
          · exact absurd q ne
        dsimp only
        rcases List.le_iff_lt_or_eq.1 hx with q | q
        · exact List.lt_trans htx q
        · exact q ▸ htx

/-- Every temporary file is in order and has each n-gram at most once. -/
theorem files_sorted (qsort : List (List Nat) → List (List Nat)) (hq : Sorts qsort) (n memory size : Nat) (text : List Nat) (ended : Bool) :
    ∀ f ∈ files qsort n memory size text ended, f.Pairwise (fun a b => a.1 < b.1) := by
  intro f hf
  unfold files at hf
  obtain ⟨b, _, rfl⟩ := List.mem_map.1 hf
  have hs := (hq b.1).2
  unfold temp
  cases e : qsort b.1 with
  | nil => simp [write]
  | cons t gs =>
    rw [e] at hs
    exact (write_sorted b.2 gs t 1 hs).2

/-- Without a blank or end of line after the last word no n-gram is counted more often than without the last n-gram. -/
theorem last_missing (qsort : List (List Nat) → List (List Nat)) (hq : Sorts qsort) (n memory size : Nat) (text : List Nat) (hn : 0 < n) (hs : 0 < size) (ht : n ≤ text.length)
    (g : List Nat) : totals g (files qsort n memory size text false) ≤ (windows n text).dropLast.count g := by
  have := totals_le hq g (buffers n memory size text false)
  rw [(buffers_windows n memory size text hn hs ht).2] at this
  exact this.1

/-- Sorting for the examples. -/
theorem sorts_exists : ∃ qsort, Sorts qsort := by
  refine ⟨fun l => l.mergeSort (fun a b => decide (a ≤ b)), fun l => ⟨List.mergeSort_perm _ _, ?_⟩⟩
  have := List.pairwise_mergeSort (le := fun a b : List Nat => decide (a ≤ b)) (fun a b c h1 h2 => by
    simp only [decide_eq_true_eq] at *
    exact List.le_trans h1 h2) (fun a b => by
    simp only [Bool.or_eq_true, decide_eq_true_eq]
    exact List.le_total a b) l
  exact this.imp (fun h => by simpa using h)

example : buffers 2 9 3 [1, 2, 1, 3, 1, 2] true = [([[1, 2], [2, 1], [1, 3]], [3, 1]), ([[3, 1], [1, 2]], [2, 9])] ∧
    temp [[1, 2], [1, 3], [2, 1]] [3, 1] = [([1, 2], 1), ([1, 3], 1), ([2, 1], 1)] ∧
    buffers 2 9 3 [1, 1, 1, 1, 1] true = [([[1, 1], [1, 1], [1, 1]], [1, 1]), ([[1, 1]], [1, 9])] ∧ temp [[1, 1], [1, 1], [1, 1]] [1, 1] = [] := by decide +kernel

end Verif.Count
