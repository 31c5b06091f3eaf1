import Verif.Slat.Spec
import Verif.Rttm.Lemmas
set_option autoImplicit false
namespace Verif.Slat

/-! ## The hash -/

theorem mem_put {e a : Entry} {l : List Entry} (hn : (l.map Entry.key).Nodup) : a ∈ put e l ↔ a = e ∨ (a ∈ l ∧ a.key ≠ e.key) := by
  induction l with
  | nil => simp [put]
  | cons b l ih =>
    rw [List.map_cons, List.nodup_cons] at hn
    rw [put]
    split
    · rename_i h
      simp only [List.mem_cons]
      constructor
      · rintro (h1 | h1)
        · exact Or.inl h1
        · refine Or.inr ⟨Or.inr h1, fun hk => hn.1 ?_⟩
          rw [h, ← hk]
          exact List.mem_map_of_mem h1
      · rintro (h1 | ⟨h1 | h1, h2⟩)
        · exact Or.inl h1
        · rw [h1] at h2; exact absurd h h2
        · exact Or.inr h1
    · rename_i h
      simp only [List.mem_cons, ih hn.2]
      constructor
      · rintro (h1 | h1 | ⟨h1, h2⟩)
        · exact Or.inr ⟨Or.inl h1, by rw [h1]; exact h⟩
        · exact Or.inl h1
        · exact Or.inr ⟨Or.inr h1, h2⟩
      · rintro (h1 | ⟨h1 | h1, h2⟩)
        · exact Or.inr (Or.inl h1)
        · exact Or.inl h1
        · exact Or.inr (Or.inr ⟨h1, h2⟩)

theorem put_keys (e : Entry) (l : List Entry) : ∀ k, k ∈ (put e l).map Entry.key ↔ k = e.key ∨ k ∈ l.map Entry.key := by
  induction l with
  | nil => intro k; simp [put]
  | cons b l ih =>
    intro k
    rw [put]
    split
    · rename_i h
      simp only [List.map_cons, List.mem_cons, h]
      constructor
      · rintro (h1 | h1)
        · exact Or.inl h1
        · exact Or.inr (Or.inr h1)
      · rintro (h1 | h1 | h1)
        · exact Or.inl h1
        · exact Or.inl h1
        · exact Or.inr h1
    · simp only [List.map_cons, List.mem_cons, ih k]
      constructor
      · rintro (h1 | h1 | h1)
        · exact Or.inr (Or.inl h1)
        · exact Or.inl h1
        · exact Or.inr (Or.inr h1)
      · rintro (h1 | h1 | h1)
        · exact Or.inr (Or.inl h1)
        · exact Or.inl h1
        · exact Or.inr (Or.inr h1)

theorem put_nodup {e : Entry} {l : List Entry} (hn : (l.map Entry.key).Nodup) : ((put e l).map Entry.key).Nodup := by
  induction l with
  | nil => simp [put]
  | cons b l ih =>
    rw [List.map_cons, List.nodup_cons] at hn
    rw [put]
    split
    · rename_i h
      rw [List.map_cons, List.nodup_cons, ← h]
      exact hn
    · rename_i h
      rw [List.map_cons, List.nodup_cons]
      refine ⟨fun hm => ?_, ih hn.2⟩
      rcases (put_keys e l _).1 hm with h1 | h1
      · exact h h1
      · exact hn.1 h1

theorem put_fresh {e : Entry} {l : List Entry} (h : e.key ∉ l.map Entry.key) : put e l = l ++ [e] := by
  induction l with
  | nil => rfl
  | cons b l ih =>
    simp only [List.map_cons, List.mem_cons, not_or] at h
    rw [put, if_neg (fun h' => h.1 h'.symm), ih h.2, List.cons_append]

theorem loadFrom_all (ls : List Line) : ∀ (h : List Entry), (∀ l ∈ ls, l.nf = 10) → loadFrom h ls =
    some ((ls.filterMap Line.entry).foldl (fun h e => put e h) h) := by
  induction ls with
  | nil => intro h _; rfl
  | cons l ls ih =>
    intro h hn
    have hl := hn l (List.mem_cons_self ..)
    have hls : ∀ l ∈ ls, l.nf = 10 := fun x hx => hn x (List.mem_cons_of_mem _ hx)
    rw [loadFrom, if_neg (by simp [hl])]
    cases hs : l.slat with
    | none => simp only [List.filterMap_cons, Line.entry, hs, Option.map_none, ih h hls]
    | some s => simp only [List.filterMap_cons, Line.entry, hs, Option.map_some, List.foldl_cons, ih _ hls]

theorem loadFrom_none (ls : List Line) : ∀ (h : List Entry), (∃ l ∈ ls, l.nf ≠ 10) → loadFrom h ls = none := by
  induction ls with
  | nil => rintro h ⟨l, hl, _⟩; cases hl
  | cons l ls ih =>
    rintro h ⟨a, ha, hn⟩
    rw [loadFrom]
    split
    · rfl
    · rename_i hl
      rcases List.mem_cons.1 ha with rfl | ha
      · exact absurd hn hl
      · cases l.slat with
        | none => exact ih h ⟨a, ha, hn⟩
        | some s => exact ih _ ⟨a, ha, hn⟩

theorem foldl_put_nodup (es : List Entry) : ∀ (h : List Entry), (h.map Entry.key).Nodup →
    ((es.foldl (fun h e => put e h) h).map Entry.key).Nodup := by
  induction es with
  | nil => intro h hn; exact hn
  | cons e es ih => intro h hn; exact ih _ (put_nodup hn)

theorem foldl_put_mem (es : List Entry) : ∀ (h : List Entry), (h.map Entry.key).Nodup → ∀ a,
    (a ∈ es.foldl (fun h e => put e h) h ↔ (∃ p q, es = p ++ a :: q ∧ ∀ b ∈ q, b.key ≠ a.key) ∨ (a ∈ h ∧ ∀ b ∈ es, b.key ≠ a.key)) := by
  induction es with
  | nil => intro h _ a; simp
  | cons e es ih =>
    intro h hn a
    rw [List.foldl_cons, ih _ (put_nodup hn) a, mem_put hn]
    constructor
    · rintro (⟨p, q, h1, h2⟩ | ⟨h1 | ⟨h1, h2⟩, h3⟩)
      · exact Or.inl ⟨e :: p, q, by rw [h1]; rfl, h2⟩
      · exact Or.inl ⟨[], es, by rw [h1]; rfl, h3⟩
      · refine Or.inr ⟨h1, fun b hb => ?_⟩
        rcases List.mem_cons.1 hb with rfl | hb
        · exact fun h => h2 h.symm
        · exact h3 b hb
    · rintro (⟨p, q, h1, h2⟩ | ⟨h1, h2⟩)
      · cases p with
        | nil =>
          simp only [List.nil_append, List.cons.injEq] at h1
          exact Or.inr ⟨Or.inl h1.1.symm, by rw [h1.2]; exact h2⟩
        | cons c p =>
          simp only [List.cons_append, List.cons.injEq] at h1
          exact Or.inl ⟨p, q, h1.2, h2⟩
      · exact Or.inr ⟨Or.inr ⟨h1, fun h => h2 e (List.mem_cons_self ..) h.symm⟩, fun b hb => h2 b (List.mem_cons_of_mem _ hb)⟩

theorem foldl_put_fresh (es : List Entry) : ∀ (h : List Entry), ((h ++ es).map Entry.key).Nodup →
    es.foldl (fun h e => put e h) h = h ++ es := by
  induction es with
  | nil => intro h _; simp
  | cons e es ih =>
    intro h hn
    have he : e.key ∉ h.map Entry.key := by
      rw [List.map_append, List.map_cons] at hn
      have := (List.nodup_append.1 hn).2.2
      intro hm
      exact this _ hm _ (List.mem_cons_self ..) rfl
    rw [List.foldl_cons, put_fresh he, ih _ (by simpa using hn)]
    simp

/-! ## Sums -/

theorem foldl_add (l : List Int) (f : Int → Int) : ∀ s, l.foldl (fun s x => s + f x) s = s + sumOf (l.map f) := by
  induction l with
  | nil => intro s; simp [sumOf]
  | cons x l ih =>
    intro s
    rw [List.foldl_cons, ih]
    simp only [List.map_cons, sumOf, List.foldr_cons]
    omega

theorem total_eq (l : List Int) : total l = sumOf l := by
  have := foldl_add l id 0
  simpa [total] using this

theorem sumOf_cons (x : Int) (l : List Int) : sumOf (x :: l) = x + sumOf l := rfl

theorem sumOf_nonneg {l : List Int} (h : ∀ x ∈ l, 0 ≤ x) : 0 ≤ sumOf l := by
  induction l with
  | nil => simp [sumOf]
  | cons x l ih =>
    rw [sumOf_cons]
    have := h x (List.mem_cons_self ..)
    have := ih (fun y hy => h y (List.mem_cons_of_mem _ hy))
    omega

theorem sumOf_zero {l : List Int} (h : ∀ x ∈ l, 0 ≤ x) (h0 : sumOf l = 0) : ∀ x ∈ l, x = 0 := by
  induction l with
  | nil => intro x hx; cases hx
  | cons y l ih =>
    rw [sumOf_cons] at h0
    have h1 := h y (List.mem_cons_self ..)
    have h2 : ∀ x ∈ l, 0 ≤ x := fun x hx => h x (List.mem_cons_of_mem _ hx)
    have h3 := sumOf_nonneg h2
    intro x hx
    rcases List.mem_cons.1 hx with rfl | hx
    · omega
    · exact ih h2 (by omega) x hx

theorem sumOf_const {l : List Int} {c : Int} (h : ∀ x ∈ l, x = c) : sumOf l = l.length * c := by
  induction l with
  | nil => simp [sumOf]
  | cons y l ih =>
    rw [sumOf_cons, ih (fun x hx => h x (List.mem_cons_of_mem _ hx)), h y (List.mem_cons_self ..), List.length_cons]
    rw [Int.natCast_add, Int.add_mul]
    omega

theorem deviation_eq (l : List Int) : deviation l = sumOf (l.map (fun x => (l.length * x - total l) * (l.length * x - total l))) := by
  have := foldl_add l (fun x => (l.length * x - total l) * (l.length * x - total l)) 0
  rw [deviation, this]
  omega

theorem sq_nonneg (x : Int) : 0 ≤ x * x := by
  rcases Int.le_total 0 x with h | h
  · exact Int.mul_nonneg h h
  · have := Int.mul_nonneg (Int.neg_nonneg_of_nonpos h) (Int.neg_nonneg_of_nonpos h)
    rwa [Int.neg_mul_neg] at this

/-! ## The ranges -/

/-- The number of the range, without the correction for the last one. -/
def quot (n : Nat) (mn mx x : Int) : Int := (n * (x - mn)) / (mx - mn)

theorem inBin_quot {n : Nat} {mn mx x : Int} (hD : mn < mx) (i : Nat) :
    inBin n mn mx i x = true ↔ (i : Int) ≤ quot n mn mx x ∧ quot n mn mx x < i + 1 + (if i + 1 = n then 1 else 0) := by
  have hD' : 0 < mx - mn := by omega
  simp only [inBin, Bool.and_eq_true, decide_eq_true_eq, quot]
  rw [Int.le_ediv_iff_mul_le hD', Int.ediv_lt_iff_lt_mul hD']
  have e : (n : Int) * (x - mn) = n * x - n * mn := Int.mul_sub ..
  split
  · simp only [Int.add_mul, e]; omega
  · simp only [Int.add_mul, e]; omega

theorem quot_bounds {n : Nat} {mn mx x : Int} (hD : mn < mx) (h1 : mn ≤ x) (h2 : x ≤ mx) :
    0 ≤ quot n mn mx x ∧ quot n mn mx x ≤ n := by
  have hD' : 0 < mx - mn := by omega
  constructor
  · exact Int.ediv_nonneg (Int.mul_nonneg (by omega) (by omega)) (by omega)
  · rw [quot]
    refine Int.ediv_le_of_le_mul hD' (Int.mul_le_mul_of_nonneg_left (by omega) (by omega))

/-- The range of a value. -/
theorem inBin_unique {n : Nat} (hn : 0 < n) {mn mx x : Int} (hD : mn < mx) (h1 : mn ≤ x) (h2 : x ≤ mx) :
    ∃ i, i < n ∧ ∀ j, j < n → (inBin n mn mx j x = true ↔ j = i) := by
  obtain ⟨q1, q2⟩ := quot_bounds (n := n) hD h1 h2
  by_cases hq : quot n mn mx x = n
  · refine ⟨n - 1, by omega, fun j hj => ?_⟩
    rw [inBin_quot hD]
    split <;> omega
  · refine ⟨(quot n mn mx x).toNat, by omega, fun j hj => ?_⟩
    rw [inBin_quot hD]
    split <;> omega

theorem sum_countP {α β : Type} (P : α → β → Bool) (is : List α) (l : List β) (h : ∀ x ∈ l, is.countP (fun i => P i x) = 1) :
    (is.map (fun i => l.countP (P i))).sum = l.length := by
  induction l with
  | nil =>
    clear h
    induction is with
    | nil => rfl
    | cons i is ih => simpa using ih
  | cons x l ih =>
    have h1 := h x (List.mem_cons_self ..)
    have h2 := ih (fun y hy => h y (List.mem_cons_of_mem _ hy))
    have : ∀ (js : List α), (js.map (fun i => (x :: l).countP (P i))).sum = (js.map (fun i => l.countP (P i))).sum + js.countP (fun i => P i x) := by
      intro js
      induction js with
      | nil => rfl
      | cons j js ihj =>
        rw [List.map_cons, List.sum_cons, ihj, List.map_cons, List.sum_cons, List.countP_cons, List.countP_cons]
        omega
    rw [this, h1, h2, List.length_cons]

theorem countP_range_unique {n i : Nat} (hi : i < n) (p : Nat → Bool) (hp : ∀ j, j < n → (p j = true ↔ j = i)) : (List.range n).countP p = 1 := by
  induction n with
  | zero => omega
  | succ n ih =>
    rw [List.range_succ, List.countP_append, List.countP_cons, List.countP_nil]
    by_cases h : i = n
    · have h0 : (List.range n).countP p = 0 := by
        rw [List.countP_eq_zero]
        intro j hj
        have hj' := List.mem_range.1 hj
        rw [hp j (by omega)]
        omega
      rw [h0, if_pos ((hp n (by omega)).2 h.symm)]
    · have h0 : ¬ p n = true := by
        rw [hp n (by omega)]
        exact fun h' => h h'.symm
      rw [if_neg h0, ih (by omega) (fun j hj => hp j (by omega))]

theorem sum_filterMap_count (f : Nat → Nat) (g : Nat → Bin) (hg : ∀ i, (g i).count = f i) (l : List Nat) :
    ((l.filterMap (fun i => if f i = 0 then none else some (g i))).map Bin.count).sum = (l.map f).sum := by
  induction l with
  | nil => rfl
  | cons i l ih =>
    rw [List.filterMap_cons]
    by_cases h : f i = 0
    · simp only [h, if_true, ih, List.map_cons, List.sum_cons]
      omega
    · simp only [if_neg h, List.map_cons, List.sum_cons, ih, hg]

/-- The list of values as the program has it. -/
def srt (l : List Int) : List Int := Rttm.ksort (fun a b => decide (a ≤ b)) l

theorem srt_perm (l : List Int) : (srt l).Perm l := Rttm.ksort_perm _ l

theorem srt_sorted (l : List Int) : (srt l).Pairwise (fun a b => a ≤ b) :=
  (Rttm.ksort_sorted (fun a b : Int => decide (a ≤ b)) (fun a b => by simpa using Int.le_total _ _)
    (fun a b c h1 h2 => by simp only [decide_eq_true_eq] at *; omega) l).imp (fun h => by simpa using h)

theorem sorted_bounds {s : List Int} (hs : s.Pairwise (fun a b => a ≤ b)) {x : Int} (hx : x ∈ s) :
    s.head?.getD 0 ≤ x ∧ x ≤ s.getLast?.getD 0 := by
  constructor
  · cases s with
    | nil => cases hx
    | cons a s =>
      rw [List.pairwise_cons] at hs
      rcases List.mem_cons.1 hx with rfl | hx
      · exact Int.le_refl _
      · exact hs.1 x hx
  · have hne : s ≠ [] := List.ne_nil_of_mem hx
    rw [List.getLast?_eq_some_getLast hne, Option.getD_some]
    rw [← List.dropLast_concat_getLast hne] at hs hx
    rcases List.mem_append.1 hx with hx | hx
    · exact (List.pairwise_append.1 hs).2.2 x hx _ (by simp)
    · simp only [List.mem_cons, List.not_mem_nil, or_false] at hx
      omega

theorem srt_bounds {l : List Int} {x : Int} (hx : x ∈ l) : (srt l).head?.getD 0 ≤ x ∧ x ≤ (srt l).getLast?.getD 0 :=
  sorted_bounds (srt_sorted l) ((srt_perm l).mem_iff.2 hx)

theorem freq_eq (n : Nat) (l : List Int) : freq n l = (List.range n).filterMap (fun i =>
    if (srt l).countP (inBin n ((srt l).head?.getD 0) ((srt l).getLast?.getD 0) i) = 0 then none
    else some ⟨i, n * (srt l).head?.getD 0 + i * ((srt l).getLast?.getD 0 - (srt l).head?.getD 0),
      n * (srt l).head?.getD 0 + i * ((srt l).getLast?.getD 0 - (srt l).head?.getD 0) + ((srt l).getLast?.getD 0 - (srt l).head?.getD 0),
      (srt l).countP (inBin n ((srt l).head?.getD 0) ((srt l).getLast?.getD 0) i)⟩) := rfl

end Verif.Slat
