import Verif.Diar.Spec
/-!
# Sorting, counting events, a general scan
-/
set_option autoImplicit false
namespace Verif.Diar

/-! ## Sorting -/

theorem insertEv_perm (le : Ev → Ev → Bool) (a : Ev) : ∀ l, (insertEv le a l).Perm (a :: l)
  | [] => .refl _
  | b :: l => by
    rw [insertEv]
    split
    · exact .refl _
    · exact ((insertEv_perm le a l).cons b).trans (.swap a b l)

theorem insertEv_sorted (le : Ev → Ev → Bool) (tr : ∀ a b c, le a b = true → le b c = true → le a c = true)
    (tot : ∀ a b, le a b = false → le b a = true) (a : Ev) :
    ∀ l, l.Pairwise (fun a b => le a b = true) → (insertEv le a l).Pairwise (fun a b => le a b = true)
  | [], _ => by simp [insertEv]
  | b :: l, h => by
    rw [List.pairwise_cons] at h
    rw [insertEv]
    split
    · rename_i hab
      refine List.pairwise_cons.2 ⟨fun c hc => ?_, List.pairwise_cons.2 h⟩
      rcases List.mem_cons.1 hc with rfl | hc
      · exact hab
      · exact tr _ _ _ hab (h.1 c hc)
    · rename_i hab
      refine List.pairwise_cons.2 ⟨fun c hc => ?_, insertEv_sorted le tr tot a l h.2⟩
      rcases List.mem_cons.1 ((insertEv_perm le a l).mem_iff.1 hc) with rfl | hc
      · exact tot _ _ (by simpa using hab)
      · exact h.1 c hc

theorem isort_sorts (le : Ev → Ev → Bool) (tr : ∀ a b c, le a b = true → le b c = true → le a c = true)
    (tot : ∀ a b, le a b = false → le b a = true) : Sorts le (isort le) := by
  intro l
  induction l with
  | nil => exact ⟨.refl _, .nil⟩
  | cons a l ih =>
    have he : isort le (a :: l) = insertEv le a (isort le l) := rfl
    rw [he]
    exact ⟨(insertEv_perm le a _).trans (ih.1.cons a), insertEv_sorted le tr tot a _ ih.2⟩

theorem endFirst_iff (a b : Ev) :
    endFirst a b = true ↔ a.time < b.time ∨ (a.time = b.time ∧ (b.beg = false → a.beg = false)) := by
  unfold endFirst
  cases ha : a.beg <;> cases hb : b.beg <;> simp

theorem begFirst_iff (a b : Ev) :
    begFirst a b = true ↔ a.time < b.time ∨ (a.time = b.time ∧ (a.beg = false → b.beg = false)) := by
  unfold begFirst
  cases ha : a.beg <;> cases hb : b.beg <;> simp

theorem isort_end : Sorts endFirst (isort endFirst) := by
  refine isort_sorts _ (fun a b c => ?_) (fun a b => ?_)
  · rw [endFirst_iff, endFirst_iff, endFirst_iff]
    intro h1 h2
    rcases h1 with h1 | ⟨h1, h1'⟩ <;> rcases h2 with h2 | ⟨h2, h2'⟩
    · left; omega
    · left; omega
    · left; omega
    · exact Or.inr ⟨by omega, fun h => h1' (h2' h)⟩
  · intro h
    have h' : ¬ endFirst a b = true := by rw [h]; decide
    rw [endFirst_iff] at h' ⊢
    by_cases h1 : b.time < a.time
    · exact Or.inl h1
    · have h2 : a.time = b.time := by
        have : ¬ a.time < b.time := fun h3 => h' (Or.inl h3)
        omega
      refine Or.inr ⟨h2.symm, fun h3 => ?_⟩
      cases hb : b.beg
      · rfl
      · exact absurd (Or.inr ⟨h2, fun h4 => by rw [hb] at h4; cases h4⟩) h'

theorem isort_beg : Sorts begFirst (isort begFirst) := by
  refine isort_sorts _ (fun a b c => ?_) (fun a b => ?_)
  · rw [begFirst_iff, begFirst_iff, begFirst_iff]
    intro h1 h2
    rcases h1 with h1 | ⟨h1, h1'⟩ <;> rcases h2 with h2 | ⟨h2, h2'⟩
    · left; omega
    · left; omega
    · left; omega
    · exact Or.inr ⟨by omega, fun h => h2' (h1' h)⟩
  · intro h
    have h' : ¬ begFirst a b = true := by rw [h]; decide
    rw [begFirst_iff] at h' ⊢
    by_cases h1 : b.time < a.time
    · exact Or.inl h1
    · have h2 : a.time = b.time := by
        have : ¬ a.time < b.time := fun h3 => h' (Or.inl h3)
        omega
      refine Or.inr ⟨h2.symm, fun _ => ?_⟩
      cases ha : a.beg
      · rfl
      · exact absurd (Or.inr ⟨h2, fun h4 => by rw [ha] at h4; cases h4⟩) h'

theorem end_time {l : List Ev} (h : l.Pairwise (fun a b => endFirst a b = true)) : l.Pairwise (fun a b => a.time ≤ b.time) :=
  h.imp (fun {a b} hab => by rcases (endFirst_iff a b).1 hab with h | ⟨h, _⟩ <;> omega)

theorem beg_time {l : List Ev} (h : l.Pairwise (fun a b => begFirst a b = true)) : l.Pairwise (fun a b => a.time ≤ b.time) :=
  h.imp (fun {a b} hab => by rcases (begFirst_iff a b).1 hab with h | ⟨h, _⟩ <;> omega)

/-! ## Counting events -/

/-- The events of kind `k` in `L` are those of the intervals `iv`. -/
def Of (k : Ev → Bool) (L : List Ev) (iv : List (Int × Int)) : Prop :=
  ∀ (b : Bool) (q : Int → Bool), L.countP (fun e => k e && (e.beg == b) && q e.time) = iv.countP (fun u => q (if b then u.1 else u.2))

theorem Of.perm {k : Ev → Bool} {L L' : List Ev} {iv : List (Int × Int)} (h : Of k L iv) (hp : L'.Perm L) : Of k L' iv :=
  fun b q => by rw [hp.countP_eq]; exact h b q

theorem Of.append {k : Ev → Bool} {L L' : List Ev} {iv iv' : List (Int × Int)} (h : Of k L iv) (h' : Of k L' iv') :
    Of k (L ++ L') (iv ++ iv') := fun b q => by rw [List.countP_append, List.countP_append, h, h']

theorem Of.none {k : Ev → Bool} {L : List Ev} (h : ∀ e ∈ L, k e = false) : Of k L [] := fun b q => by
  rw [List.countP_nil, List.countP_eq_zero]
  intro e he
  rw [h e he]
  simp

theorem Of.flat {α : Type} {k : Ev → Bool} (l : List α) (g : α → Kind) (f : α → Int × Int) (hk : ∀ a, ∀ b t, k ⟨g a, b, t⟩ = true) :
    Of k (l.flatMap (fun a => both (g a) (f a).1 (f a).2)) (l.map f) := by
  intro b q
  induction l with
  | nil => rfl
  | cons a l ih =>
    rw [List.flatMap_cons, List.countP_append, ih, List.map_cons, List.countP_cons]
    unfold both
    rw [List.countP_cons, List.countP_cons, List.countP_nil, hk, hk]
    cases b <;> simp <;> omega

/-- Ups minus downs. -/
def net (k : Ev → Bool) (L : List Ev) : Int := (L.countP (fun e => k e && e.beg) : Nat) - (L.countP (fun e => k e && !e.beg) : Nat)

theorem net_nil (k : Ev → Bool) : net k [] = 0 := rfl

theorem net_cons (k : Ev → Bool) (e : Ev) (L : List Ev) :
    net k (e :: L) = net k L + (if k e then (if e.beg then 1 else -1) else 0) := by
  unfold net
  rw [List.countP_cons, List.countP_cons]
  cases k e <;> cases e.beg <;> simp <;> omega

theorem net_append (k : Ev → Bool) (L L' : List Ev) : net k (L ++ L') = net k L + net k L' := by
  unfold net
  rw [List.countP_append, List.countP_append]
  omega

theorem countP_sub {α : Type} (l : List α) (p q r : α → Bool) (h : ∀ a ∈ l, ((if p a then 1 else 0 : Int) - (if q a then 1 else 0 : Int)) = if r a then 1 else 0) :
    ((l.countP p : Nat) : Int) - (l.countP q : Nat) = (l.countP r : Nat) := by
  induction l with
  | nil => rfl
  | cons a l ih =>
    have ha := h a (List.mem_cons_self ..)
    have hl := ih (fun b hb => h b (List.mem_cons_of_mem _ hb))
    rw [List.countP_cons, List.countP_cons, List.countP_cons]
    cases hp : p a <;> cases hq : q a <;> cases hr : r a <;> simp only [hp, hq, hr, if_true, if_false, Bool.false_eq_true] at ha ⊢ <;> omega

/-- Ups minus downs up to `x` is the number of intervals with `x` inside. -/
theorem net_at {k : Ev → Bool} {L : List Ev} {iv : List (Int × Int)} (h : Of k L iv) (hpos : ∀ u ∈ iv, u.1 < u.2) (x : Int) :
    net k (L.filter (fun e => e.time ≤ x)) = (iv.countP (fun u => decide (u.1 ≤ x ∧ x < u.2)) : Nat) := by
  have h1 := h true (fun t => decide (t ≤ x))
  have h2 := h false (fun t => decide (t ≤ x))
  unfold net
  rw [List.countP_filter, List.countP_filter]
  have e1 : L.countP (fun e => (k e && e.beg) && decide (e.time ≤ x)) = iv.countP (fun u => decide (u.1 ≤ x)) := by
    refine Eq.trans ?_ h1
    congr 1; funext e; cases e.beg <;> simp
  have e2 : L.countP (fun e => (k e && !e.beg) && decide (e.time ≤ x)) = iv.countP (fun u => decide (u.2 ≤ x)) := by
    refine Eq.trans ?_ (h2.trans ?_)
    · congr 1; funext e; cases e.beg <;> simp
    · simp
  rw [e1, e2]
  refine countP_sub _ _ _ _ (fun u hu => ?_)
  have := hpos u hu
  by_cases a : u.1 ≤ x <;> by_cases b : u.2 ≤ x <;> simp [a, b] <;> omega

/-- No more than one interval has `x` inside. -/
theorem apart_one {iv : List (Int × Int)} (h : Apart iv) (x : Int) : iv.countP (fun u => decide (u.1 ≤ x ∧ x < u.2)) ≤ 1 := by
  induction iv with
  | nil => simp
  | cons u iv ih =>
    have hu := List.pairwise_cons.1 h
    rw [List.countP_cons]
    by_cases hx : u.1 ≤ x ∧ x < u.2
    · have : iv.countP (fun u => decide (u.1 ≤ x ∧ x < u.2)) = 0 := by
        rw [List.countP_eq_zero]
        intro v hv hv'
        exact hu.1 v hv x ⟨hx, by simpa using hv'⟩
      rw [this]
      split <;> omega
    · rw [if_neg (by simpa using hx)]
      exact ih hu.2

theorem inside_pos {iv : List (Int × Int)} {x : Int} :
    0 < iv.countP (fun u => decide (u.1 ≤ x ∧ x < u.2)) ↔ Inside iv x := by
  rw [List.countP_pos_iff]
  simp [Inside]

/-! ## Prefixes -/

theorem prefix_lower {k : Ev → Bool} {L : List Ev} {iv : List (Int × Int)} (h : Of k L iv) (hpos : ∀ u ∈ iv, u.1 < u.2)
    {p r : List Ev} {e : Ev} (hL : L = p ++ e :: r) (hs : L.Pairwise (fun a b => endFirst a b = true)) : 0 ≤ net k (p ++ [e]) := by
  have ht := end_time hs
  rw [hL] at ht
  have hp : ∀ a ∈ p ++ [e], a.time ≤ e.time := by
    intro a ha
    rcases List.mem_append.1 ha with ha | ha
    · exact (List.pairwise_append.1 ht).2.2 a ha e (List.mem_cons_self ..)
    · simp at ha; subst ha; omega
  have hr : ∀ a ∈ r, e.time ≤ a.time := (List.pairwise_cons.1 (List.pairwise_append.1 ht).2.1).1
  have hL' : L = (p ++ [e]) ++ r := by rw [hL]; simp
  have h1 := h true (fun t => decide (t < e.time))
  have h2 := h false (fun t => decide (t ≤ e.time))
  rw [hL', List.countP_append] at h1 h2
  have z : r.countP (fun a => k a && (a.beg == true) && decide (a.time < e.time)) = 0 := by
    rw [List.countP_eq_zero]; intro a ha hh
    have := hr a ha
    simp only [Bool.and_eq_true, decide_eq_true_eq] at hh; omega
  have a1 : (p ++ [e]).countP (fun a => k a && (a.beg == true) && decide (a.time < e.time)) ≤ (p ++ [e]).countP (fun e => k e && e.beg) :=
    List.countP_mono_left (fun a _ hh => by
      simp only [Bool.and_eq_true, beq_iff_eq] at hh ⊢; exact ⟨hh.1.1, hh.1.2⟩)
  have a2 : (p ++ [e]).countP (fun e => k e && !e.beg) ≤ (p ++ [e]).countP (fun a => k a && (a.beg == false) && decide (a.time ≤ e.time)) :=
    List.countP_mono_left (fun a ha hh => by
      have := hp a ha
      simp only [Bool.and_eq_true, beq_iff_eq, Bool.not_eq_true', decide_eq_true_eq] at hh ⊢; exact ⟨⟨hh.1, hh.2⟩, this⟩)
  have a3 : iv.countP (fun u => decide ((if false then u.1 else u.2) ≤ e.time)) ≤ iv.countP (fun u => decide ((if true then u.1 else u.2) < e.time)) :=
    List.countP_mono_left (fun u hu hh => by
      have := hpos u hu
      simp only [decide_eq_true_eq, Bool.false_eq_true, if_false, if_true] at hh ⊢; omega)
  unfold net
  omega

theorem prefix_upper {k : Ev → Bool} {L : List Ev} {iv : List (Int × Int)} (h : Of k L iv) (hpos : ∀ u ∈ iv, u.1 < u.2) (hap : Apart iv)
    {p r : List Ev} {e : Ev} (hL : L = p ++ e :: r) (hs : L.Pairwise (fun a b => endFirst a b = true)) : net k (p ++ [e]) ≤ 1 := by
  rw [hL] at hs
  have hs1 := (List.pairwise_append.1 hs).2.2
  have hs2 := (List.pairwise_cons.1 (List.pairwise_append.1 hs).2.1).1
  have hL' : L = (p ++ [e]) ++ r := by rw [hL]; simp
  -- the instant up to which ups are counted
  have key : ∃ y : Int, (∀ a ∈ p ++ [e], a.beg = true → a.time ≤ y) ∧ (∀ a ∈ r, a.beg = false → ¬ a.time ≤ y) := by
    cases hb : e.beg
    · refine ⟨e.time - 1, fun a ha hab => ?_, fun a ha hab => ?_⟩
      · rcases List.mem_append.1 ha with ha | ha
        · rcases (endFirst_iff a e).1 (hs1 a ha e (List.mem_cons_self ..)) with h | ⟨h, h'⟩
          · omega
          · rw [h' hb] at hab; cases hab
        · simp at ha; subst ha; rw [hb] at hab; cases hab
      · rcases (endFirst_iff e a).1 (hs2 a ha) with h | ⟨h, h'⟩ <;> omega
    · refine ⟨e.time, fun a ha _ => ?_, fun a ha hab => ?_⟩
      · rcases List.mem_append.1 ha with ha | ha
        · rcases (endFirst_iff a e).1 (hs1 a ha e (List.mem_cons_self ..)) with h | ⟨h, h'⟩ <;> omega
        · simp at ha; subst ha; omega
      · rcases (endFirst_iff e a).1 (hs2 a ha) with h | ⟨h, h'⟩
        · omega
        · rw [h' hab] at hb; cases hb
  obtain ⟨y, hy1, hy2⟩ := key
  have h1 := h true (fun t => decide (t ≤ y))
  have h2 := h false (fun t => decide (t ≤ y))
  rw [hL', List.countP_append] at h1 h2
  have z : r.countP (fun a => k a && (a.beg == false) && decide (a.time ≤ y)) = 0 := by
    rw [List.countP_eq_zero]; intro a ha hh
    simp only [Bool.and_eq_true, beq_iff_eq, decide_eq_true_eq] at hh
    exact hy2 a ha hh.1.2 hh.2
  have a1 : (p ++ [e]).countP (fun e => k e && e.beg) ≤ (p ++ [e]).countP (fun a => k a && (a.beg == true) && decide (a.time ≤ y)) :=
    List.countP_mono_left (fun a ha hh => by
      simp only [Bool.and_eq_true, beq_iff_eq, decide_eq_true_eq] at hh ⊢
      exact ⟨⟨hh.1, hh.2⟩, hy1 a ha hh.2⟩)
  have a2 : (p ++ [e]).countP (fun a => k a && (a.beg == false) && decide (a.time ≤ y)) ≤ (p ++ [e]).countP (fun e => k e && !e.beg) :=
    List.countP_mono_left (fun a _ hh => by
      simp only [Bool.and_eq_true, beq_iff_eq, Bool.not_eq_true'] at hh ⊢; exact ⟨hh.1.1, hh.1.2⟩)
  have a3 := countP_sub iv (fun u => decide (u.1 ≤ y)) (fun u => decide (u.2 ≤ y)) (fun u => decide (u.1 ≤ y ∧ y < u.2)) (fun u hu => by
    have := hpos u hu
    by_cases a : u.1 ≤ y <;> by_cases b : u.2 ≤ y <;> simp [a, b] <;> omega)
  have a4 := apart_one hap y
  have e1 : iv.countP (fun u => decide ((if true then u.1 else u.2) ≤ y)) = iv.countP (fun u => decide (u.1 ≤ y)) := rfl
  have e2 : iv.countP (fun u => decide ((if false then u.1 else u.2) ≤ y)) = iv.countP (fun u => decide (u.2 ≤ y)) := by simp
  unfold net
  omega

/-! ## A scan -/

/-- The intervals during which a state is "on". -/
def scan {σ : Type} (step : σ → Ev → σ) (on : σ → Bool) : σ → Int → List Ev → List (Int × Int)
  | _, _, [] => []
  | s, tb, e :: es =>
    if on s then
      if on (step s e) then scan step on (step s e) tb es
      else if tb < e.time then (tb, e.time) :: scan step on (step s e) tb es
      else scan step on (step s e) tb es
    else
      if on (step s e) then scan step on (step s e) e.time es
      else scan step on (step s e) tb es

theorem filter_late {e : Ev} {es : List Ev} {x : Int} (h : ∀ a ∈ es, e.time ≤ a.time) (hx : x < e.time) :
    (e :: es).filter (fun a => decide (a.time ≤ x)) = [] := by
  rw [List.filter_eq_nil_iff]
  intro a ha
  have : e.time ≤ a.time := by
    rcases List.mem_cons.1 ha with rfl | ha
    · omega
    · exact h a ha
  simp; omega

theorem scan_inside {σ : Type} (step : σ → Ev → σ) (on : σ → Bool) (x : Int) :
    ∀ (es : List Ev) (s : σ) (tb : Int), es.Pairwise (fun a b => a.time ≤ b.time) → on (es.foldl step s) = false →
      (on s = true → ∀ e ∈ es, tb ≤ e.time) →
      (Inside (scan step on s tb es) x ↔
        on ((es.filter (fun a => decide (a.time ≤ x))).foldl step s) = true ∧ (on s = true → tb ≤ x))
  | [], s, tb, _, hf, _ => by
    have : on s = false := hf
    simp [scan, Inside, this]
  | e :: es, s, tb, hs, hf, htb => by
    have hs' := List.pairwise_cons.1 hs
    have cons_in : ∀ (u : Int × Int) (l : List (Int × Int)), Inside (u :: l) x ↔ (u.1 ≤ x ∧ x < u.2) ∨ Inside l x := by
      intro u l; simp [Inside]
    have ih := fun tb' h => scan_inside step on x es (step s e) tb' hs'.2 hf h
    by_cases hx : x < e.time
    · rw [filter_late hs'.1 hx]
      have hnil : es.filter (fun a => decide (a.time ≤ x)) = [] := by
        have := filter_late hs'.1 hx
        rw [List.filter_cons_of_neg (by simp; omega)] at this
        exact this
      rw [hnil] at ih
      simp only [List.foldl_nil] at ih ⊢
      rw [scan]
      cases h1 : on s <;> cases h2 : on (step s e)
      · rw [if_neg (by decide), if_neg (by decide), ih tb (by rw [h2]; intro h; cases h), h2]
        try simp
      · rw [if_neg (by decide), if_pos rfl, ih e.time (fun _ => hs'.1), h2]
        simp; omega
      · rw [if_pos rfl, if_neg (by decide)]
        split
        · rw [cons_in, ih tb (by rw [h2]; intro h; cases h), h2]; simp; omega
        · rw [ih tb (by rw [h2]; intro h; cases h), h2]; simp
          try omega
      · rw [if_pos rfl, if_pos rfl, ih tb (fun _ a ha => htb h1 a (List.mem_cons_of_mem _ ha)), h2]
    · rw [List.filter_cons_of_pos (by simp; omega), List.foldl_cons]
      rw [scan]
      cases h1 : on s <;> cases h2 : on (step s e)
      · rw [if_neg (by decide), if_neg (by decide), ih tb (by rw [h2]; intro h; cases h), h2]
        try simp
      · rw [if_neg (by decide), if_pos rfl, ih e.time (fun _ => hs'.1), h2]
        simp; try omega
      · have := htb h1 e (List.mem_cons_self ..)
        rw [if_pos rfl, if_neg (by decide)]
        split
        · rw [cons_in, ih tb (by rw [h2]; intro h; cases h), h2]
          have hn : ¬ (tb ≤ x ∧ x < e.time) := by omega
          have hy : tb ≤ x := by omega
          have hn' : ¬ x < e.time := hx
          simp [hn', hy]
        · rw [ih tb (by rw [h2]; intro h; cases h), h2]
          have hy : tb ≤ x := by omega
          simp [hy]
      · have := htb h1 e (List.mem_cons_self ..)
        rw [if_pos rfl, if_pos rfl, ih tb (fun _ a ha => htb h1 a (List.mem_cons_of_mem _ ha)), h2]

end Verif.Diar
