import Verif.Fof.Model
import Verif.Fof.Spec
/-!
# Theorems on the statistics of n-grams
-/
set_option autoImplicit false
namespace Verif.Fof

theorem novelty_lt : ∀ (c p : List Nat), c.length = p.length → p < c → ∃ x, novelty c p = some x ∧ x < c.length ∧ ∀ k, c.take k = p.take k ↔ k ≤ x := by
  intro c
  induction c with
  | nil =>
    intro p _ h
    exact absurd h (List.not_lt_nil p)
  | cons a c ih =>
    intro p hl h
    cases p with
    | nil => simp at hl
    | cons b p =>
      rw [List.cons_lt_cons_iff] at h
      rw [novelty]
      rcases h with h | ⟨rfl, h⟩
      · rw [if_pos (by simpa using h)]
        refine ⟨0, rfl, by simp, fun k => ?_⟩
        cases k with
        | zero => simp
        | succ k =>
          simp only [List.take_succ_cons, List.cons.injEq]
          constructor
          · rintro ⟨e, _⟩
            omega
          · intro q
            omega
      · obtain ⟨x, e, h1, h2⟩ := ih p (by simpa using hl) h
        rw [if_neg (by simp), if_neg (by simp), e]
        refine ⟨x + 1, rfl, by simpa using h1, fun k => ?_⟩
        cases k with
        | zero => simp
        | succ k =>
          simp only [List.take_succ_cons, List.cons.injEq, true_and, h2 k]
          omega

theorem novelty_zero : ∀ (c : List Nat), ∃ x, novelty c (List.replicate c.length 0) = some x ∧ ∀ k, k ≤ c.length → (c.take k = (List.replicate c.length 0).take k ↔ k ≤ x) := by
  intro c
  induction c with
  | nil => exact ⟨0, rfl, fun k hk => by simpa using hk⟩
  | cons a c ih =>
    obtain ⟨x, e, h⟩ := ih
    rw [List.length_cons, List.replicate_succ, novelty]
    by_cases ha : 0 < a
    · rw [if_pos (by simpa using ha)]
      refine ⟨0, rfl, fun k _ => ?_⟩
      cases k with
      | zero => simp
      | succ k =>
        simp only [List.take_succ_cons, List.cons.injEq]
        constructor
        · rintro ⟨e, _⟩
          omega
        · intro q
          omega
    · rw [if_neg (by simpa using ha), if_neg (by simp), e]
      refine ⟨x + 1, rfl, fun k hk => ?_⟩
      cases k with
      | zero => simp
      | succ k =>
        simp only [List.take_succ_cons, List.cons.injEq, h k (by omega)]
        have : a = 0 := by omega
        simp [this]

/-- What is kept counts exactly the list. -/
def Holds (size : Nat) (s : Lv) (l : List Nat) : Prop := s.num = l.length ∧ ∀ j, j ≤ size → s.fof j = l.count j

theorem close_holds {size : Nat} {s : Lv} {l : List Nat} (h : Holds size s l) : Holds size (close size s) (l ++ [s.cnt]) := by
  refine ⟨by simp [close, h.1], fun j hj => ?_⟩
  unfold close
  dsimp only
  rw [List.count_append, ← h.2 j hj]
  by_cases c : s.cnt ≤ size
  · rw [if_pos (by simpa using c)]
    by_cases e : j = s.cnt
    · simp [e]
    · have : (s.cnt == j) = false := by simpa using fun q => e q.symm
      simp [e, List.count_cons, this]
  · rw [if_neg (by simpa using c)]
    have : (s.cnt == j) = false := by
      simp
      omega
    simp [List.count_cons, this]

theorem runs_ne (k : Nat) (r : List (List Nat × Nat)) : ∀ q t, runs k q t r ≠ [] := by
  induction r with
  | nil => intro q t; simp [runs]
  | cons e r ih =>
    intro q t
    obtain ⟨g, c⟩ := e
    rw [runs]
    split
    · exact ih _ _
    · simp

theorem loop_runs (size n i : Nat) (r : List (List Nat × Nat)) : ∀ (g : List Nat) (pos : Nat) (s : Lv) (l : List Nat),
    (∀ e ∈ r, e.1.length = n) → g.length = n → ((g, 0) :: r).Pairwise (fun a b => a.1 < b.1) → Holds size s l →
    ∃ p s', loop size n i false g pos s r = some (p, s') ∧ Holds size s' (l ++ (runs (i + 1) (g.take (i + 1)) s.cnt r).dropLast) ∧
      some s'.cnt = (runs (i + 1) (g.take (i + 1)) s.cnt r).getLast? ∧ (r ≠ [] → (p ≤ i ↔ Fresh n (i + 1) g r)) ∧ (r = [] → p = pos) := by
  induction r with
  | nil =>
    intro g pos s l _ _ _ h
    exact ⟨pos, s, rfl, by simpa [runs] using h, by simp [runs], fun q => absurd rfl q, fun _ => rfl⟩
  | cons e r ih =>
    obtain ⟨x, c⟩ := e
    intro g pos s l hl hg hs h
    have hx : x.length = n := hl (x, c) (by simp)
    obtain ⟨h1, h2⟩ := List.pairwise_cons.1 hs
    have hlt : g < x := h1 (x, c) (by simp)
    obtain ⟨p, e, hp, ht⟩ := novelty_lt x g (by omega) hlt
    have hs' : ((x, 0) :: r).Pairwise (fun a b => a.1 < b.1) := by
      rw [List.pairwise_cons] at h2 ⊢
      exact h2
    rw [loop, e]
    dsimp only
    rw [if_neg (by simp; omega), runs]
    have hf : (r = [] → (p ≤ i ↔ Fresh n (i + 1) g ((x, c) :: r))) ∧ (r ≠ [] → (Fresh n (i + 1) g ((x, c) :: r) ↔ Fresh n (i + 1) x r)) := by
      constructor
      · rintro rfl
        simp only [Fresh, ne_eq, ht]
        omega
      · intro hr
        cases r with
        | nil => exact absurd rfl hr
        | cons y r => rfl
    by_cases hk : x.take (i + 1) = g.take (i + 1)
    · have hpi : i + 1 ≤ p := (ht _).1 hk
      have hlev : level size i false p c s = { s with cnt := s.cnt + c } := by
        have d1 : decide (p ≤ i) = false := by simp; omega
        have d2 : decide (i + 1 ≤ p) = true := by simp; omega
        simp only [level, d1, d2]
        rfl
      rw [if_pos hk, hlev]
      obtain ⟨p', s', a1, a2, a3, a4, a5⟩ := ih x p { s with cnt := s.cnt + c } l (fun e he => hl e (by simp [he])) hx hs' h
      rw [hk] at a2 a3
      refine ⟨p', s', a1, a2, a3, fun _ => ?_, fun q => by cases q⟩
      by_cases hr : r = []
      · rw [a5 hr]
        exact hf.1 hr
      · rw [a4 hr, hf.2 hr]
    · have hpi : p ≤ i := by
        refine Nat.not_lt.1 fun q => hk ((ht (i + 1)).2 q)
      have hlev : level size i false p c s = { close size s with cnt := c } := by
        have d1 : decide (p ≤ i) = true := by simp; omega
        have d2 : decide (i + 1 ≤ p) = false := by simp; omega
        simp only [level, d1, d2]
        rfl
      rw [if_neg hk, hlev]
      have hc : Holds size { close size s with cnt := c } (l ++ [s.cnt]) := close_holds h
      obtain ⟨p', s', a1, a2, a3, a4, a5⟩ := ih x p { close size s with cnt := c } (l ++ [s.cnt]) (fun e he => hl e (by simp [he])) hx hs' hc
      have hne := runs_ne (i + 1) r (x.take (i + 1)) c
      refine ⟨p', s', a1, ?_, ?_, fun _ => ?_, fun q => by cases q⟩
      · rw [List.dropLast_cons_of_ne_nil hne]
        rw [List.append_assoc, List.singleton_append] at a2
        exact a2
      · rw [a3]
        cases e3 : runs (i + 1) (x.take (i + 1)) c r with
        | nil => exact absurd e3 hne
        | cons y ys =>
          rw [List.getLast?_cons_cons]
      · by_cases hr : r = []
        · rw [a5 hr]
          exact hf.1 hr
        · rw [a4 hr, hf.2 hr]

/-! ## C326: statistics of n-grams -/

theorem stats_spec (size n i : Nat) (hi : i + 1 ≤ n) (file : List (List Nat × Nat)) (ho : Ordered n file) (hne : file ≠ []) :
    ∃ s, stats size n i file = some s ∧ (Fresh n (i + 1) (List.replicate n 0) file → Holds size s (counts (i + 1) file)) ∧
      (¬ Fresh n (i + 1) (List.replicate n 0) file → Holds size s (counts (i + 1) file).dropLast) := by
  obtain ⟨hs, hl⟩ := ho
  cases file with
  | nil => exact absurd rfl hne
  | cons e r =>
    obtain ⟨g, c⟩ := e
    have hg : g.length = n := hl (g, c) (by simp)
    obtain ⟨x, e, hx⟩ := novelty_zero g
    rw [hg] at e hx
    have hlev : level size i true x c ⟨0, fun _ => 0, 0⟩ = ⟨0, fun _ => 0, c⟩ := by
      by_cases q : x ≤ i
      · have d1 : decide (x ≤ i) = true := by simp; omega
        have d2 : decide (i + 1 ≤ x) = false := by simp; omega
        simp only [level, d1, d2]
        rfl
      · have d1 : decide (x ≤ i) = false := by simp; omega
        have d2 : decide (i + 1 ≤ x) = true := by simp; omega
        simp [level, d1, d2]
    have hs' : ((g, 0) :: r).Pairwise (fun a b => a.1 < b.1) := by
      rw [List.pairwise_cons] at hs ⊢
      exact hs
    obtain ⟨p, s', a1, a2, a3, a4, a5⟩ := loop_runs size n i r g x ⟨0, fun _ => 0, c⟩ [] (fun e he => hl e (by simp [he])) hg hs'
      ⟨rfl, fun _ _ => rfl⟩
    have hrun : loop size n i true (List.replicate n 0) n ⟨0, fun _ => 0, 0⟩ ((g, c) :: r) = some (p, s') := by
      rw [loop, e]
      dsimp only
      rw [if_neg (by simp), hlev, a1]
    have hp : p ≤ i ↔ Fresh n (i + 1) (List.replicate n 0) ((g, c) :: r) := by
      cases r with
      | nil =>
        rw [a5 rfl, Fresh, ne_eq, hx (i + 1) hi]
        omega
      | cons y r => exact a4 (by simp)
    unfold stats
    rw [hrun]
    refine ⟨_, rfl, fun hf => ?_, fun hf => ?_⟩
    · unfold finish
      rw [if_pos (by simpa using hp.2 hf)]
      have := close_holds a2
      rw [List.nil_append] at this
      have he : (runs (i + 1) (g.take (i + 1)) c r).dropLast ++ [s'.cnt] = counts (i + 1) ((g, c) :: r) := by
        obtain ⟨ys, e⟩ := List.getLast?_eq_some_iff.1 a3.symm
        dsimp only at e
        rw [counts, e]
        simp
      dsimp only at this ⊢
      rw [he] at this
      exact this
    · unfold finish
      rw [if_neg (by simpa using fun q => hf (hp.1 q))]
      rw [List.nil_append] at a2
      exact a2

/-- For a file in order whose last n-gram begins a new k-gram the number of k-grams and the numbers of those that occur so often, up to the size asked for, are those of the file. Missing: other files. -/
theorem stats_partial (size n i : Nat) (hi : i + 1 ≤ n) (file : List (List Nat × Nat)) (ho : Ordered n file) (hf : Fresh n (i + 1) (List.replicate n 0) file) :
    ∃ s, stats size n i file = some s ∧ s.num = (counts (i + 1) file).length ∧ ∀ j, j ≤ size → s.fof j = (counts (i + 1) file).count j := by
  obtain ⟨s, e, h, _⟩ := stats_spec size n i hi file ho (by rintro rfl; exact hf)
  exact ⟨s, e, h hf⟩

theorem take_mono : ∀ (a b : List Nat) (k : Nat), a ≤ b → a.take k ≤ b.take k := by
  intro a
  induction a with
  | nil => intro b k _; simp
  | cons x a ih =>
    intro b k h
    cases b with
    | nil => simp at h
    | cons y b =>
      cases k with
      | zero => simp
      | succ k =>
        rw [List.take_succ_cons, List.take_succ_cons]
        rw [List.cons_le_cons_iff] at h ⊢
        rcases h with h | ⟨h, q⟩
        · exact .inl h
        · exact .inr ⟨h, ih b k q⟩

/-- In a file in order the n-grams with the same first words stand together, so that each k-gram is in one run only. -/
theorem together (k : Nat) (a b c : List Nat) (h1 : a < b) (h2 : b < c) (e : a.take k = c.take k) : b.take k = a.take k :=
  List.le_antisymm (e ▸ take_mono b c k (List.le_of_lt h2)) (take_mono a b k (List.le_of_lt h1))

theorem total_cons_eq (k : Nat) (q g : List Nat) (c : Nat) (r : List (List Nat × Nat)) (h : g.take k = q) : total k q ((g, c) :: r) = c + total k q r := by
  simp [total, h]

theorem total_cons_ne (k : Nat) (q g : List Nat) (c : Nat) (r : List (List Nat × Nat)) (h : g.take k ≠ q) : total k q ((g, c) :: r) = total k q r := by
  simp [total, h]

theorem total_none (k : Nat) (q : List Nat) (r : List (List Nat × Nat)) (h : ∀ e ∈ r, e.1.take k ≠ q) : total k q r = 0 := by
  have : r.filter (fun e => e.1.take k == q) = [] := List.filter_eq_nil_iff.2 (fun e he => by simpa using h e he)
  simp [total, this]

theorem runs_total (k : Nat) (r : List (List Nat × Nat)) : ∀ (q : List Nat) (t : Nat), r.Pairwise (fun a b => a.1 < b.1) → (∀ e ∈ r, q ≤ e.1.take k) →
    ∃ qs : List (List Nat), (q :: qs).Pairwise (· < ·) ∧ (∀ x, x ∈ q :: qs ↔ x = q ∨ ∃ e ∈ r, e.1.take k = x) ∧
      runs k q t r = (t + total k q r) :: qs.map (fun x => total k x r) := by
  induction r with
  | nil =>
    intro q t _ _
    exact ⟨[], by simp, by simp, by simp [runs, total]⟩
  | cons e r ih =>
    intro q t hs hq
    obtain ⟨g, c⟩ := e
    obtain ⟨h1, h2⟩ := List.pairwise_cons.1 hs
    rw [runs]
    by_cases hg : g.take k = q
    · rw [if_pos hg]
      obtain ⟨qs, a1, a2, a3⟩ := ih q (t + c) h2 (fun e he => hq e (List.mem_cons_of_mem _ he))
      refine ⟨qs, a1, fun x => ?_, ?_⟩
      · rw [a2 x]
        constructor
        · rintro (h | ⟨e, he, h⟩)
          · exact .inl h
          · exact .inr ⟨e, List.mem_cons_of_mem _ he, h⟩
        · rintro (h | ⟨e, he, h⟩)
          · exact .inl h
          · rcases List.mem_cons.1 he with rfl | he
            · exact .inl (h.symm.trans hg)
            · exact .inr ⟨e, he, h⟩
      · rw [a3, total_cons_eq k q g c r hg, Nat.add_assoc]
        congr 1
        refine List.map_congr_left fun x hx => (total_cons_ne k x g c r ?_).symm
        intro e
        have := (List.pairwise_cons.1 a1).1 x hx
        rw [← e, hg] at this
        exact List.lt_irrefl q this
    · rw [if_neg hg]
      have hlt : q < g.take k := by
        refine List.not_le.1 fun hle => hg ?_
        exact List.le_antisymm hle (hq (g, c) (by simp))
      have hge : ∀ e ∈ r, g.take k ≤ e.1.take k := fun e he => take_mono g e.1 k (List.le_of_lt (h1 e he))
      obtain ⟨qs, a1, a2, a3⟩ := ih (g.take k) c h2 hge
      refine ⟨g.take k :: qs, ?_, fun x => ?_, ?_⟩
      · refine List.pairwise_cons.2 ⟨fun x hx => ?_, a1⟩
        rcases List.mem_cons.1 hx with rfl | hx
        · exact hlt
        · exact List.lt_trans hlt ((List.pairwise_cons.1 a1).1 x hx)
      · rw [List.mem_cons, a2 x]
        constructor
        · rintro (h | h | ⟨e, he, h⟩)
          · exact .inl h
          · exact .inr ⟨(g, c), by simp, h.symm⟩
          · exact .inr ⟨e, List.mem_cons_of_mem _ he, h⟩
        · rintro (h | ⟨e, he, h⟩)
          · exact .inl h
          · rcases List.mem_cons.1 he with rfl | he
            · exact .inr (.inl h.symm)
            · exact .inr (.inr ⟨e, he, h⟩)
      · rw [a3, total_cons_ne k q g c r hg, total_none k q r, List.map_cons, total_cons_eq k _ g c r rfl]
        · congr 2
          refine List.map_congr_left fun x hx => (total_cons_ne k x g c r ?_).symm
          intro e
          have := (List.pairwise_cons.1 a1).1 x hx
          rw [← e] at this
          exact List.lt_irrefl _ this
        · intro e he h
          have := hge e he
          rw [h] at this
          exact this hlt

/-- The counts are those of the different k-grams of the file, one for each, with all their n-grams. -/
theorem counts_total (n k : Nat) (file : List (List Nat × Nat)) (ho : Ordered n file) :
    ∃ qs : List (List Nat), qs.Nodup ∧ (∀ x, x ∈ qs ↔ ∃ e ∈ file, e.1.take k = x) ∧ counts k file = qs.map (fun x => total k x file) := by
  cases file with
  | nil => exact ⟨[], by simp, by simp, rfl⟩
  | cons e r =>
    obtain ⟨g, c⟩ := e
    obtain ⟨h1, h2⟩ := List.pairwise_cons.1 ho.1
    obtain ⟨qs, a1, a2, a3⟩ := runs_total k r (g.take k) c h2 (fun e he => take_mono g e.1 k (List.le_of_lt (h1 e he)))
    refine ⟨g.take k :: qs, a1.imp (fun h e => ?_), fun x => ?_, ?_⟩
    · rw [e] at h
      exact List.lt_irrefl _ h
    · rw [a2 x]
      simp [eq_comm]
    · rw [counts, a3, List.map_cons, total_cons_eq k _ g c r rfl]
      congr 1
      refine List.map_congr_left fun x hx => (total_cons_ne k x g c r ?_).symm
      intro e
      have := (List.pairwise_cons.1 a1).1 x hx
      rw [← e] at this
      exact List.lt_irrefl _ this

/-- Otherwise the last k-gram is missing. -/
theorem stats_short (size n i : Nat) (hi : i + 1 ≤ n) (file : List (List Nat × Nat)) (ho : Ordered n file) (hne : file ≠ [])
    (hf : ¬ Fresh n (i + 1) (List.replicate n 0) file) :
    ∃ s, stats size n i file = some s ∧ s.num + 1 = (counts (i + 1) file).length ∧ ∀ j, j ≤ size → s.fof j = ((counts (i + 1) file).dropLast).count j := by
  obtain ⟨s, e, _, h⟩ := stats_spec size n i hi file ho hne
  obtain ⟨h1, h2⟩ := h hf
  refine ⟨s, e, ?_, h2⟩
  cases file with
  | nil => exact absurd rfl hne
  | cons x r =>
    obtain ⟨g, c⟩ := x
    have := runs_ne (i + 1) r (g.take (i + 1)) c
    have hpos : 0 < (counts (i + 1) ((g, c) :: r)).length := List.length_pos_iff.2 this
    rw [h1, List.length_dropLast]
    omega

theorem novelty_le : ∀ a b : List Nat, a.length = b.length → a ≤ b → novelty a b = none ∨ novelty a b = some a.length := by
  intro a
  induction a with
  | nil =>
    intro b _ _
    cases b <;> exact .inr rfl
  | cons u a ih =>
    intro b hl hle
    cases b with
    | nil => simp at hl
    | cons v b =>
      rw [List.cons_le_cons_iff] at hle
      rw [novelty]
      rcases hle with q | ⟨rfl, q⟩
      · rw [if_neg (by simp; omega), if_pos (by simpa using q)]
        exact .inl rfl
      · rw [if_neg (by simp), if_neg (by simp)]
        rcases ih b (by simpa using hl) q with e | e
        · rw [e]
          exact .inl rfl
        · rw [e]
          exact .inr rfl

theorem loop_ordered (size n i : Nat) (r : List (List Nat × Nat)) : ∀ (g : List Nat) (c pos : Nat) (s : Lv), (∀ e ∈ r, e.1.length = n) → g.length = n →
    loop size n i false g pos s r ≠ none → ((g, c) :: r).Pairwise (fun a b => a.1 < b.1) := by
  induction r with
  | nil => intro g c pos s _ _ _; simp
  | cons e r ih =>
    intro g c pos s hl hg h
    obtain ⟨x, d⟩ := e
    have hx : x.length = n := hl (x, d) (by simp)
    rw [loop] at h
    have hlt : g < x := by
      refine Classical.byContradiction fun hn => ?_
      rcases novelty_le x g (by omega) (List.not_lt.1 hn) with e | e
      · rw [e] at h
        exact h rfl
      · rw [e] at h
        dsimp only at h
        rw [if_pos (by simp [hx])] at h
        exact h rfl
    cases hp : novelty x g with
    | none =>
      rw [hp] at h
      exact absurd rfl h
    | some p =>
      rw [hp] at h
      dsimp only at h
      by_cases q : (decide (p = n) && !false) = true
      · rw [if_pos q] at h
        exact absurd rfl h
      · rw [if_neg q] at h
        have := ih x d p _ (fun e he => hl e (List.mem_cons_of_mem _ he)) hx h
        refine List.pairwise_cons.2 ⟨fun e he => ?_, this⟩
        rcases List.mem_cons.1 he with rfl | he
        · exact hlt
        · exact List.lt_trans hlt ((List.pairwise_cons.1 this).1 e he)

/-- A file that is not in order, or has an n-gram twice, ends with the error, wherever in the file that is. -/
theorem stats_error (size n i : Nat) (file : List (List Nat × Nat)) (hl : ∀ e ∈ file, e.1.length = n)
    (h : ¬ file.Pairwise (fun a b => a.1 < b.1)) : stats size n i file = none := by
  refine Classical.byContradiction fun hn => h ?_
  cases file with
  | nil => simp
  | cons e r =>
    obtain ⟨g, c⟩ := e
    unfold stats at hn
    rw [loop] at hn
    cases hp : novelty g (List.replicate n 0) with
    | none =>
      rw [hp] at hn
      exact absurd rfl hn
    | some p =>
      rw [hp] at hn
      dsimp only at hn
      rw [if_neg (by simp)] at hn
      refine loop_ordered size n i r g c p (level size i true p c ⟨0, fun _ => 0, 0⟩) (fun e he => hl e (List.mem_cons_of_mem _ he)) (hl (g, c) (by simp)) fun q => hn ?_
      rw [q]
      rfl

theorem full_holds (size : Nat) (file : List (List Nat × Nat)) : ∀ s l, Holds size s l → Holds size (full size s file) (l ++ file.map Prod.snd) := by
  induction file with
  | nil => intro s l h; simpa [full] using h
  | cons e r ih =>
    intro s l h
    obtain ⟨g, c⟩ := e
    have := ih _ _ (close_holds (s := { s with cnt := c }) (l := l) h)
    rw [full]
    simpa using this

/-- The n-grams of full length are all counted, the last one too. -/
theorem full_counts (size : Nat) (file : List (List Nat × Nat)) :
    (full size ⟨0, fun _ => 0, 0⟩ file).num = file.length ∧
    ∀ j, j ≤ size → (full size ⟨0, fun _ => 0, 0⟩ file).fof j = (file.filter (fun e => e.2 == j)).length := by
  have h := full_holds size file ⟨0, fun _ => 0, 0⟩ [] ⟨rfl, fun _ _ => rfl⟩
  refine ⟨by simpa using h.1, fun j hj => ?_⟩
  rw [h.2 j hj, List.nil_append, List.count, List.countP_map, List.countP_eq_length_filter]
  rfl

example : stats 5 3 1 [([1, 1, 1], 2), ([1, 2, 3], 1), ([1, 3, 3], 1), ([1, 2, 4], 1)] = none :=
  stats_error 5 3 1 _ (by decide +kernel) (by decide +kernel)

example : (full 3 ⟨0, fun _ => 0, 0⟩ [([1, 1, 1], 2), ([1, 1, 3], 7), ([1, 2, 3], 2)]).fof 2 = 2 := by decide +kernel

theorem gt_succ (l : List Nat) (j : Nat) : (l.filter (fun c => decide (j < c))).length = (l.filter (fun c => decide (j + 1 < c))).length + l.count (j + 1) := by
  induction l with
  | nil => rfl
  | cons a l ih =>
    rw [List.count_cons, List.filter_cons, List.filter_cons]
    rcases Nat.lt_trichotomy a (j + 1) with h | h | h
    · have e1 : ¬ j < a := by omega
      have e2 : ¬ j + 1 < a := by omega
      have e3 : (a == j + 1) = false := by
        simp
        omega
      simp only [e1, e2, e3, decide_false, Bool.false_eq_true, if_false]
      omega
    · subst h
      have e1 : j < j + 1 := by omega
      have e2 : ¬ j + 1 < j + 1 := by omega
      simp only [e1, e2, decide_false, decide_true, Bool.false_eq_true, if_false, if_true, List.length_cons, beq_self_eq_true]
      omega
    · have e1 : j < a := by omega
      have e3 : (a == j + 1) = false := by
        simp
        omega
      simp only [e1, h, e3, decide_true, Bool.false_eq_true, if_false, if_true, List.length_cons]
      omega

/-- The column "> N times" has the number of k-grams that occur more than `j` times, if what is kept is right. -/
theorem more_counts (size : Nat) (s : Lv) (l : List Nat) (hn : s.num = l.length) (hf : ∀ j, j ≤ size → s.fof j = l.count j) (h1 : ∀ c ∈ l, 1 ≤ c)
    (j : Nat) (hj : j ≤ size) : more s j = ((l.filter (fun c => decide (j < c))).length : Nat) := by
  induction j with
  | zero =>
    have : l.filter (fun c => decide (0 < c)) = l := List.filter_eq_self.2 (fun c hc => decide_eq_true (h1 c hc))
    rw [more, this, hn]
  | succ j ih =>
    rw [more, ih (by omega), hf (j + 1) hj, gt_succ l j]
    omega

example : more ⟨3, fun j => [3, 1, 4].count j, 0⟩ 3 = 1 :=
  more_counts 5 ⟨3, fun j => [3, 1, 4].count j, 0⟩ [3, 1, 4] rfl (fun _ _ => rfl) (by decide) 3 (by decide)

example : counts 2 [([1, 1, 1], 2), ([1, 1, 3], 1), ([1, 2, 1], 4), ([2, 1, 1], 1)] = [3, 4, 1] ∧
    (stats 5 3 1 [([1, 1, 1], 2), ([1, 1, 3], 1), ([1, 2, 1], 4), ([2, 1, 1], 1)]).map Lv.num = some 3 ∧
    (stats 5 3 1 [([1, 1, 1], 2), ([1, 1, 3], 1)]).map Lv.num = some 0 := by decide +kernel

example : Ordered 3 [([1, 1, 1], 2), ([1, 1, 3], 1), ([1, 2, 1], 4)] ∧ Fresh 3 2 [0, 0, 0] [([1, 1, 1], 2), ([1, 1, 3], 1), ([1, 2, 1], 4)] := by
  refine ⟨⟨by decide +kernel, by decide +kernel⟩, ?_⟩
  simp [Fresh]

example : total 2 [1, 1] [([1, 1, 1], 2), ([1, 1, 3], 1), ([1, 2, 1], 4)] = 3 := by decide +kernel

end Verif.Fof
