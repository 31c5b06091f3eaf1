import Verif.Weigh.Spec
import Verif.Net.Props
/-!
# Lemmas on the distances
-/
set_option autoImplicit false
namespace Verif.Weigh
open Verif.Net

variable {W : Type}

theorem minMax_abs (a b c d : Int) :
    ((a - c).natAbs : Int) + ((b - d).natAbs : Int) = (b - a) + (d - c) - 2 * (min b d - max a c) := by omega

theorem time_below (F : Funcs W) (t1 t2 : W → Int) (hd : F.dist = wwdTime F.isNull F.equal t1 t2 (fun w => t2 w - t1 w)) (m : Int)
    (hm : 1 ≤ m) (hw : ∀ w, t2 w - t1 w ≤ m) (n : Nat) (hn : m * n < bigEnd) : F.Below m n := by
  refine ⟨by omega, ?_, hn⟩
  intro x
  rw [hd]
  cases x with
  | none => simp only [wwdTime]; omega
  | some x =>
    have := hw x
    simp only [wwdTime]
    split <;> omega

theorem weight_below (F : Funcs W) (weight : W → Int) (hd : F.dist = wwdWeight F.isNull F.equal weight) (m : Int)
    (hm : 1 ≤ m) (hw : ∀ w, weight w ≤ m) (n : Nat) (hn : m * n < bigEnd) : F.Below m n := by
  refine ⟨by omega, ?_, hn⟩
  intro x
  rw [hd]
  cases x with
  | none => simp only [wwdWeight]; omega
  | some x =>
    have := hw x
    simp only [wwdWeight]
    split <;> omega

theorem rover_below (F : Funcs W) (sync : W → Bool) (same : W → W → Bool)
    (hd : F.dist = wwdRover F.isNull F.optDel sync F.equal same) (n : Nat) (hn : n < 3333) : F.Below 300000 n := by
  refine ⟨by omega, ?_, ?_⟩
  · intro x
    rw [hd]
    cases x with
    | none => simp only [wwdRover]; omega
    | some x =>
      simp only [wwdRover]
      constructor <;> (repeat' split) <;> omega
  · have : bigEnd = 999999900 := rfl
    omega

/-- In a cheapest alignment no pair is dearer than leaving out both words. -/
theorem pair_le (F : Funcs W) (na nb : Net W) (s : List (Step W)) (ha : Aligns na nb s)
    (hopt : ∀ s', Aligns na nb s' → costOf F s ≤ costOf F s') (x y : W) (hm : Step.sub x y ∈ s) :
    F.dist (some x) (some y) ≤ F.dist (some x) none + F.dist none (some y) := by
  obtain ⟨s1, s2, e⟩ := List.append_of_mem hm
  subst e
  have hal : Aligns na nb (s1 ++ [Step.del x, Step.ins y] ++ s2) := by
    obtain ⟨h1, h2⟩ := ha
    refine ⟨?_, ?_⟩
    · have : lefts (s1 ++ [Step.del x, Step.ins y] ++ s2) = lefts (s1 ++ Step.sub x y :: s2) := by
        simp [lefts]
      rw [this]; exact h1
    · have : rights (s1 ++ [Step.del x, Step.ins y] ++ s2) = rights (s1 ++ Step.sub x y :: s2) := by
        simp [rights]
      rw [this]; exact h2
  have hle := hopt _ hal
  have e1 : costOf F (s1 ++ Step.sub x y :: s2) = costOf F s1 + F.dist (some x) (some y) + costOf F s2 := by
    simp [costOf, Step.cost, Int.add_assoc]
  have e2 : costOf F (s1 ++ [Step.del x, Step.ins y] ++ s2) =
      costOf F s1 + (F.dist (some x) none + F.dist none (some y)) + costOf F s2 := by
    simp [costOf, Step.cost, Int.add_assoc]
  rw [e1, e2] at hle
  omega

/-- Without null words the cost by times is the summed duration of all words less the merit. -/
theorem time_cost (F : Funcs W) (t1 t2 : W → Int) (hd : F.dist = wwdTime F.isNull F.equal t1 t2 (fun w => t2 w - t1 w))
    (s : List (Step W)) (hl : ∀ w ∈ lefts s, F.isNull w = false) (hr : ∀ w ∈ rights s, F.isNull w = false) :
    costOf F s = ((lefts s).map fun w => t2 w - t1 w).sum + ((rights s).map fun w => t2 w - t1 w).sum - merit F t1 t2 s := by
  induction s with
  | nil => rfl
  | cons st s ih =>
    have e : costOf F (st :: s) = st.cost F + costOf F s := by simp [costOf]
    rw [e]
    cases st with
    | sub x y =>
      have hl' : lefts (Step.sub x y :: s) = x :: lefts s := by simp [lefts]
      have hr' : rights (Step.sub x y :: s) = y :: rights s := by simp [rights]
      rw [hl'] at hl ⊢
      rw [hr'] at hr ⊢
      rw [ih (fun w hw => hl w (List.mem_cons_of_mem _ hw)) (fun w hw => hr w (List.mem_cons_of_mem _ hw))]
      have hmm := minMax_abs (t1 x) (t2 x) (t1 y) (t2 y)
      simp only [Step.cost, hd, wwdTime, merit, overlap, List.map_cons, List.sum_cons]
      omega
    | del x =>
      have hl' : lefts (Step.del x :: s) = x :: lefts s := by simp [lefts]
      have hr' : rights (Step.del x :: s) = rights s := by simp [rights]
      rw [hl'] at hl ⊢
      rw [hr'] at hr ⊢
      rw [ih (fun w hw => hl w (List.mem_cons_of_mem _ hw)) hr]
      simp only [Step.cost, hd, wwdTime, merit, List.map_cons, List.sum_cons, hl x (by simp), Bool.false_eq_true, if_false]
      omega
    | ins x =>
      have hl' : lefts (Step.ins x :: s) = lefts s := by simp [lefts]
      have hr' : rights (Step.ins x :: s) = x :: rights s := by simp [rights]
      rw [hl'] at hl ⊢
      rw [hr'] at hr ⊢
      rw [ih hl (fun w hw => hr w (List.mem_cons_of_mem _ hw))]
      simp only [Step.cost, hd, wwdTime, merit, List.map_cons, List.sum_cons, hr x (by simp), Bool.false_eq_true, if_false]
      omega

theorem errWeight_append (weight : W → Int) (p q : List (Entry W)) :
    errWeight weight (p ++ q) = errWeight weight p + errWeight weight q := by simp [errWeight]

/-- The cost by weights is the weight of the errors reported, and one thousandth for every null word on its own. -/
theorem weight_cost (F : Funcs W) (weight : W → Int) (hd : F.dist = wwdWeight F.isNull F.equal weight)
    (h0 : ∀ x, F.isNull x = true ∨ F.optDel x = true → weight x = 0) (incl : Bool) (s : List (Step W)) :
    costOf F s = errWeight weight (s.flatMap (reported F incl)) + nullsAlone F s := by
  induction s with
  | nil => rfl
  | cons st s ih =>
    have e : costOf F (st :: s) = st.cost F + costOf F s := by simp [costOf]
    rw [e, ih, List.flatMap_cons, errWeight_append]
    have en : (nullsAlone F (st :: s) : Int) = nullsAlone F [st] + nullsAlone F s := by
      rw [show st :: s = [st] ++ s from rfl]
      simp only [nullsAlone, List.countP_append]
      omega
    rw [en]
    have : st.cost F = errWeight weight (reported F incl st) + nullsAlone F [st] := by
      cases st with
      | sub x y =>
        have hx := h0 x
        have hy := h0 y
        simp only [Step.cost, hd, wwdWeight, reported, nullsAlone, List.countP_singleton]
        by_cases hc : incl = false ∧ F.isNull x = true ∧ F.isNull y = true
        · rw [if_pos hc, hx (Or.inl hc.2.1), hy (Or.inl hc.2.2)]
          simp [errWeight]
        · rw [if_neg hc]
          cases hq : F.equal x y <;> simp [errWeight]
      | del x =>
        have hx := h0 x
        simp only [Step.cost, hd, wwdWeight, reported, nullsAlone, List.countP_singleton]
        by_cases hn : F.isNull x = true
        · have := hx (Or.inl hn)
          cases incl <;> by_cases ho : F.optDel x = true <;> simp [errWeight, this, hn, ho]
        · by_cases ho : F.optDel x = true
          · have := hx (Or.inr ho)
            simp [errWeight, this, hn, ho]
          · simp [errWeight, hn, ho]
      | ins x =>
        have hx := h0 x
        simp only [Step.cost, hd, wwdWeight, reported, nullsAlone, List.countP_singleton]
        by_cases hn : F.isNull x = true
        · have := hx (Or.inl hn)
          cases incl <;> by_cases ho : F.optDel x = true <;> simp [errWeight, this, hn, ho]
        · by_cases ho : F.optDel x = true
          · have := hx (Or.inr ho)
            simp [errWeight, this, hn, ho]
          · simp [errWeight, hn, ho]
    omega

/-- Every entry of a report can be scored. -/
theorem report_scores (F : Funcs W) (incl : Bool) (s : List (Step W)) (p : Entry W) (hp : p ∈ s.flatMap (reported F incl)) :
    ∃ q, asScore p = some q := by
  obtain ⟨st, _, h⟩ := List.mem_flatMap.1 hp
  cases st with
  | sub x y =>
    unfold reported at h
    simp only at h
    split at h
    · cases h
    · have := List.mem_singleton.1 h
      subst this
      cases F.equal x y
      · exact ⟨_, rfl⟩
      · exact ⟨_, rfl⟩
  | del x =>
    unfold reported at h
    simp only at h
    split at h
    · cases h
    · split at h
      · have := List.mem_singleton.1 h; subst this; exact ⟨_, rfl⟩
      · have := List.mem_singleton.1 h; subst this; exact ⟨_, rfl⟩
  | ins x =>
    unfold reported at h
    simp only at h
    split at h
    · cases h
    · split at h
      · have := List.mem_singleton.1 h; subst this; exact ⟨_, rfl⟩
      · have := List.mem_singleton.1 h; subst this; exact ⟨_, rfl⟩

theorem mapM_some {α β : Type} (f : α → Option β) (l : List α) (h : ∀ x ∈ l, ∃ y, f x = some y) : ∃ ys, l.mapM f = some ys := by
  induction l with
  | nil => exact ⟨[], rfl⟩
  | cons x l ih =>
    obtain ⟨y, hy⟩ := h x (by simp)
    obtain ⟨ys, hys⟩ := ih (fun z hz => h z (by simp [hz]))
    exact ⟨y :: ys, by simp [List.mapM_cons, hy, hys]⟩

/-- The part of the report with the given verdict. -/
def only (k : Eval) (path : List (Entry W)) : List (Entry W) := path.filter fun p => p.eval = k

theorem score_fold (weight : W → Int) (path : List (Entry W)) : ∀ (es : List (Sgml.Entry W)) (s : Score.Grp W × Nat),
    path.mapM asScore = some es →
    (es.foldl (Score.addEntry weight) s).1.wSub = s.1.wSub + errWeight weight (only .sub path) ∧
    (es.foldl (Score.addEntry weight) s).1.wIns = s.1.wIns + errWeight weight (only .ins path) ∧
    (es.foldl (Score.addEntry weight) s).1.wDel = s.1.wDel + errWeight weight (only .del path) := by
  induction path with
  | nil =>
    intro es s h
    simp at h
    subst h
    simp [errWeight, only]
  | cons p path ih =>
    intro es s h
    rw [List.mapM_cons] at h
    cases hp : asScore p with
    | none => simp [hp] at h
    | some q =>
      cases hq : path.mapM asScore with
      | none => simp [hp, hq] at h
      | some qs =>
        simp [hp, hq] at h
        subst h
        rw [List.foldl_cons]
        obtain ⟨i1, i2, i3⟩ := ih qs (Score.addEntry weight s q) hq
        rw [i1, i2, i3]
        have hf : ∀ k, errWeight weight (only k (p :: path)) = errWeight weight (only k [p]) + errWeight weight (only k path) := by
          intro k
          rw [← errWeight_append]
          congr 1
          simp only [only]
          rw [← List.filter_append]
          rfl
        rw [hf, hf, hf]
        obtain ⟨a, b, ev⟩ := p
        cases ev <;> cases a <;> cases b <;> simp [asScore] at hp <;> subst hp <;> simp [Score.addEntry, errWeight, only] <;> omega

theorem err_split (weight : W → Int) (path : List (Entry W)) :
    errWeight weight (only .sub path) + errWeight weight (only .ins path) + errWeight weight (only .del path) = errWeight weight path := by
  induction path with
  | nil => rfl
  | cons p path ih =>
    have hf : ∀ k, errWeight weight (only k (p :: path)) = errWeight weight (only k [p]) + errWeight weight (only k path) := by
      intro k
      rw [← errWeight_append]
      congr 1
      simp only [only]
      rw [← List.filter_append]
      rfl
    have hp : errWeight weight (p :: path) = errWeight weight [p] + errWeight weight path := errWeight_append weight [p] path
    rw [hf, hf, hf, hp, ← ih]
    obtain ⟨a, b, ev⟩ := p
    cases ev <;> simp [only, errWeight] <;> omega

end Verif.Weigh
