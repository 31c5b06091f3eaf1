import Verif.Nway.Model
import Verif.Nway.Spec
/-! The iterators of `PreviousCoordinatesGeneric` visit the product of the lists. -/
set_option autoImplicit false
namespace Verif.Nway
open Verif.AscGraph

/-- All positions visited, the starting ones first. -/
def visits : List Nat → List (List Nat)
  | [] => [[]]
  | n :: ns =>
    match visits ns with
    | [] => []
    | r0 :: rs => (List.range n).map (fun k => k :: r0) ++
        rs.flatMap (fun r => (n :: r) :: (List.range n).map (fun k => k :: r))

/-- `l` is what the iterators go through from its first element until they overflow. -/
def Runs (ns : List Nat) : List (List Nat) → Prop
  | [] => False
  | [a] => (advance ns a).2 = true
  | a :: b :: l => advance ns a = (b, false) ∧ Runs ns (b :: l)

theorem block_runs (n : Nat) (ns r : List Nat) (L : List (List Nat))
    (hlast : (L = [] ∧ (advance ns r).2 = true) ∨
      ∃ b L', L = b :: L' ∧ (n :: (advance ns r).1 = b ∧ (advance ns r).2 = false) ∧ Runs (n :: ns) L) :
    ∀ (d k : Nat), k + d + 1 = n → Runs (n :: ns) ((List.range' k (d + 1)).map (fun k => k :: r) ++ L)
  | 0, k, h => by
    have hk : ¬ k = n := by omega
    have hk1 : k + 1 = n := by omega
    have e : advance (n :: ns) (k :: r) = (n :: (advance ns r).1, (advance ns r).2) := by
      simp only [advance, if_neg hk, hk1, if_true]
    simp only [List.range', List.map_cons, List.map_nil, List.cons_append, List.nil_append]
    rcases hlast with ⟨rfl, h2⟩ | ⟨b, L', rfl, ⟨h1, h2⟩, h3⟩
    · simp only [Runs, e, h2]
    · refine ⟨?_, h3⟩
      rw [e, h1, h2]
  | d + 1, k, h => by
    have ih := block_runs n ns r L hlast d (k + 1) (by omega)
    have hk : ¬ k = n := by omega
    have hk1 : ¬ k + 1 = n := by omega
    simp only [List.range', List.map_cons, List.cons_append] at ih ⊢
    refine ⟨?_, ih⟩
    simp only [advance, if_neg hk, if_neg hk1]

theorem blocks_run (n : Nat) (hn : 0 < n) (ns : List Nat) : ∀ (rs : List (List Nat)) (r : List Nat), Runs ns (r :: rs) →
    Runs (n :: ns) ((List.range n).map (fun k => k :: r) ++
      rs.flatMap (fun r => (n :: r) :: (List.range n).map (fun k => k :: r)))
  | [], r, h => by
    rw [List.range_eq_range']
    obtain ⟨d, rfl⟩ : ∃ d, n = d + 1 := ⟨n - 1, by omega⟩
    exact block_runs (d + 1) ns r _ (Or.inl ⟨rfl, h⟩) d 0 (by omega)
  | r' :: rs, r, h => by
    have ih := blocks_run n hn ns rs r' h.2
    obtain ⟨d, rfl⟩ : ∃ d, n = d + 1 := ⟨n - 1, by omega⟩
    have hb : Runs ((d + 1) :: ns) (((d + 1) :: r') :: ((List.range (d + 1)).map (fun k => k :: r') ++
        rs.flatMap (fun r => ((d + 1) :: r) :: (List.range (d + 1)).map (fun k => k :: r)))) := by
      have e : advance ((d + 1) :: ns) ((d + 1) :: r') = (0 :: r', false) := by
        simp only [advance, if_true]
        rw [if_neg (by omega)]
      rw [List.range_succ_eq_map] at ih ⊢
      simp only [List.map_cons, List.cons_append] at ih ⊢
      exact ⟨e, ih⟩
    have e0 := block_runs (d + 1) ns r _ (Or.inr ⟨_, _, rfl, ⟨by rw [h.1], by rw [h.1]⟩, hb⟩) d 0 (by omega)
    rw [List.flatMap_cons]
    rw [← List.range_eq_range'] at e0
    exact e0

theorem visits_runs : ∀ (ns : List Nat), (∀ n ∈ ns, 0 < n) → Runs ns (visits ns)
  | [], _ => by simp [visits, Runs, advance]
  | n :: ns, h => by
    have ih := visits_runs ns (fun m hm => h m (by simp [hm]))
    rw [visits]
    cases hv : visits ns with
    | nil => rw [hv] at ih; exact ih
    | cons r0 rs =>
      rw [hv] at ih
      exact blocks_run n (h n (by simp)) ns rs r0 ih

theorem visits_head : ∀ (ns : List Nat), (∀ n ∈ ns, 0 < n) → ∃ L, visits ns = ns.map (fun _ => 0) :: L
  | [], _ => ⟨[], rfl⟩
  | n :: ns, h => by
    obtain ⟨L, e⟩ := visits_head ns (fun m hm => h m (by simp [hm]))
    have hn := h n (by simp)
    obtain ⟨d, rfl⟩ : ∃ d, n = d + 1 := ⟨n - 1, by omega⟩
    rw [visits, e]
    simp only [List.range_succ_eq_map, List.map_cons, List.cons_append]
    exact ⟨_, rfl⟩

theorem visits_length : ∀ (ns : List Nat), (visits ns).length ≤ (ns.map (fun n => n + 1)).foldr (· * ·) 1
  | [] => by simp [visits]
  | n :: ns => by
    have ih := visits_length ns
    rw [visits]
    cases hv : visits ns with
    | nil => simp
    | cons r0 rs =>
      rw [hv] at ih
      simp only [List.map_cons, List.foldr_cons, List.length_append, List.length_map, List.length_range,
        List.length_flatMap, List.length_cons]
      have e : (rs.map (fun r : List Nat => n + 1)).sum = rs.length * (n + 1) := by
        clear hv ih
        induction rs with
        | nil => simp
        | cons a l ih => simp only [List.map_cons, List.sum_cons, ih, List.length_cons, Nat.succ_mul]; omega
      rw [e]
      rw [List.length_cons] at ih
      calc n + rs.length * (n + 1) ≤ (n + 1) * (rs.length + 1) := by
            rw [Nat.mul_comm rs.length (n + 1), Nat.mul_add (n + 1)]; omega
        _ ≤ _ := Nat.mul_le_mul_left _ ih

theorem odometer_runs (ls : List (List Nat)) : ∀ (L : List (List Nat)) (a : List Nat) (fuel : Nat), L.length ≤ fuel →
    Runs (ls.map List.length) (a :: L) → odometer ls fuel a = L.filterMap (pick ls)
  | [], a, fuel, _, h => by
    cases fuel with
    | zero => rfl
    | succ f =>
      rw [odometer]
      have h' : (advance (ls.map List.length) a).2 = true := h
      simp only [h', if_true, List.filterMap_nil]
  | b :: L, a, fuel, hf, h => by
    obtain ⟨f, rfl⟩ : ∃ f, fuel = f + 1 := ⟨fuel - 1, by simp at hf; omega⟩
    have ih := odometer_runs ls L b f (by simpa using hf) h.2
    rw [odometer]
    simp only [h.1]
    rw [List.filterMap_cons]
    cases hp : pick ls b with
    | none => simpa using ih
    | some c => simpa using ih

theorem pick_block (xs : List Nat) (ls : List (List Nat)) (r : List Nat) :
    ((List.range xs.length).map (fun k => k :: r)).filterMap (pick (xs :: ls)) =
      match pick ls r with | none => [] | some c => xs.map (fun x => x :: c) := by
  rw [List.filterMap_map]
  cases hp : pick ls r with
  | none =>
    simp only [List.filterMap_eq_nil_iff, Function.comp]
    intro k _
    simp only [pick, hp]
    cases xs[k]? <;> rfl
  | some c =>
    have e : ∀ k ∈ List.range xs.length, (pick (xs :: ls) ∘ fun k => k :: r) k = (xs[k]?).map (fun x => x :: c) := by
      intro k _
      simp only [Function.comp, pick, hp]
      cases xs[k]? <;> rfl
    simp only
    have e2 : (List.range xs.length).filterMap (pick (xs :: ls) ∘ fun k => k :: r) =
        (List.range xs.length).filterMap (fun k => (xs[k]?).map (fun x => x :: c)) := by
      generalize List.range xs.length = l at e
      induction l with
      | nil => rfl
      | cons a l ih => rw [List.filterMap_cons, List.filterMap_cons, e a (by simp), ih (fun k hk => e k (by simp [hk]))]
    rw [e2]
    clear e e2 hp
    induction xs with
    | nil => rfl
    | cons x xs ih =>
      rw [List.length_cons, List.range_succ_eq_map, List.filterMap_cons]
      simp only [List.getElem?_cons_zero, Option.map_some, List.map_cons]
      rw [List.filterMap_map]
      congr 1

theorem visits_grid : ∀ (ls : List (List Nat)), (visits (ls.map List.length)).filterMap (pick ls) = grid ls
  | [] => by simp [visits, pick, grid]
  | xs :: ls => by
    have ih := visits_grid ls
    rw [List.map_cons, visits, grid, ← ih]
    cases visits (ls.map List.length) with
    | nil => rfl
    | cons r0 rs =>
      have hone : ∀ r : List Nat, (((xs.length :: r) :: (List.range xs.length).map (fun k => k :: r))).filterMap
          (pick (xs :: ls)) = match pick ls r with | none => [] | some c => xs.map (fun x => x :: c) := by
        intro r
        rw [List.filterMap_cons]
        have e : pick (xs :: ls) (xs.length :: r) = none := by simp [pick]
        rw [e]
        exact pick_block xs ls r
      simp only [List.filterMap_append, pick_block]
      rw [List.filterMap_cons]
      have hrs : (rs.flatMap (fun r => (xs.length :: r) :: (List.range xs.length).map (fun k => k :: r))).filterMap
          (pick (xs :: ls)) = (rs.filterMap (pick ls)).flatMap (fun r => xs.map (fun x => x :: r)) := by
        induction rs with
        | nil => rfl
        | cons r rs ih =>
          rw [List.flatMap_cons, List.filterMap_append, hone, ih, List.filterMap_cons]
          cases pick ls r with
          | none => rfl
          | some c => simp
      rw [hrs]
      cases pick ls r0 with
      | none => rfl
      | some c => simp

/-- The coordinates found are all picks but the first one. -/
theorem odometer_grid (ls : List (List Nat)) (h : ∀ l ∈ ls, l ≠ []) :
    ∃ hd, grid ls = hd :: odometer ls (rounds ls) (ls.map (fun _ => 0)) ∧ hd = ls.map (fun l => l.headD 0) := by
  have hpos : ∀ n ∈ ls.map List.length, 0 < n := by
    intro n hn
    obtain ⟨l, hl, rfl⟩ := List.mem_map.1 hn
    cases l with
    | nil => exact absurd rfl (h _ hl)
    | cons a l => simp
  obtain ⟨L, e⟩ := visits_head (ls.map List.length) hpos
  have e0 : (ls.map List.length).map (fun _ => 0) = ls.map (fun _ => 0) := by rw [List.map_map]; rfl
  rw [e0] at e
  have hr := visits_runs (ls.map List.length) hpos
  have hg := visits_grid ls
  have hlen := visits_length (ls.map List.length)
  rw [e] at hr hg hlen
  have hl : L.length ≤ rounds ls := by
    have : rounds ls = ((ls.map List.length).map (fun n => n + 1)).foldr (· * ·) 1 := by
      unfold rounds; rw [List.map_map]; rfl
    rw [this]; simp only [List.length_cons] at hlen; omega
  rw [odometer_runs ls L _ (rounds ls) hl hr]
  have hpick : pick ls (ls.map (fun _ => 0)) = some (ls.map (fun l => l.headD 0)) := by
    clear hg hr hl hlen e e0 hpos
    induction ls with
    | nil => rfl
    | cons a ls ih =>
      have ha := h a (by simp)
      cases a with
      | nil => exact absurd rfl ha
      | cons x a =>
        simp only [List.map_cons, pick, ih (fun l hl => h l (by simp [hl]))]
        rfl
  rw [List.filterMap_cons, hpick] at hg
  exact ⟨_, hg.symm, rfl⟩

/-- Running through all dimensions is the same as the last iterator being at its end (the test of the outer loop). -/
theorem overflow_iff_last : ∀ (ns ks : List Nat), ns ≠ [] → ks.length = ns.length →
    ks.getLastD 0 < ns.getLastD 0 →
    ((advance ns ks).2 = true ↔ (advance ns ks).1.getLastD 0 = ns.getLastD 0)
  | [], _, h, _, _ => absurd rfl h
  | _ :: _, [], _, h, _ => by simp at h
  | [n], [k], _, _, h => by
    have h : k < n := h
    have hk : ¬ k = n := by omega
    simp only [advance, if_neg hk]
    by_cases e : k + 1 = n
    · simp [e]
    · simp [e]
  | [_], _ :: _ :: _, _, h, _ => by simp at h
  | _ :: _ :: _, [_], _, h, _ => by simp at h
  | n :: m :: ns, k :: k2 :: ks, _, hl, h => by
    have hl' : (k2 :: ks).length = (m :: ns).length := by simpa using hl
    have h' : (k2 :: ks).getLastD 0 < (m :: ns).getLastD 0 := by simpa using h
    have ih := overflow_iff_last (m :: ns) (k2 :: ks) (by simp) hl' h'
    have hne : (advance (m :: ns) (k2 :: ks)).1 ≠ [] := by
      rw [advance]
      generalize (if k2 = m then 0 else k2 + 1) = k'
      split <;> simp
    have key : ∀ x : Nat, ∀ l : List Nat, l ≠ [] → (x :: l).getLastD 0 = l.getLastD 0 := by
      intro x l hl
      cases l with
      | nil => exact absurd rfl hl
      | cons a l => simp
    rw [advance]
    generalize (if k = n then 0 else k + 1) = k'
    split
    · rw [key _ _ hne, key n (m :: ns) (by simp)]
      exact ih
    · rw [key _ (k2 :: ks) (by simp), key n (m :: ns) (by simp)]
      constructor
      · intro h; exact absurd h (by simp)
      · intro h; omega

theorem mem_grid : ∀ (ls : List (List Nat)) (c : Coord), c ∈ grid ls ↔
    c.length = ls.length ∧ ∀ (i : Nat) (xs : List Nat), ls[i]? = some xs → c.getD i 0 ∈ xs
  | [], c => by
    simp only [grid, List.mem_singleton]
    constructor
    · rintro rfl; simp
    · intro h; exact List.length_eq_zero_iff.1 h.1
  | xs :: ls, c => by
    simp only [grid, List.mem_flatMap, List.mem_map]
    constructor
    · rintro ⟨r, hr, x, hx, rfl⟩
      obtain ⟨h1, h2⟩ := (mem_grid ls r).1 hr
      refine ⟨by simp [h1], ?_⟩
      intro i ys hi
      cases i with
      | zero => simp at hi; subst hi; simpa using hx
      | succ i => simp at hi; simpa using h2 i ys hi
    · rintro ⟨h1, h2⟩
      cases c with
      | nil => simp at h1
      | cons x r =>
        refine ⟨r, (mem_grid ls r).2 ⟨by simpa using h1, ?_⟩, x, by simpa using h2 0 xs (by simp), rfl⟩
        intro i ys hi
        simpa using h2 (i + 1) ys (by simpa using hi)

/-- The first pick does not come again if no list repeats its first element. -/
theorem head_once : ∀ (ls : List (List Nat)), (∀ l ∈ ls, ∃ a t, l = a :: t ∧ a ∉ t) →
    ∃ E, grid ls = ls.map (fun l => l.headD 0) :: E ∧ ls.map (fun l => l.headD 0) ∉ E
  | [], _ => ⟨[], rfl, by simp⟩
  | xs :: ls, h => by
    obtain ⟨E, e, hE⟩ := head_once ls (fun l hl => h l (by simp [hl]))
    obtain ⟨a, t, rfl, ha⟩ := h xs (by simp)
    refine ⟨t.map (fun x => x :: ls.map (fun l => l.headD 0)) ++ E.flatMap (fun r => (a :: t).map (fun x => x :: r)), ?_, ?_⟩
    · rw [grid, e]; simp
    · intro hm
      rw [List.map_cons, List.mem_append] at hm
      rcases hm with hm | hm
      · obtain ⟨x, hx, he⟩ := List.mem_map.1 hm
        injection he with h1 h2
        simp only [List.headD_cons] at h1
        exact ha (h1 ▸ hx)
      · obtain ⟨r, hr, hm⟩ := List.mem_flatMap.1 hm
        obtain ⟨x, hx, he⟩ := List.mem_map.1 hm
        injection he with h1 h2
        exact hE (h2 ▸ hr)

end Verif.Nway
