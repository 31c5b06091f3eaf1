import Verif.Anovar.Squares
/-!
# Places and the counting of ties
-/
set_option autoImplicit false
namespace Verif.Anovar
open Verif.Stats

theorem below_lt (l : List Rat) (x y : Rat) (h : x < y) : below l x + same l x ≤ below l y := by
  unfold below same
  induction l with
  | nil => simp
  | cons b l ih =>
    simp only [List.countP_cons, decide_eq_true_eq]
    by_cases c1 : b < x
    · have c2 : ¬ b = x := by grind
      have c3 : b < y := by grind
      simp only [c1, c2, c3, if_true, if_false]; omega
    · by_cases c2 : b = x
      · have c3 : b < y := by grind
        simp only [c1, c2, c3, if_true, if_false]
        rw [c2] at c3
        simp only [c3, if_true]
        have : ¬ x < x := by grind
        simp only [this, if_false]
        omega
      · simp only [c1, c2, if_false]; omega

theorem same_pos (l : List Rat) (x : Rat) (h : x ∈ l) : 0 < same l x := by
  unfold same
  rw [List.countP_pos_iff]
  exact ⟨x, h, by simp⟩

theorem place_lt (l : List Rat) (x y : Rat) (hy : y ∈ l) (h : x < y) : place false l x < place false l y := by
  have h1 := Rat.natCast_le_natCast.mpr (below_lt l x y h)
  have h2 := Rat.natCast_lt_natCast.mpr (same_pos l y hy)
  have h3 : (0 : Rat) ≤ (same l x : Rat) := Rat.natCast_nonneg
  have h4 : ((0 : Nat) : Rat) = 0 := rfl
  rw [Rat.natCast_add] at h1
  unfold place averagePlace
  simp only [Bool.false_eq_true, if_false]
  grind

theorem place_inj (l : List Rat) (x y : Rat) (hx : x ∈ l) (hy : y ∈ l) (h : place false l x = place false l y) : x = y := by
  by_cases c : x < y
  · have := place_lt l x y hy c; grind
  · by_cases c' : y < x
    · have := place_lt l y x hx c'; grind
    · grind

theorem place_pos (l : List Rat) (x : Rat) : 0 < place false l x := by
  have h1 : (0 : Rat) ≤ (same l x : Rat) := Rat.natCast_nonneg
  have h2 : (0 : Rat) ≤ (below l x : Rat) := Rat.natCast_nonneg
  unfold place averagePlace
  simp only [Bool.false_eq_true, if_false]
  grind

theorem same_places (l : List Rat) (x : Rat) (hx : x ∈ l) : same (places false l) (place false l x) = same l x := by
  unfold same places
  rw [List.countP_map]
  apply List.countP_congr
  intro y hy
  simp only [Function.comp_apply, decide_eq_true_eq]
  exact ⟨fun h => place_inj l y x hy hx h, fun h => by rw [h]⟩

theorem tied_places (l : List Rat) : tied (places false l) = tied l := by
  unfold tied
  show ((places false l).map _).sum = sumOf _ l
  unfold sumOf
  rw [show places false l = l.map (place false l) from rfl, List.map_map, ← show places false l = l.map (place false l) from rfl]
  congr 1
  apply List.map_congr_left
  intro x hx
  simp only [Function.comp_apply]
  rw [same_places l x hx]

/-- What holds of the places of a row. -/
structure Placed (n : Nat) (r : List Rat) : Prop where
  len : r.length = n
  sum : r.sum = (n : Rat) * ((n : Rat) + 1) / 2
  sq : 12 * sumOf (fun x => x * x) r = 2 * (n : Rat) * ((n : Rat) + 1) * (2 * (n : Rat) + 1) - tied r
  pos : ∀ x ∈ r, x ≠ 0

theorem placed_false (l : List Rat) : Placed l.length (places false l) where
  len := by unfold places; simp
  sum := by
    rw [← sum_ranks l]
    rfl
  sq := by
    rw [tied_places, ← squares l.length l rfl]
    unfold sumOf places
    rw [List.map_map]
    rfl
  pos := by
    intro x hx
    obtain ⟨y, _, e⟩ := List.mem_map.1 hx
    have := place_pos l y
    grind

theorem above_neg (l : List Rat) (x : Rat) : below (l.map (fun y => -y)) (-x) = above l x := by
  unfold below above
  rw [List.countP_map]
  apply List.countP_congr
  intro y _
  simp only [Function.comp_apply, decide_eq_true_eq]
  grind

theorem same_neg (l : List Rat) (x : Rat) : same (l.map (fun y => -y)) (-x) = same l x := by
  unfold same
  rw [List.countP_map]
  apply List.countP_congr
  intro y _
  simp only [Function.comp_apply, decide_eq_true_eq]
  grind

theorem places_true (l : List Rat) : places true l = places false (l.map (fun y => -y)) := by
  unfold places
  rw [List.map_map]
  apply List.map_congr_left
  intro x _
  simp only [Function.comp_apply, place, if_true, Bool.false_eq_true, if_false]
  rw [above_neg, same_neg]

theorem placed (dec : Bool) (l : List Rat) : Placed l.length (places dec l) := by
  cases dec with
  | false => exact placed_false l
  | true =>
    rw [places_true]
    have := placed_false (l.map (fun y => -y))
    rwa [List.length_map] at this

/-! ### Counting -/

/-- The contribution of the counts. -/
def cubes (st : List (Rat × Nat)) : Rat := sumOf (fun x : Rat × Nat => (x.2 : Rat) * (x.2 : Rat) * (x.2 : Rat) - (x.2 : Rat)) st

theorem cubes_zeros (k : Nat) : cubes (List.replicate k (0, 0)) = 0 := by
  unfold cubes
  rw [sumOf_const _ 0 _ (fun x hx => by rw [(List.mem_replicate.1 hx).2]; decide +kernel)]
  exact Rat.mul_zero _

theorem cubes_append (a b : List (Rat × Nat)) : cubes (a ++ b) = cubes a + cubes b := by
  unfold cubes sumOf; rw [List.map_append, List.sum_append]

theorem tied_cons (v : Rat) (l : List Rat) : tied (v :: l) = tied l + 3 * (same l v : Rat) * ((same l v : Rat) + 1) := by
  unfold tied
  rw [sumOf_cons]
  have hv : same (v :: l) v = same l v + 1 := by unfold same; rw [List.countP_cons]; simp
  have h1 : ((1 : Nat) : Rat) = 1 := rfl
  have hs : sumOf (fun x => (same (v :: l) x : Rat) * (same (v :: l) x : Rat) - 1) l =
      sumOf (fun x => (same l x : Rat) * (same l x : Rat) - 1) l + (same l v : Rat) * (2 * (same l v : Rat) + 1) := by
    rw [sumOf_split _ (fun x => decide (x = v)) l, sumOf_split (fun x => (same l x : Rat) * (same l x : Rat) - 1) (fun x => decide (x = v)) l]
    have e1 : sumOf (fun x => (same (v :: l) x : Rat) * (same (v :: l) x : Rat) - 1) (l.filter (fun x => decide (x = v))) =
        ((same l v : Nat) : Rat) * (((same l v : Rat) + 1) * ((same l v : Rat) + 1) - 1) := by
      rw [sumOf_const _ (((same l v : Rat) + 1) * ((same l v : Rat) + 1) - 1)]
      · unfold same; rw [List.countP_eq_length_filter]
      · intro x hx
        have : x = v := by simpa using (List.mem_filter.1 hx).2
        rw [this, hv, Rat.natCast_add, h1]
    have e2 : sumOf (fun x => (same l x : Rat) * (same l x : Rat) - 1) (l.filter (fun x => decide (x = v))) =
        ((same l v : Nat) : Rat) * ((same l v : Rat) * (same l v : Rat) - 1) := by
      rw [sumOf_const _ ((same l v : Rat) * (same l v : Rat) - 1)]
      · unfold same; rw [List.countP_eq_length_filter]
      · intro x hx
        have : x = v := by simpa using (List.mem_filter.1 hx).2
        rw [this]
    have e3 : sumOf (fun x => (same (v :: l) x : Rat) * (same (v :: l) x : Rat) - 1) (l.filter (fun x => !decide (x = v))) =
        sumOf (fun x => (same l x : Rat) * (same l x : Rat) - 1) (l.filter (fun x => !decide (x = v))) := by
      apply sumOf_congr
      intro x hx
      have : x ≠ v := by simpa using (List.mem_filter.1 hx).2
      have e : same (v :: l) x = same l x := by unfold same; rw [List.countP_cons]; simp [Ne.symm this]
      rw [e]
    rw [e1, e2, e3]
    grind
  rw [hs, hv, Rat.natCast_add, h1]
  grind

/-- The state after counting the entries of `done`. -/
structure Counted (n : Nat) (done : List Rat) (pairs : List (Rat × Nat)) (k : Nat) : Prop where
  size : pairs.length + k = n
  few : pairs.length ≤ done.length
  keys : (pairs.map (·.1)).Nodup
  val : ∀ x ∈ pairs, x.1 ≠ 0 ∧ x.2 = same done x.1
  all : ∀ v ∈ done, v ∈ pairs.map (·.1)
  tot : cubes pairs = tied done

theorem bump_found (v : Rat) (rest : List (Rat × Nat)) : ∀ pairs : List (Rat × Nat), (∀ x ∈ pairs, x.1 ≠ 0) →
    (pairs.map (·.1)).Nodup → v ∈ pairs.map (·.1) →
    bump v (pairs ++ rest) = some (pairs.map (fun x => if x.1 = v then (x.1, x.2 + 1) else x) ++ rest)
  | [], _, _, h => by cases h
  | (a, c) :: pairs, h0, h1, h2 => by
    rw [List.cons_append, bump]
    by_cases e : v = a
    · subst e
      rw [if_neg (by simp), List.map_cons, if_pos rfl]
      have : pairs.map (fun x => if x.1 = v then (x.1, x.2 + 1) else x) = pairs := by
        rw [List.map_congr_left (g := id) (fun x hx => ?_), List.map_id]
        rw [if_neg]
        · rfl
        · intro e
          rw [List.map_cons, List.nodup_cons] at h1
          exact h1.1 (List.mem_map.2 ⟨x, hx, e⟩)
      rw [this]
      rfl
    · rw [if_pos ⟨h0 _ (List.mem_cons_self ..), e⟩]
      rw [List.map_cons, List.nodup_cons] at h1
      rw [List.map_cons, List.mem_cons] at h2
      rw [bump_found v rest pairs (fun x hx => h0 x (List.mem_cons_of_mem _ hx)) h1.2 (h2.resolve_left e)]
      rw [List.map_cons, if_neg (fun h => e h.symm)]
      rfl

theorem bump_new (v : Rat) (c : Nat) (rest : List (Rat × Nat)) : ∀ pairs : List (Rat × Nat), (∀ x ∈ pairs, x.1 ≠ 0) →
    v ∉ pairs.map (·.1) → bump v (pairs ++ (0, c) :: rest) = some (pairs ++ (v, c + 1) :: rest)
  | [], _, _ => by rw [List.nil_append, bump, if_neg (by simp)]; rfl
  | (a, d) :: pairs, h0, h2 => by
    rw [List.map_cons, List.mem_cons, not_or] at h2
    rw [List.cons_append, bump, if_pos ⟨h0 _ (List.mem_cons_self ..), h2.1⟩,
      bump_new v c rest pairs (fun x hx => h0 x (List.mem_cons_of_mem _ hx)) h2.2]
    rfl

theorem cubes_bump (v : Rat) : ∀ pairs : List (Rat × Nat), (pairs.map (·.1)).Nodup → ∀ c, (v, c) ∈ pairs →
    cubes (pairs.map (fun x => if x.1 = v then (x.1, x.2 + 1) else x)) = cubes pairs + 3 * (c : Rat) * ((c : Rat) + 1)
  | [], _, _, h => by cases h
  | (a, d) :: pairs, h1, c, h2 => by
    rw [List.map_cons, List.nodup_cons] at h1
    have hc : ((1 : Nat) : Rat) = 1 := rfl
    unfold cubes
    rw [List.map_cons, sumOf_cons, sumOf_cons]
    by_cases e : a = v
    · subst e
      rw [if_pos rfl]
      have hd : c = d := by
        rcases List.mem_cons.1 h2 with e | h
        · exact (congrArg Prod.snd e)
        · exact (h1.1 (List.mem_map.2 ⟨_, h, rfl⟩)).elim
      have : pairs.map (fun x => if x.1 = a then (x.1, x.2 + 1) else x) = pairs := by
        rw [List.map_congr_left (g := id) (fun x hx => ?_), List.map_id]
        rw [if_neg]
        · rfl
        · intro e
          exact h1.1 (List.mem_map.2 ⟨x, hx, e⟩)
      rw [this, hd]
      dsimp only
      rw [Rat.natCast_add, hc]
      grind
    · rw [if_neg e]
      have := cubes_bump v pairs h1.2 c ((List.mem_cons.1 h2).resolve_left (fun h => e (congrArg Prod.fst h).symm))
      unfold cubes at this
      rw [this]
      grind

theorem count_step {n : Nat} {done : List Rat} {pairs : List (Rat × Nat)} {k : Nat} (h : Counted n done pairs k) (v : Rat)
    (hv : v ≠ 0) (hn : done.length < n) :
    ∃ pairs' k', bump v (pairs ++ List.replicate k (0, 0)) = some (pairs' ++ List.replicate k' (0, 0)) ∧
      Counted n (v :: done) pairs' k' := by
  by_cases hm : v ∈ pairs.map (·.1)
  · refine ⟨_, k, bump_found v _ pairs (fun x hx => (h.val x hx).1) h.keys hm, ?_⟩
    have hk : (pairs.map (fun x => if x.1 = v then (x.1, x.2 + 1) else x)).map (·.1) = pairs.map (·.1) := by
      rw [List.map_map]
      apply List.map_congr_left
      intro x _
      simp only [Function.comp_apply]
      split <;> rfl
    obtain ⟨x, hx, e⟩ := List.mem_map.1 hm
    have hc : (v, x.2) ∈ pairs := by rw [← e]; exact hx
    refine ⟨?_, ?_, ?_, ?_, ?_, ?_⟩
    · rw [List.length_map]; exact h.size
    · have := h.few; rw [List.length_map, List.length_cons]; omega
    · rw [hk]; exact h.keys
    · intro y hy
      obtain ⟨z, hz, e'⟩ := List.mem_map.1 hy
      have h2 := h.val z hz
      by_cases c : z.1 = v
      · rw [if_pos c] at e'
        rw [← e']
        refine ⟨h2.1, ?_⟩
        show z.2 + 1 = same (v :: done) z.1
        unfold same
        rw [List.countP_cons, h2.2, c]
        simp [same]
      · rw [if_neg c] at e'
        rw [← e']
        refine ⟨h2.1, ?_⟩
        unfold same
        rw [List.countP_cons, h2.2]
        simp [same, Ne.symm c]
    · intro u hu
      rw [hk]
      rcases List.mem_cons.1 hu with e | hu
      · rw [e]; exact hm
      · exact h.all u hu
    · rw [cubes_bump v pairs h.keys _ hc, h.tot, tied_cons]
      have := (h.val _ hc).2
      simp only at this
      rw [this]
  · have hk : 0 < k := by have := h.size; have := h.few; omega
    obtain ⟨k', rfl⟩ : ∃ k', k = k' + 1 := ⟨k - 1, by omega⟩
    have hnd : v ∉ done := fun hd => hm (h.all v hd)
    have hs : same done v = 0 := by
      unfold same
      rw [List.countP_eq_zero]
      intro y hy
      simp only [decide_eq_true_eq]
      intro e
      exact hnd (e ▸ hy)
    refine ⟨pairs ++ [(v, 1)], k', ?_, ?_⟩
    · rw [List.replicate_succ, bump_new v 0 _ pairs (fun x hx => (h.val x hx).1) hm]
      simp
    · refine ⟨?_, ?_, ?_, ?_, ?_, ?_⟩
      · have := h.size; rw [List.length_append, List.length_singleton]; omega
      · have := h.few; rw [List.length_append, List.length_singleton, List.length_cons]; omega
      · rw [List.map_append, List.nodup_append]
        refine ⟨h.keys, by simp, ?_⟩
        intro a ha b hb e
        rw [List.map_singleton, List.mem_singleton] at hb
        apply hm
        rw [show v = a from by rw [e, hb]]
        exact ha
      · intro x hx
        rcases List.mem_append.1 hx with hx | hx
        · have h2 := h.val x hx
          refine ⟨h2.1, ?_⟩
          have : x.1 ≠ v := fun e => hm (e ▸ List.mem_map_of_mem hx)
          unfold same
          rw [List.countP_cons, h2.2]
          simp [same, Ne.symm this]
        · rw [List.mem_singleton.1 hx]
          refine ⟨hv, ?_⟩
          show 1 = same (v :: done) v
          unfold same at hs ⊢
          rw [List.countP_cons, hs]
          simp
      · intro u hu
        rw [List.map_append, List.mem_append]
        rcases List.mem_cons.1 hu with e | hu
        · rw [e]; exact .inr (by simp)
        · exact .inl (h.all u hu)
      · rw [cubes_append, h.tot, tied_cons, hs]
        have : cubes [(v, 1)] = 0 := by
          show ((1 : Nat) : Rat) * ((1 : Nat) : Rat) * ((1 : Nat) : Rat) - ((1 : Nat) : Rat) + 0 = 0
          decide +kernel
        rw [this]
        have : ((0 : Nat) : Rat) = 0 := rfl
        grind

theorem count_all {n : Nat} : ∀ (row done : List Rat) (pairs : List (Rat × Nat)) (k : Nat), Counted n done pairs k →
    (∀ v ∈ row, v ≠ 0) → done.length + row.length ≤ n →
    ∃ pairs' k', row.foldlM (fun st v => bump v st) (pairs ++ List.replicate k (0, 0)) = some (pairs' ++ List.replicate k' (0, 0)) ∧
      Counted n (row.reverse ++ done) pairs' k'
  | [], done, pairs, k, h, _, _ => ⟨pairs, k, rfl, h⟩
  | v :: row, done, pairs, k, h, h0, hn => by
    rw [List.length_cons] at hn
    obtain ⟨p1, k1, e1, h1⟩ := count_step h v (h0 v (List.mem_cons_self ..)) (by omega)
    obtain ⟨p2, k2, e2, h2⟩ := count_all row (v :: done) p1 k1 h1 (fun u hu => h0 u (List.mem_cons_of_mem _ hu))
      (by rw [List.length_cons]; omega)
    refine ⟨p2, k2, ?_, ?_⟩
    · rw [List.foldlM_cons, e1]
      exact e2
    · rw [List.reverse_cons, List.append_assoc]
      exact h2

theorem tied_reverse (l : List Rat) : tied l.reverse = tied l := by
  unfold tied sumOf
  rw [List.map_reverse]
  have hs : ∀ x, same l.reverse x = same l x := by intro x; unfold same; rw [List.countP_reverse]
  simp only [hs]
  generalize l.map _ = m
  induction m with
  | nil => rfl
  | cons a m ih => rw [List.reverse_cons, List.sum_append, ih, List.sum_cons]; simp; grind

/-- The counts after a row. -/
theorem counts (n : Nat) (row : List Rat) (h0 : ∀ v ∈ row, v ≠ 0) (hn : row.length = n) :
    ∃ pairs k, row.foldlM (fun st v => bump v st) (List.replicate n (0, 0)) = some (pairs ++ List.replicate k (0, 0)) ∧
      pairs.length + k = n ∧ cubes pairs = tied row ∧ ∀ x ∈ pairs, x.2 = same row x.1 := by
  have hc : Counted n [] [] n := ⟨by simp, by simp, by simp, nofun, nofun, rfl⟩
  obtain ⟨p, k, e, h⟩ := count_all row [] [] n hc h0 (by simp [hn])
  rw [List.nil_append] at e
  refine ⟨p, k, e, h.size, ?_, fun x hx => ?_⟩
  · rw [h.tot, List.append_nil, tied_reverse]
  · rw [(h.val x hx).2, List.append_nil]
    unfold same; rw [List.countP_reverse]

theorem ties_all (n : Nat) (row : List Rat) (h0 : ∀ v ∈ row, v ≠ 0) (hn : row.length = n) : ties n n row = some (tied row) := by
  obtain ⟨p, k, e, h1, h2, _⟩ := counts n row h0 hn
  unfold ties
  rw [e]
  dsimp only
  rw [if_pos (Nat.le_refl _), List.take_of_length_le (by rw [List.length_append, List.length_replicate]; omega)]
  show some (cubes _) = _
  rw [cubes_append, cubes_zeros, h2, Rat.add_zero]

theorem ties_beyond (lim n : Nat) (row : List Rat) (h : n < lim) : ties lim n row = none := by
  unfold ties
  split
  · rfl
  · rw [if_neg (by omega)]

/-- Without ties it does not matter how many counts are summed up. -/
theorem ties_none (lim n : Nat) (row : List Rat) (h0 : ∀ v ∈ row, v ≠ 0) (hn : row.length = n) (hd : ∀ v, same row v ≤ 1)
    (hl : lim ≤ n) : ties lim n row = some (tied row) := by
  obtain ⟨p, k, e, h1, h2, h3⟩ := counts n row h0 hn
  have hz : ∀ l : List (Rat × Nat), (∀ x ∈ l, x.2 ≤ 1) → cubes l = 0 := by
    intro l hl
    unfold cubes
    rw [sumOf_const _ 0]
    · exact Rat.mul_zero _
    · intro x hx
      have := hl x hx
      rcases (show x.2 = 0 ∨ x.2 = 1 by omega) with e | e <;> rw [e] <;> decide +kernel
  have hp : ∀ x ∈ p, x.2 ≤ 1 := fun x hx => by rw [h3 x hx]; exact hd _
  unfold ties
  rw [e]
  dsimp only
  rw [if_pos hl, ← h2, hz p hp]
  show some (cubes _) = _
  rw [hz]
  intro x hx
  rcases List.mem_append.1 (List.mem_of_mem_take hx) with h | h
  · exact hp x h
  · rw [(List.mem_replicate.1 h).2]; exact Nat.zero_le _

end Verif.Anovar
