import Verif.Rover.Spec
/-!
# The vote
-/
set_option autoImplicit false
namespace Verif.Rover
variable {V : Type}

theorem sum_snoc (l : List Rat) (x : Rat) : (l ++ [x]).sum = l.sum + x := by
  induction l with
  | nil => simp [Rat.add_comm]
  | cons a l ih => rw [List.cons_append, List.sum_cons, List.sum_cons, ih]; grind

theorem foldl_sum (l : List Rat) (z : Rat) : l.foldl (· + ·) z = z + l.sum := by
  induction l generalizing z with
  | nil => simp [Rat.add_zero]
  | cons a l ih => rw [List.foldl_cons, ih, List.sum_cons]; grind

theorem top_snoc (l : List (Tok V)) (x : Tok V) : top (l ++ [x]) = max' (top l) x.conf := by
  have key : ∀ (l : List Rat) (x : Rat), (l ++ [x]).foldr (fun x m => if x ≤ m then m else x) 0 =
      max' (l.foldr (fun x m => if x ≤ m then m else x) 0) x := by
    intro l x
    induction l with
    | nil =>
      show (if x ≤ (0 : Rat) then (0 : Rat) else x) = if (0 : Rat) > x then 0 else x
      by_cases h1 : x ≤ 0
      · by_cases h2 : (0 : Rat) > x
        · rw [if_pos h1, if_pos h2]
        · rw [if_pos h1, if_neg h2]; grind
      · rw [if_neg h1, if_neg (by grind)]
    | cons a l ih =>
      rw [List.cons_append, List.foldr_cons, List.foldr_cons, ih]
      unfold max'
      generalize l.foldr (fun x m => if x ≤ m then m else x) 0 = M
      grind
  unfold top
  rw [List.map_append]
  exact key _ _

/-- What is recorded for a word after the given entries. -/
def candOf (eq : V → V → Bool) (slot : List (Tok V)) (w : Tok V) : Cand V :=
  ⟨w, (voters eq slot w).length, ((voters eq slot w).map Tok.conf).sum, top (voters eq slot w),
    ((voters eq slot w).map Tok.t1).sum, ((voters eq slot w).map Tok.t2).sum⟩

theorem voters_snoc (eq : V → V → Bool) (slot : List (Tok V)) (w x : Tok V) :
    voters eq (slot ++ [x]) w = if eq w.val x.val = true then voters eq slot w ++ [x] else voters eq slot w := by
  unfold voters
  rw [List.filter_append]
  by_cases h : eq w.val x.val = true
  · rw [if_pos h]; simp [h]
  · rw [if_neg h]; simp [h]

theorem cand_yes (eq : V → V → Bool) (slot : List (Tok V)) (w x : Tok V) (h : eq w.val x.val = true) :
    candOf eq (slot ++ [x]) w = (candOf eq slot w).add x := by
  unfold candOf Cand.add
  rw [voters_snoc, if_pos h, List.map_append, List.map_append, List.map_append, top_snoc]
  simp only [List.map_cons, List.map_nil, sum_snoc, List.length_append, List.length_cons, List.length_nil]

theorem cand_no (eq : V → V → Bool) (slot : List (Tok V)) (w x : Tok V) (h : ¬ eq w.val x.val = true) :
    candOf eq (slot ++ [x]) w = candOf eq slot w := by
  unfold candOf
  rw [voters_snoc, if_neg h]

/-- The words found so far. -/
def reps (eq : V → V → Bool) : List (Tok V) → List (Tok V) → List (Tok V)
  | [], r => r
  | x :: xs, r => reps eq xs (if r.any (fun w => eq w.val x.val) then r else r ++ [x])

theorem record_hit (eq : V → V → Bool) (x : Tok V) (slot : List (Tok V)) : ∀ (r : List (Tok V)) (i : Nat),
    r.Pairwise (fun a b => ¬ (eq a.val x.val = true ∧ eq b.val x.val = true)) → r.any (fun w => eq w.val x.val) = true →
    record eq x (r.map (candOf eq slot)) i = some (r.map (candOf eq (slot ++ [x]))) := by
  intro r
  induction r with
  | nil => intro i _ h; cases h
  | cons w r ih =>
    intro i hp h
    obtain ⟨h1, h2⟩ := List.pairwise_cons.1 hp
    rw [List.map_cons, List.map_cons]
    unfold record
    by_cases hw : eq w.val x.val = true
    · have e : eq (candOf eq slot w).tok.val x.val = true := hw
      rw [if_pos e, cand_yes eq slot w x hw]
      congr 2
      apply List.map_congr_left
      intro b hb
      rw [cand_no]
      intro hbx
      exact h1 b hb ⟨hw, hbx⟩
    · have e : ¬ eq (candOf eq slot w).tok.val x.val = true := hw
      rw [if_neg e, cand_no eq slot w x hw, ih (i + 1) h2 (by
        rw [List.any_cons] at h
        simpa [hw] using h)]
      rfl

theorem record_miss (eq : V → V → Bool) (x : Tok V) (slot : List (Tok V)) (hr : eq x.val x.val = true)
    (hnone : voters eq slot x = []) : ∀ (r : List (Tok V)) (i : Nat), r.any (fun w => eq w.val x.val) = false →
    record eq x (r.map (candOf eq slot)) i =
      if i + r.length = 49 then none else some ((r ++ [x]).map (candOf eq (slot ++ [x]))) := by
  intro r
  induction r with
  | nil =>
    intro i _
    show (if i = 49 then none else some [Cand.add ⟨x, 0, 0, 0, 0, 0⟩ x]) = _
    have e : candOf eq (slot ++ [x]) x = Cand.add ⟨x, 0, 0, 0, 0, 0⟩ x := by
      rw [cand_yes eq slot x x hr]
      unfold candOf
      rw [hnone]
      rfl
    rw [List.nil_append, List.map_cons, List.map_nil, e]
    rfl
  | cons w r ih =>
    intro i h
    rw [List.any_cons, Bool.or_eq_false_iff] at h
    rw [List.map_cons]
    unfold record
    have e : ¬ eq (candOf eq slot w).tok.val x.val = true := by
      show ¬ eq w.val x.val = true
      rw [h.1]; simp
    rw [if_neg e, ih (i + 1) h.2]
    have hl : i + 1 + r.length = i + (w :: r).length := by simp; omega
    rw [hl]
    by_cases hc : i + (w :: r).length = 49
    · rw [if_pos hc, if_pos hc]; rfl
    · rw [if_neg hc, if_neg hc, List.cons_append, List.map_cons, cand_no eq slot w x (by rw [h.1]; simp)]
      rfl

/-- The words found are the first occurrences. -/
structure RInv (eq : V → V → Bool) (done r : List (Tok V)) : Prop where
  sub : r.Sublist done
  apart : r.Pairwise fun x y => eq x.val y.val = false
  cover : ∀ x ∈ done, ∃ w ∈ r, eq w.val x.val = true
  all : ∀ (pre : List (Tok V)) (x : Tok V) (post : List (Tok V)), done = pre ++ x :: post →
    (∀ y ∈ pre, eq y.val x.val = false) → x ∈ r
  first : ∀ (p : List (Tok V)) (w : Tok V) (q : List (Tok V)), r = p ++ w :: q →
    ∃ pre post, done = pre ++ w :: post ∧ (∀ y ∈ pre, eq y.val w.val = false) ∧ ∀ y ∈ pre, ∃ v ∈ p, eq v.val y.val = true

theorem rinv_step {eq : V → V → Bool} (he : Equiv eq) {done r : List (Tok V)} (h : RInv eq done r) (x : Tok V) :
    RInv eq (done ++ [x]) (if r.any (fun w => eq w.val x.val) then r else r ++ [x]) := by
  by_cases hx : r.any (fun w => eq w.val x.val) = true
  · rw [if_pos hx]
    obtain ⟨w, hw, hwx⟩ := List.any_eq_true.1 hx
    refine ⟨h.sub.trans (List.sublist_append_left _ _), h.apart, ?_, ?_, ?_⟩
    · intro y hy
      rcases List.mem_append.1 hy with hy | hy
      · exact h.cover y hy
      · have : y = x := by simpa using hy
        subst this; exact ⟨w, hw, hwx⟩
    · intro pre y post e hp
      rcases List.eq_nil_or_concat post with e2 | ⟨post', z, e2⟩
      · subst e2
        have := List.append_inj' e rfl
        have e3 : x = y := by simpa using this.2
        subst e3
        have hwd : w ∈ pre := by rw [← this.1]; exact h.sub.subset hw
        rw [hp w hwd] at hwx; cases hwx
      · rw [List.concat_eq_append] at e2
        subst e2
        have e' : done ++ [x] = (pre ++ y :: post') ++ [z] := by rw [e]; simp
        exact h.all pre y post' (List.append_inj' e' rfl).1 hp
    · intro p v q e
      obtain ⟨pre, post, e1, e2, e3⟩ := h.first p v q e
      exact ⟨pre, post ++ [x], by rw [e1]; simp, e2, e3⟩
  · rw [if_neg hx]
    have hno : ∀ w ∈ r, eq w.val x.val = false := by
      intro w hw
      cases hv : eq w.val x.val with
      | false => rfl
      | true => exact absurd (List.any_eq_true.2 ⟨w, hw, hv⟩) hx
    have hnod : ∀ y ∈ done, eq y.val x.val = false := by
      intro y hy
      obtain ⟨w, hw, hwy⟩ := h.cover y hy
      cases hv : eq y.val x.val with
      | false => rfl
      | true => have := he.trans _ _ _ hwy hv; rw [hno w hw] at this; cases this
    refine ⟨h.sub.append (List.Sublist.refl _), ?_, ?_, ?_, ?_⟩
    · rw [List.pairwise_append]
      exact ⟨h.apart, by simp, by intro a ha b hb; have : b = x := by simpa using hb
                                  subst this; exact hno a ha⟩
    · intro y hy
      rcases List.mem_append.1 hy with hy | hy
      · obtain ⟨w, hw, e⟩ := h.cover y hy
        exact ⟨w, List.mem_append_left _ hw, e⟩
      · have : y = x := by simpa using hy
        subst this; exact ⟨y, by simp, he.refl _⟩
    · intro pre y post e hp
      rcases List.eq_nil_or_concat post with e2 | ⟨post', z, e2⟩
      · subst e2
        have := List.append_inj' e rfl
        have e3 : x = y := by simpa using this.2
        subst e3
        simp
      · rw [List.concat_eq_append] at e2
        subst e2
        have e' : done ++ [x] = (pre ++ y :: post') ++ [z] := by rw [e]; simp
        exact List.mem_append_left _ (h.all pre y post' (List.append_inj' e' rfl).1 hp)
    · intro p v q e
      rcases List.eq_nil_or_concat q with e2 | ⟨q', z, e2⟩
      · subst e2
        obtain ⟨e3, e4⟩ := List.append_inj' e rfl
        have e4 : x = v := by simpa using e4
        subst e4; subst e3
        exact ⟨done, [], rfl, hnod, h.cover⟩
      · rw [List.concat_eq_append] at e2
        subst e2
        have e' : r ++ [x] = (p ++ v :: q') ++ [z] := by rw [e]; simp
        obtain ⟨pre, post, e1, e2, e3⟩ := h.first p v q' (List.append_inj' e' rfl).1
        exact ⟨pre, post ++ [x], by rw [e1]; simp, e2, e3⟩

theorem reps_inv {eq : V → V → Bool} (he : Equiv eq) : ∀ (xs done r : List (Tok V)), RInv eq done r →
    RInv eq (done ++ xs) (reps eq xs r) := by
  intro xs
  induction xs with
  | nil => intro done r h; simpa [reps] using h
  | cons x xs ih =>
    intro done r h
    have := ih (done ++ [x]) _ (rinv_step he h x)
    simpa [reps] using this

theorem reps_mono (eq : V → V → Bool) : ∀ (xs r : List (Tok V)), r.length ≤ (reps eq xs r).length := by
  intro xs
  induction xs with
  | nil => intro r; exact Nat.le_refl _
  | cons x xs ih =>
    intro r
    unfold reps
    refine Nat.le_trans ?_ (ih _)
    split
    · exact Nat.le_refl _
    · simp

theorem collect_ok {eq : V → V → Bool} (he : Equiv eq) : ∀ (xs done r : List (Tok V)), RInv eq done r → r.length ≤ 49 →
    collect eq xs (r.map (candOf eq done)) =
      if (reps eq xs r).length ≤ 49 then some ((reps eq xs r).map (candOf eq (done ++ xs))) else none := by
  intro xs
  induction xs with
  | nil =>
    intro done r h hl
    show some _ = _
    unfold reps
    rw [if_pos hl]; simp
  | cons x xs ih =>
    intro done r h hl
    unfold collect
    have hs := rinv_step he h x
    have happ : done ++ x :: xs = done ++ [x] ++ xs := by simp
    rw [happ]
    by_cases hx : r.any (fun w => eq w.val x.val) = true
    · have hp : r.Pairwise (fun a b => ¬ (eq a.val x.val = true ∧ eq b.val x.val = true)) := by
        apply h.apart.imp
        intro a b hab hh
        have := he.trans _ _ _ hh.1 (he.symm _ _ hh.2)
        rw [hab] at this; cases this
      rw [record_hit eq x done r 0 hp hx]
      simp only
      rw [if_pos hx] at hs
      rw [ih (done ++ [x]) r hs hl]
      show _ = if (reps eq xs (if _ then _ else _)).length ≤ 49 then some ((reps eq xs (if _ then _ else _)).map _) else none
      rw [if_pos hx]
    · have hx' : r.any (fun w => eq w.val x.val) = false := by simpa using hx
      have hnone : voters eq done x = [] := by
        unfold voters
        rw [List.filter_eq_nil_iff]
        intro y hy hxy
        obtain ⟨w, hw, e⟩ := h.cover y hy
        have := he.trans _ _ _ e (he.symm _ _ hxy)
        exact hx (List.any_eq_true.2 ⟨w, hw, this⟩)
      rw [record_miss eq x done (he.refl _) hnone r 0 hx']
      rw [if_neg hx] at hs
      have hreps : reps eq (x :: xs) r = reps eq xs (r ++ [x]) := by
        show reps eq xs (if _ then _ else _) = _
        rw [if_neg hx]
      rw [hreps]
      by_cases hc : 0 + r.length = 49
      · rw [if_pos hc]
        have := reps_mono eq xs (r ++ [x])
        rw [if_neg (by simp at this; omega)]
      · rw [if_neg hc]
        simp only
        rw [ih (done ++ [x]) (r ++ [x]) hs (by simp; omega)]

theorem rinv_nil (eq : V → V → Bool) : RInv eq [] [] :=
  ⟨List.Sublist.refl _, List.Pairwise.nil, by simp, by simp, by simp⟩

theorem collect_slot {eq : V → V → Bool} (he : Equiv eq) (slot : List (Tok V)) :
    RInv eq slot (reps eq slot []) ∧ collect eq slot [] =
      if (reps eq slot []).length ≤ 49 then some ((reps eq slot []).map (candOf eq slot)) else none := by
  have h1 := reps_inv he slot [] [] (rinv_nil eq)
  have h2 := collect_ok he slot [] [] (rinv_nil eq) (by simp)
  exact ⟨by simpa using h1, by simpa using h2⟩

/-! ### the best entry -/

theorem best_keep {sc : Cand V → Option Rat} (c0 : Cand V) (s0 : Rat) : ∀ (cs : List (Cand V)),
    (∀ c ∈ cs, ∀ s, sc c = some s → ¬ s > s0) → best sc cs s0 (some c0) = some c0 := by
  intro cs
  induction cs with
  | nil => intro _; rfl
  | cons c cs ih =>
    intro h
    unfold best
    cases hs : sc c with
    | none => exact ih fun c' hc' => h c' (by simp [hc'])
    | some s =>
      simp only
      rw [if_neg (h c (by simp) s hs)]
      exact ih fun c' hc' => h c' (by simp [hc'])

theorem best_spec {sc : Cand V → Option Rat} : ∀ (cs : List (Cand V)) (mx : Rat) (b : Option (Cand V)),
    (best sc cs mx b = b ∧ ∀ c ∈ cs, ∀ s, sc c = some s → s ≤ mx) ∨
    ∃ pre c post s, cs = pre ++ c :: post ∧ best sc cs mx b = some c ∧ sc c = some s ∧ mx < s ∧
      (∀ c' ∈ pre, ∀ s', sc c' = some s' → s' < s) ∧ ∀ c' ∈ post, ∀ s', sc c' = some s' → s' ≤ s := by
  intro cs
  induction cs with
  | nil => intro mx b; left; exact ⟨rfl, by simp⟩
  | cons c cs ih =>
    intro mx b
    unfold best
    cases hs : sc c with
    | none =>
      simp only
      rcases ih mx b with ⟨h1, h2⟩ | ⟨pre, c1, post, s, e1, e2, e3, e4, e5, e6⟩
      · left
        refine ⟨h1, ?_⟩
        intro c' hc' s' hs'
        rcases List.mem_cons.1 hc' with e | hc'
        · rw [e, hs] at hs'; cases hs'
        · exact h2 c' hc' s' hs'
      · right
        refine ⟨c :: pre, c1, post, s, by rw [e1]; rfl, e2, e3, e4, ?_, e6⟩
        intro c' hc' s' hs'
        rcases List.mem_cons.1 hc' with e | hc'
        · rw [e, hs] at hs'; cases hs'
        · exact e5 c' hc' s' hs'
    | some s0 =>
      simp only
      by_cases hgt : s0 > mx
      · rw [if_pos hgt]
        right
        rcases ih s0 (some c) with ⟨h1, h2⟩ | ⟨pre, c1, post, s, e1, e2, e3, e4, e5, e6⟩
        · exact ⟨[], c, cs, s0, rfl, h1, hs, hgt, by simp, h2⟩
        · refine ⟨c :: pre, c1, post, s, by rw [e1]; rfl, e2, e3, by grind, ?_, e6⟩
          intro c' hc' s' hs'
          rcases List.mem_cons.1 hc' with e | hc'
          · rw [e, hs] at hs'; injection hs' with hs'; rw [← hs']; exact e4
          · exact e5 c' hc' s' hs'
      · rw [if_neg hgt]
        rcases ih mx b with ⟨h1, h2⟩ | ⟨pre, c1, post, s, e1, e2, e3, e4, e5, e6⟩
        · left
          refine ⟨h1, ?_⟩
          intro c' hc' s' hs'
          rcases List.mem_cons.1 hc' with e | hc'
          · rw [e, hs] at hs'; injection hs' with hs'; grind
          · exact h2 c' hc' s' hs'
        · right
          refine ⟨c :: pre, c1, post, s, by rw [e1]; rfl, e2, e3, e4, ?_, e6⟩
          intro c' hc' s' hs'
          rcases List.mem_cons.1 hc' with e | hc'
          · rw [e, hs] at hs'; injection hs' with hs'; grind
          · exact e5 c' hc' s' hs'

theorem score_cand (eq : V → V → Bool) (m : Meth) (alpha : Rat) (slot : List (Tok V)) (w : Tok V) :
    score m alpha slot.length ((slot.map Tok.conf).foldl (· + ·) 0) (candOf eq slot w) = scoreOf eq m alpha slot w := by
  rw [foldl_sum, Rat.zero_add]
  cases m <;> rfl

theorem sum_sub (l : List (Tok V)) : (l.map fun x => x.t2 - x.t1).sum = (l.map Tok.t2).sum - (l.map Tok.t1).sum := by
  induction l with
  | nil => simp; grind
  | cons a l ih => simp only [List.map_cons, List.sum_cons, ih]; grind

theorem line_cand (eq : V → V → Bool) (slot : List (Tok V)) (w : Tok V) : (candOf eq slot w).line = lineOf eq slot w := by
  unfold Cand.line lineOf mean
  rw [sum_sub]
  rfl

theorem voters_congr {eq : V → V → Bool} (he : Equiv eq) (slot : List (Tok V)) {w x : Tok V} (h : eq w.val x.val = true) :
    voters eq slot w = voters eq slot x := by
  unfold voters
  apply List.filter_congr
  intro y _
  cases h1 : eq w.val y.val with
  | true =>
    exact (he.trans _ _ _ (he.symm _ _ h) h1).symm
  | false =>
    cases h2 : eq x.val y.val with
    | false => rfl
    | true => have := he.trans _ _ _ h h2; rw [h1] at this; cases this

theorem scoreOf_congr {eq : V → V → Bool} (he : Equiv eq) (m : Meth) (alpha : Rat) (slot : List (Tok V)) {w x : Tok V}
    (h : eq w.val x.val = true) : scoreOf eq m alpha slot w = scoreOf eq m alpha slot x := by
  unfold scoreOf
  rw [voters_congr he slot h]

/-- How the vote ends. -/
theorem vote_cases {eq : V → V → Bool} (he : Equiv eq) (null : V) (m : Meth) (alpha : Rat) (slot : List (Tok V))
    (hr : (reps eq slot []).length ≤ 49) :
    (vote eq null m alpha slot = none ∧ ∀ x ∈ slot, ∀ s, scoreOf eq m alpha slot x = some s → s ≤ -1) ∨
    ∃ p w q pre post s, reps eq slot [] = p ++ w :: q ∧ slot = pre ++ w :: post ∧ (∀ x ∈ pre, eq x.val w.val = false) ∧
      scoreOf eq m alpha slot w = some s ∧ -1 < s ∧
      (∀ x ∈ slot, ∀ s', scoreOf eq m alpha slot x = some s' → s' ≤ s) ∧
      (∀ x ∈ pre, ∀ s', scoreOf eq m alpha slot x = some s' → s' < s) ∧
      vote eq null m alpha slot = match m with
        | .oracle => some ((if (reps eq slot []).length > 1 then [Line.altBegin] else []) ++
            oracleLines (decide ((reps eq slot []).length > 1)) ((reps eq slot []).map (candOf eq slot)))
        | _ => some (if eq w.val null then [] else [lineOf eq slot w]) := by
  obtain ⟨h1, h2⟩ := collect_slot he slot
  rw [if_pos hr] at h2
  rcases best_spec (sc := score m alpha slot.length ((slot.map Tok.conf).foldl (· + ·) 0))
      ((reps eq slot []).map (candOf eq slot)) (-1) none with ⟨e1, e2⟩ | ⟨P, c, Q, s, e1, e2, e3, e4, e5, e6⟩
  · left
    refine ⟨?_, ?_⟩
    · unfold vote; rw [h2]; simp only; rw [e1]
    · intro x hx s hs
      obtain ⟨w, hw, hwx⟩ := h1.cover x hx
      rw [← scoreOf_congr he m alpha slot hwx] at hs
      exact e2 _ (List.mem_map_of_mem hw) s (by rw [score_cand]; exact hs)
  · right
    obtain ⟨p, r, er, ep, e7⟩ := List.map_eq_append_iff.1 e1
    obtain ⟨w, q, e8, e9, eq'⟩ := List.map_eq_cons_iff.1 e7
    subst e8
    obtain ⟨pre, post, f1, f2, f3⟩ := h1.first p w q er
    rw [← e9, score_cand] at e3
    have hlt : ∀ y ∈ p, ∀ s', scoreOf eq m alpha slot y = some s' → s' < s := by
      intro y hy s' hs'
      exact e5 _ (by rw [← ep]; exact List.mem_map_of_mem hy) s' (by rw [score_cand]; exact hs')
    have hle : ∀ y ∈ q, ∀ s', scoreOf eq m alpha slot y = some s' → s' ≤ s := by
      intro y hy s' hs'
      exact e6 _ (by rw [← eq']; exact List.mem_map_of_mem hy) s' (by rw [score_cand]; exact hs')
    refine ⟨p, w, q, pre, post, s, er, f1, f2, e3, e4, ?_, ?_, ?_⟩
    · intro x hx s' hs'
      obtain ⟨v, hv, hvx⟩ := h1.cover x hx
      rw [← scoreOf_congr he m alpha slot hvx] at hs'
      rw [er] at hv
      rcases List.mem_append.1 hv with hv | hv
      · have := hlt v hv s' hs'; grind
      · rcases List.mem_cons.1 hv with e | hv
        · rw [e, e3] at hs'; injection hs' with hs'; grind
        · exact hle v hv s' hs'
    · intro x hx s' hs'
      obtain ⟨v, hv, hvx⟩ := f3 x hx
      rw [← scoreOf_congr he m alpha slot hvx] at hs'
      exact hlt v hv s' hs'
    · unfold vote
      rw [h2]
      simp only
      rw [e2]
      have hc : c.tok.val = w.val := by rw [← e9]; rfl
      have hl : c.line = lineOf eq slot w := by rw [← e9]; exact line_cand eq slot w
      cases m <;> simp [hc, hl]

end Verif.Rover
