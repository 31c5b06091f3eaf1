import Verif.StmIn.Line
/-!
# The segments of a file
-/
set_option autoImplicit false
namespace Verif.StmIn
open Verif.CtmIn (Blank Fields scan Out)

theorem strLt_iff (s t : List Nat) : strLt s t = true ↔ s < t := by
  induction s generalizing t with
  | nil => cases t <;> simp [strLt]
  | cons a s ih =>
    cases t with
    | nil => simp [strLt]
    | cons b t =>
      rw [List.cons_lt_cons_iff, strLt]
      split
      · simp [*]
      · split
        · constructor
          · intro h; cases h
          · rintro (h | ⟨h, _⟩) <;> omega
        · have : a = b := by omega
          subst this
          simp [ih]

/-- What is filed under a name. -/
def under {α : Type} (k : List Nat) : List (List Nat × List α) → List α
  | [] => []
  | (k', xs) :: m => if k = k' then xs else under k m

theorem count_eq {α : Type} (k : List Nat) (m : List (List Nat × List α)) : count k m = (under k m).length := by
  induction m with
  | nil => rfl
  | cons p m ih =>
    obtain ⟨k', xs⟩ := p
    rw [count, under]
    split
    · rfl
    · exact ih

theorem under_mem {α : Type} {k : List Nat} {xs : List α} {m : List (List Nat × List α)} (hs : (m.map Prod.fst).Pairwise (· < ·))
    (h : (k, xs) ∈ m) : under k m = xs := by
  induction m with
  | nil => cases h
  | cons p m ih =>
    obtain ⟨k', ys⟩ := p
    rw [List.map_cons, List.pairwise_cons] at hs
    rw [under]
    rcases List.mem_cons.1 h with h | h
    · cases h
      rw [if_pos rfl]
    · have hlt : k' < k := hs.1 k (List.mem_map.2 ⟨(k, xs), h, rfl⟩)
      rw [if_neg (fun e : k = k' => List.lt_irrefl k' (by rw [e] at hlt; exact hlt)), ih hs.2 h]

theorem under_none {α : Type} {k : List Nat} {m : List (List Nat × List α)} (h : k ∉ m.map Prod.fst) : under k m = [] := by
  induction m with
  | nil => rfl
  | cons p m ih =>
    obtain ⟨k', ys⟩ := p
    rw [List.map_cons, List.mem_cons] at h
    rw [under, if_neg (fun e => h (.inl e)), ih (fun hm => h (.inr hm))]

theorem insert_keys {α : Type} (k : List Nat) (x : α) (m : List (List Nat × List α)) (k' : List Nat) :
    k' ∈ (insert k x m).map Prod.fst ↔ k' = k ∨ k' ∈ m.map Prod.fst := by
  induction m with
  | nil => simp [insert]
  | cons p m ih =>
    obtain ⟨k₁, xs⟩ := p
    rw [insert]
    split
    · rename_i h
      subst h
      simp
    · split
      · simp
      · rw [List.map_cons, List.mem_cons, ih, List.map_cons, List.mem_cons]
        constructor
        · rintro (h | h | h) <;> simp [h]
        · rintro (h | h | h) <;> simp [h]

theorem insert_sorted {α : Type} (k : List Nat) (x : α) (m : List (List Nat × List α)) (hs : (m.map Prod.fst).Pairwise (· < ·)) :
    ((insert k x m).map Prod.fst).Pairwise (· < ·) := by
  induction m with
  | nil => simp [insert]
  | cons p m ih =>
    obtain ⟨k₁, xs⟩ := p
    rw [insert]
    split
    · exact hs
    · rename_i hne
      split
      · rename_i hlt
        rw [strLt_iff] at hlt
        rw [List.map_cons, List.pairwise_cons]
        refine ⟨fun k' hk' => ?_, hs⟩
        rw [List.map_cons, List.pairwise_cons] at hs
        rcases List.mem_cons.1 hk' with rfl | h
        · exact hlt
        · exact List.lt_trans hlt (hs.1 k' h)
      · rename_i hnl
        rw [List.map_cons, List.pairwise_cons] at hs ⊢
        refine ⟨fun k' hk' => ?_, ih hs.2⟩
        rcases (insert_keys k x m k').1 hk' with rfl | h
        · rw [strLt_iff] at hnl
          rcases Std.lt_trichotomy k' k₁ with h | h | h
          · exact absurd h hnl
          · exact absurd h hne
          · exact h
        · exact hs.1 k' h

theorem insert_under {α : Type} (k : List Nat) (x : α) (m : List (List Nat × List α)) (hs : (m.map Prod.fst).Pairwise (· < ·)) (k' : List Nat) :
    under k' (insert k x m) = if k' = k then under k m ++ [x] else under k' m := by
  induction m with
  | nil =>
    rw [show insert k x [] = [(k, [x])] from rfl, show under k' [(k, [x])] = if k' = k then [x] else [] from rfl]
    split <;> rfl
  | cons p m ih =>
    obtain ⟨k₁, xs⟩ := p
    have hs' := hs
    rw [List.map_cons, List.pairwise_cons] at hs'
    rw [insert]
    by_cases h1 : k = k₁
    · subst h1
      rw [if_pos rfl, under, under, if_pos rfl, under]
      split <;> rfl
    · rw [if_neg h1]
      by_cases h2 : strLt k k₁ = true
      · rw [if_pos h2, under]
        by_cases h3 : k' = k
        · subst h3
          rw [if_pos rfl, if_pos rfl]
          rw [under_none (m := (k₁, xs) :: m)]
          · rfl
          · rw [strLt_iff] at h2
            rw [List.map_cons, List.mem_cons]
            rintro (h | h)
            · exact h1 h
            · exact List.lt_irrefl k' (List.lt_trans h2 (hs'.1 k' h))
        · rw [if_neg h3, if_neg h3]
      · rw [if_neg h2, under, ih hs'.2, under, under, if_neg h1]
        by_cases h3 : k' = k₁
        · subst h3
          rw [if_pos rfl, if_pos rfl, if_neg (fun e => h1 e.symm)]
        · rw [if_neg h3, if_neg h3]

/-- The number of a segment, given those of its speaker before it. -/
def numOf (w : Nat) (before : List Seg) (r : Raw) : Nat := (scored before + 2 ^ w - (if r.text = none then 1 else 0)) % 2 ^ w

/-- The state after the lines that say `rs`. -/
structure Inv (w n : Nat) (rs : List (Nat × Raw)) (st : St) : Prop where
  line : st.lineNum = n
  below : ∀ x ∈ rs, x.1 < n
  sorted : (st.res.map Prod.fst).Pairwise (· < ·)
  keys : ∀ k, k ∈ st.res.map Prod.fst ↔ ∃ x ∈ rs, x.2.spkr = k
  segs : ∀ k, (under k st.res).map (fun s => (s.line, s.raw)) = rs.filter (fun x => x.2.spkr = k)
  ign : ∀ k, st.ignored k = (under k st.res).countP (fun s => s.raw.text = none)
  num : ∀ k a s b, under k st.res = a ++ (s :: b) → s.num = numOf w a s.raw
  elemNum : st.elemNum = (rs.countP (fun x => x.2.text.isSome) : Int) - 1
  elem : ∀ k s, s ∈ under k st.res → s.elem = (rs.countP (fun x => x.1 ≤ s.line ∧ x.2.text.isSome) : Int) - 1

theorem scored_split (l : List Seg) : l.length = scored l + l.countP (fun s => s.raw.text = none) := by
  induction l with
  | nil => rfl
  | cons s l ih =>
    rw [scored, List.countP_cons, List.countP_cons, List.length_cons]
    rw [scored] at ih
    cases hs : s.raw.text <;> simp <;> omega

theorem inv_start (w : Nat) : Inv w 0 [] st0 where
  line := rfl
  below := by simp
  sorted := List.Pairwise.nil
  keys := by simp [st0]
  segs := by simp [st0, under]
  ign := by simp [st0, under]
  num := by intro k a s b h; simp [st0, under] at h
  elemNum := rfl
  elem := by simp [st0, under]

/-- A comment. -/
theorem inv_comment {w n : Nat} {rs : List (Nat × Raw)} {st : St} (h : Inv w n rs st) (ms : List Nat → Int) (junk l : List Nat) (hc : l.head? = some 59) :
    ∃ st', step w ms junk st l = .ok st' ∧ Inv w (n + 1) rs st' := by
  rw [step, if_pos hc]
  exact ⟨_, rfl, ⟨by rw [h.line], fun x hx => Nat.lt_succ_of_lt (h.below x hx), h.sorted, h.keys, h.segs, h.ign, h.num, h.elemNum, h.elem⟩⟩

theorem step_line {w : Nat} {ms : List Nat → Int} {junk l : List Nat} {st : St} {r : Raw} (hh : l.head? ≠ some 59) (hr : raw ms junk l = .ok r) :
    step w ms junk st l = .ok { st with
      res := insert r.spkr ⟨r, st.lineNum, if r.text = none then st.elemNum else st.elemNum + 1,
        (count r.spkr st.res + 2 ^ w - (if r.text = none then st.ignored r.spkr + 1 else st.ignored r.spkr)) % 2 ^ w⟩ st.res,
      ignored := fun k => if k = r.spkr then (if r.text = none then st.ignored r.spkr + 1 else st.ignored r.spkr) else st.ignored k,
      lineNum := st.lineNum + 1, elemNum := if r.text = none then st.elemNum else st.elemNum + 1 } := by
  rw [step, if_neg hh, hr]

/-- A segment. -/
theorem inv_line {w n : Nat} {rs : List (Nat × Raw)} {st : St} (h : Inv w n rs st) (ms : List Nat → Int) (junk l : List Nat) {r : Raw}
    (hh : l.head? ≠ some 59) (hr : raw ms junk l = .ok r) : ∃ st', step w ms junk st l = .ok st' ∧ Inv w (n + 1) (rs ++ [(n, r)]) st' := by
  refine ⟨_, step_line hh hr, ?_⟩
  have hU := insert_under r.spkr (⟨r, st.lineNum, if r.text = none then st.elemNum else st.elemNum + 1,
        (count r.spkr st.res + 2 ^ w - (if r.text = none then st.ignored r.spkr + 1 else st.ignored r.spkr)) % 2 ^ w⟩ : Seg) st.res h.sorted
  have hnum : (count r.spkr st.res + 2 ^ w - (if r.text = none then st.ignored r.spkr + 1 else st.ignored r.spkr)) % 2 ^ w
      = numOf w (under r.spkr st.res) r := by
    rw [count_eq, h.ign, numOf, scored_split]
    have : 1 ≤ 2 ^ w := Nat.one_le_two_pow
    congr 1
    split <;> omega
  have helem : (if r.text = none then st.elemNum else st.elemNum + 1) = ((rs ++ [(n, r)]).countP (fun x => x.2.text.isSome) : Int) - 1 := by
    rw [h.elemNum, List.countP_append, List.countP_cons]
    cases r.text <;> simp
  refine ⟨by show st.lineNum + 1 = _; rw [h.line], ?_, insert_sorted _ _ _ h.sorted, ?_, ?_, ?_, ?_, helem, ?_⟩
  · intro x hx
    rcases List.mem_append.1 hx with hx | hx
    · exact Nat.lt_succ_of_lt (h.below x hx)
    · cases List.mem_singleton.1 hx
      exact Nat.lt_succ_self n
  · intro k
    rw [insert_keys, h.keys]
    constructor
    · rintro (rfl | ⟨x, hx, rfl⟩)
      · exact ⟨(n, r), by simp, rfl⟩
      · exact ⟨x, by simp [hx], rfl⟩
    · rintro ⟨x, hx, rfl⟩
      rcases List.mem_append.1 hx with hx | hx
      · exact .inr ⟨x, hx, rfl⟩
      · cases List.mem_singleton.1 hx
        exact .inl rfl
  · intro k
    rw [hU, List.filter_append]
    by_cases hk : k = r.spkr
    · subst hk
      rw [if_pos rfl, List.map_append, h.segs, List.filter_cons, if_pos (decide_eq_true rfl)]
      simp [h.line]
    · rw [if_neg hk, h.segs, List.filter_cons, if_neg (by rw [decide_eq_true_eq]; exact fun e => hk e.symm), List.filter_nil, List.append_nil]
  · intro k
    rw [hU]
    show (if k = r.spkr then _ else _) = _
    by_cases hk : k = r.spkr
    · subst hk
      rw [if_pos rfl, if_pos rfl, List.countP_append, List.countP_cons, h.ign]
      cases r.text <;> simp
    · rw [if_neg hk, if_neg hk, h.ign]
  · intro k a s b hs
    rw [hU] at hs
    by_cases hk : k = r.spkr
    · subst hk
      rw [if_pos rfl] at hs
      rcases List.eq_nil_or_concat b with rfl | ⟨b', y, rfl⟩
      · obtain ⟨h1, h2⟩ := List.append_inj' hs rfl
        cases h2
        rw [← h1]
        exact hnum
      · rw [List.concat_eq_append, show a ++ (s :: (b' ++ [y])) = (a ++ (s :: b')) ++ [y] by simp] at hs
        obtain ⟨h1, h2⟩ := List.append_inj' hs rfl
        exact h.num _ a s b' h1
    · rw [if_neg hk] at hs
      exact h.num k a s b hs
  · intro k s hs
    rw [hU] at hs
    have hold : ∀ s, s ∈ under k st.res → s.elem = ((rs ++ [(n, r)]).countP (fun x => x.1 ≤ s.line ∧ x.2.text.isSome) : Int) - 1 := by
      intro s hs
      have hlt : s.line < n := by
        have : (s.line, s.raw) ∈ rs.filter (fun x => x.2.spkr = k) := by
          rw [← h.segs k]
          exact List.mem_map.2 ⟨s, hs, rfl⟩
        exact h.below _ (List.mem_filter.1 this).1
      rw [h.elem k s hs, List.countP_append, List.countP_cons, if_neg]
      · simp
      · simp; omega
    by_cases hk : k = r.spkr
    · subst hk
      rw [if_pos rfl] at hs
      rcases List.mem_append.1 hs with hs | hs
      · exact hold s hs
      · cases List.mem_singleton.1 hs
        show (if r.text = none then st.elemNum else st.elemNum + 1) = _
        rw [helem]
        congr 2
        refine List.countP_congr (fun x hx => ?_)
        have : x.1 ≤ n := by
          rcases List.mem_append.1 hx with hx | hx
          · exact Nat.le_of_lt (h.below x hx)
          · cases List.mem_singleton.1 hx
            exact Nat.le_refl n
        simp [h.line, this]
    · rw [if_neg hk] at hs
      exact hold s hs

theorem says_head {ms : List Nat → Int} {l : List Nat} {r : Raw} (h : Says ms l r) : l.head? ≠ some 59 := by
  cases h <;> assumption

/-- The whole file. -/
theorem run_says {w : Nat} {ms : List Nat → Int} {junk : Nat → List Nat} {lines : List (List Nat)} {n : Nat} {more : List (Nat × Raw)}
    (hf : FileSays ms junk n lines more) : ∀ {rs : List (Nat × Raw)} {st : St}, Inv w n rs st →
      ∃ st', run w ms junk st lines = .ok st' ∧ ∃ n', Inv w n' (rs ++ more) st' := by
  induction hf with
  | nil n => exact fun h => ⟨_, rfl, n, by rw [List.append_nil]; exact h⟩
  | comment n l ls rs hc _ ih =>
    intro rs0 st h
    obtain ⟨st1, h1, h2⟩ := inv_comment h ms (junk st.lineNum) l hc
    obtain ⟨st2, h3, h4⟩ := ih h2
    exact ⟨st2, by rw [run, h1]; exact h3, h4⟩
  | line n l r r' ls rs hs hj hn _ ih =>
    intro rs0 st h
    obtain ⟨st1, h1, h2⟩ := inv_line h ms (junk st.lineNum) l (says_head hs) (raw_says hs (by rw [h.line]; exact hj) hn)
    obtain ⟨st2, h3, h4⟩ := ih h2
    refine ⟨st2, by rw [run, h1]; exact h3, ?_⟩
    rw [List.append_assoc] at h4
    exact h4

end Verif.StmIn
