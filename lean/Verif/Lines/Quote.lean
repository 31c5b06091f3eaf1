import Verif.Lines.Tok
/-!
# Proofs about quoted tokens and numbered fields
-/
set_option autoImplicit false
namespace Verif.Lines
open Verif.Text

theorem toQuote_closed (body r : List Nat) (h : 34 ∉ body) : toQuote (body ++ 34 :: r) = (body ++ [34], r) := by
  induction body with
  | nil => rfl
  | cons a body ih =>
    simp only [List.mem_cons, not_or] at h
    simp only [List.cons_append, toQuote]
    rw [if_neg (fun h' => h.1 h'.symm), ih h.2]

theorem toQuote_open (body : List Nat) (h : 34 ∉ body) : toQuote body = (body, []) := by
  induction body with
  | nil => rfl
  | cons a body ih =>
    simp only [List.mem_cons, not_or] at h
    simp only [toQuote]
    rw [if_neg (fun h' => h.1 h'.symm), ih h.2]

theorem sepB_quote {set : List Nat} (hq : 34 ∉ set) (body : List Nat) : sepB set (34 :: body) = false := by
  cases body <;> simp [sepB, hq]

theorem spn_spec (e : Enc) (set : List Nat) (hset : ∀ b ∈ set, b < 128) (hq : 34 ∉ set) (us : List (List Nat)) (hu : Units e us) :
    spn e set us.flatten = some (us.dropWhile (sepB set)).flatten := by
  induction hu with
  | nil => rfl
  | @unclosed body _ =>
    rw [List.dropWhile_cons_of_neg (by simp [sepB_quote hq])]
    simp only [List.flatten_cons, List.flatten_nil, List.append_nil]
    unfold spn
    simp only [nbytes_ascii e (show 34 < 128 by decide)]
    rw [if_neg (by decide), if_neg hq]
  | @cons u us hu _ ih =>
    rcases hu with ⟨hc, hne⟩ | ⟨body, rfl, _⟩
    · obtain ⟨b, rest, e1, hn⟩ := isChar_cons hc
      subst e1
      have hs := sepB_char hset hn
      simp only [List.flatten_cons, List.cons_append]
      unfold spn
      simp only [hn]
      by_cases hr : 1 < rest.length + 1
      · rw [if_pos hr]
        have : sepB set (b :: rest) = false := by
          cases rest with
          | nil => simp at hr
          | cons _ _ => rfl
        rw [List.dropWhile_cons_of_neg (by rw [this]; simp)]
        rfl
      · rw [if_neg hr]
        have hr' : rest = [] := by
          cases rest with
          | nil => rfl
          | cons _ _ => simp at hr
        subst hr'
        by_cases hb : b ∈ set
        · rw [if_pos hb, List.dropWhile_cons_of_pos (by rw [hs]; simpa using hb)]
          exact ih
        · rw [if_neg hb, List.dropWhile_cons_of_neg (by rw [hs]; simpa using hb)]
          rfl
    · simp only [List.cons_append]
      rw [List.dropWhile_cons_of_neg (by simp [sepB_quote hq])]
      simp only [List.flatten_cons, List.cons_append]
      unfold spn
      simp only [nbytes_ascii e (show 34 < 128 by decide)]
      rw [if_neg (by decide), if_neg hq]

theorem qscan_spec (e : Enc) (set : List Nat) (hset : ∀ b ∈ set, b < 128) (hq : 34 ∉ set) (us : List (List Nat)) (hu : Units e us)
    (fuel : Nat) (hf : us.flatten.length ≤ fuel) :
    qscan e set fuel us.flatten =
      some ((us.takeWhile (fun c => !sepB set c)).flatten, (us.dropWhile (fun c => !sepB set c)).flatten) := by
  induction hu generalizing fuel with
  | nil => unfold qscan; rfl
  | @unclosed body hb =>
    rw [List.takeWhile_cons_of_pos (by simp [sepB_quote hq]), List.dropWhile_cons_of_pos (by simp [sepB_quote hq])]
    simp only [List.flatten_cons, List.flatten_nil, List.append_nil, List.takeWhile_nil, List.dropWhile_nil] at hf ⊢
    cases fuel with
    | zero => simp at hf
    | succ fuel =>
      unfold qscan
      simp only [nbytes_ascii e (show 34 < 128 by decide)]
      rw [if_neg (by decide), if_pos trivial, toQuote_open body hb]
      simp only
      unfold qscan
      simp
  | @cons u us hu _ ih =>
    rcases hu with ⟨hc, hne⟩ | ⟨body, rfl, hb⟩
    · obtain ⟨b, rest, e1, hn⟩ := isChar_cons hc
      subst e1
      have hs := sepB_char hset hn
      simp only [List.flatten_cons, List.cons_append]
      cases fuel with
      | zero => simp at hf
      | succ fuel =>
        have hf' : us.flatten.length ≤ fuel := by
          simp only [List.flatten_cons, List.cons_append, List.length_cons, List.length_append] at hf; omega
        unfold qscan
        simp only [hn]
        by_cases hr : 1 < rest.length + 1
        · rw [if_pos hr, if_pos (by simp)]
          have h0 : sepB set (b :: rest) = false := by
            cases rest with
            | nil => simp at hr
            | cons _ _ => rfl
          have : (b :: (rest ++ us.flatten)).drop (rest.length + 1) = us.flatten := by simp
          rw [this, ih fuel hf', List.takeWhile_cons_of_pos (by simp [h0]), List.dropWhile_cons_of_pos (by simp [h0])]
          simp
        · rw [if_neg hr]
          have hr' : rest = [] := by
            cases rest with
            | nil => rfl
            | cons _ _ => simp at hr
          subst hr'
          have hbq : b ≠ 34 := fun h => hne (by rw [h])
          rw [if_neg hbq]
          by_cases hb : b ∈ set
          · rw [if_pos hb, List.takeWhile_cons_of_neg (by simp [hs, hb]), List.dropWhile_cons_of_neg (by simp [hs, hb])]
            rfl
          · rw [if_neg hb, List.takeWhile_cons_of_pos (by simp [hs, hb]), List.dropWhile_cons_of_pos (by simp [hs, hb])]
            simp only [List.nil_append]
            rw [ih fuel hf']
            simp
    · simp only [List.cons_append] at hf ⊢
      rw [List.takeWhile_cons_of_pos (by simp [sepB_quote hq]), List.dropWhile_cons_of_pos (by simp [sepB_quote hq])]
      simp only [List.flatten_cons, List.cons_append, List.append_assoc, List.nil_append] at hf ⊢
      cases fuel with
      | zero => simp at hf
      | succ fuel =>
        unfold qscan
        simp only [nbytes_ascii e (show 34 < 128 by decide)]
        rw [if_neg (by decide), if_pos trivial, toQuote_closed body _ hb]
        simp only
        rw [ih fuel (by simp only [List.length_cons, List.length_append] at hf; omega)]
        simp

theorem units_sub {e : Enc} {us vs : List (List Nat)} (h : Units e (us ++ vs)) : Units e vs := by
  induction us with
  | nil => exact h
  | cons u us ih =>
    apply ih
    generalize hs : u :: us ++ vs = ws at h
    cases h with
    | nil => cases hs
    | unclosed =>
      simp only [List.cons_append, List.cons.injEq, List.append_eq_nil_iff] at hs
      rw [hs.2.1, hs.2.2]
      exact .nil
    | cons _ h =>
      simp only [List.cons_append, List.cons.injEq] at hs
      rw [hs.2]
      exact h

theorem units_ne {e : Enc} {u : List Nat} {us : List (List Nat)} (h : Units e (u :: us)) : ∃ b r, u = b :: r := by
  generalize hs : u :: us = ws at h
  cases h with
  | nil => cases hs
  | unclosed => injection hs with hs; exact ⟨_, _, hs⟩
  | cons hu =>
    injection hs with hs
    subst hs
    rcases hu with ⟨⟨b, r, e1, _⟩, _⟩ | ⟨body, e1, _⟩
    · exact ⟨b, r, e1⟩
    · exact ⟨34, body ++ [34], by simpa using e1⟩

/-- One call of `strqtok`. -/
theorem strqtok_step (e : Enc) (set : List Nat) (hset : ∀ b ∈ set, b < 128) (hq : 34 ∉ set) (us : List (List Nat)) (hu : Units e us)
    (data arg : Option (List Nat)) (hb : arg.or data = some us.flatten) :
    (strqtok e set data arg = some (none, none) ∧ Fields (IsSep set) us []) ∨
    ∃ t us', strqtok e set data arg = some (some t.flatten, some us'.flatten) ∧ Units e us' ∧ us'.length < us.length ∧
      ∀ ts, Fields (IsSep set) us' ts → Fields (IsSep set) us (t :: ts) := by
  unfold strqtok
  rw [hb]
  simp only
  rw [spn_spec e set hset hq us hu]
  have h1 := List.takeWhile_append_dropWhile (p := sepB set) (l := us)
  cases hd : us.dropWhile (sepB set) with
  | nil => exact .inl ⟨rfl, fields_none hd⟩
  | cons d ds =>
    right
    rw [hd] at h1
    have hu' : Units e (d :: ds) := units_sub (h1 ▸ hu)
    obtain ⟨b, r, e1⟩ := units_ne hu'
    have hfl : (d :: ds).flatten = b :: (r ++ ds.flatten) := by rw [e1]; simp
    rw [hfl]
    simp only
    rw [← hfl, qscan_spec e set hset hq (d :: ds) hu' _ (Nat.le_refl _)]
    simp only
    have h2 := List.takeWhile_append_dropWhile (p := fun c => !sepB set c) (l := d :: ds)
    have h3 : (d :: ds).takeWhile (fun c => !sepB set c) = d :: ds.takeWhile (fun c => !sepB set c) :=
      List.takeWhile_cons_of_pos (by simp [dropWhile_head hd])
    have hdrop : ((d :: ds).dropWhile (fun c => !sepB set c)).flatten.drop 1 =
        (((d :: ds).dropWhile (fun c => !sepB set c)).drop 1).flatten := by
      cases hx : (d :: ds).dropWhile (fun c => !sepB set c) with
      | nil => rfl
      | cons x xs =>
        have hsx : sepB set x = true := by simpa using dropWhile_head hx
        obtain ⟨b', e2, _⟩ := (sepB_iff _ _).1 hsx
        subst e2
        simp
    rw [hdrop]
    refine ⟨_, _, rfl, ?_, ?_, ?_⟩
    · have h4 := List.take_append_drop 1 ((d :: ds).dropWhile (fun c => !sepB set c))
      rw [← h2, ← h4] at hu'
      exact units_sub (units_sub hu')
    · have l1 := congrArg List.length h1
      have l2 := congrArg List.length h2
      rw [h3] at l2
      simp only [List.length_append, List.length_cons, List.length_drop] at l1 l2 ⊢
      omega
    · intro ts hts
      have := fields_some (set := set) (cs := us) (ts := ts) (by rw [hd]; simp) (by rw [hd]; exact hts)
      rw [hd] at this
      exact this

theorem strqtokAll_spec (e : Enc) (set : List Nat) (hset : ∀ b ∈ set, b < 128) (hq : 34 ∉ set) (us : List (List Nat))
    (hu : Units e us) (data arg : Option (List Nat)) (hb : arg.or data = some us.flatten) (fuel : Nat) (hf : us.length < fuel) :
    ∃ ts, strqtokAll e set fuel data arg = some (ts.map List.flatten) ∧ Fields (IsSep set) us ts := by
  induction fuel generalizing us data arg with
  | zero => omega
  | succ fuel ih =>
    unfold strqtokAll
    rcases strqtok_step e set hset hq us hu data arg hb with ⟨h1, h2⟩ | ⟨t, us', h1, h2, h3, h4⟩
    · rw [h1]
      exact ⟨[], rfl, h2⟩
    · rw [h1]
      obtain ⟨ts, g1, g2⟩ := ih us' h2 (some us'.flatten) none rfl (by omega)
      simp only [g1, Option.map_some]
      exact ⟨t :: ts, rfl, h4 ts g2⟩

/-! ## Numbered fields -/

theorem cspn_spec (e : Enc) (set : List Nat) (hset : ∀ b ∈ set, b < 128) (cs : List (List Nat)) (hc : ∀ c ∈ cs, IsChar e c)
    (fuel : Nat) (hf : cs.flatten.length ≤ fuel) :
    cspn e set fuel cs.flatten =
      some ((cs.takeWhile (fun c => !sepB set c)).flatten, (cs.dropWhile (fun c => !sepB set c)).flatten) := by
  induction cs generalizing fuel with
  | nil => unfold cspn; rfl
  | cons c cs ih =>
    obtain ⟨b, rest, e1, hn⟩ := isChar_cons (hc c List.mem_cons_self)
    subst e1
    have hs := sepB_char hset hn
    have ih := ih (fun c hcc => hc c (List.mem_cons_of_mem _ hcc))
    simp only [List.flatten_cons, List.cons_append]
    cases fuel with
    | zero => simp at hf
    | succ fuel =>
      have hf' : cs.flatten.length ≤ fuel := by
        simp only [List.flatten_cons, List.cons_append, List.length_cons, List.length_append] at hf; omega
      unfold cspn
      simp only [hn]
      by_cases hr : 1 < rest.length + 1
      · rw [if_pos hr, if_pos (by simp)]
        have h0 : sepB set (b :: rest) = false := by
          cases rest with
          | nil => simp at hr
          | cons _ _ => rfl
        have : (b :: (rest ++ cs.flatten)).drop (rest.length + 1) = cs.flatten := by simp
        rw [this, ih fuel hf', List.takeWhile_cons_of_pos (by simp [h0]), List.dropWhile_cons_of_pos (by simp [h0])]
        simp
      · rw [if_neg hr]
        have hr' : rest = [] := by
          cases rest with
          | nil => rfl
          | cons _ _ => simp at hr
        subst hr'
        by_cases hb : b ∈ set
        · rw [if_pos hb, List.takeWhile_cons_of_neg (by simp [hs, hb]), List.dropWhile_cons_of_neg (by simp [hs, hb])]
          rfl
        · rw [if_neg hb, List.takeWhile_cons_of_pos (by simp [hs, hb]), List.dropWhile_cons_of_pos (by simp [hs, hb])]
          simp only [List.nil_append]
          rw [ih fuel hf']
          simp

/-- The white space of the C locale as a set. -/
def wsSet : List Nat := [9, 10, 11, 12, 13, 32]

theorem isSpace_iff (b : Nat) : isSpace b = true ↔ b ∈ wsSet := by
  unfold isSpace wsSet
  simp
  omega

theorem skipWs_spec (e : Enc) (cs : List (List Nat)) (hc : ∀ c ∈ cs, IsChar e c) :
    skipWs e cs.flatten = some (cs.dropWhile (sepB wsSet)).flatten := by
  have hset : ∀ b ∈ wsSet, b < 128 := by decide
  induction cs with
  | nil => rfl
  | cons c cs ih =>
    obtain ⟨b, rest, e1, hn⟩ := isChar_cons (hc c List.mem_cons_self)
    subst e1
    have hs := sepB_char hset hn
    have ih := ih (fun c hcc => hc c (List.mem_cons_of_mem _ hcc))
    simp only [List.flatten_cons, List.cons_append]
    unfold skipWs
    simp only [hn]
    by_cases hb : b ∈ wsSet
    · have hr : rest = [] := by
        rw [nbytes_ascii e (hset b hb)] at hn
        simpa using hn
      subst hr
      rw [if_pos ((isSpace_iff b).2 hb), List.dropWhile_cons_of_pos (by simp [hs, hb])]
      exact ih
    · rw [if_neg (by rw [isSpace_iff]; exact hb), List.dropWhile_cons_of_neg (by simp [hs, hb])]
      rfl

theorem dropWhile_len {α : Type} (p : α → Bool) (l : List α) : (l.dropWhile p).length ≤ l.length := by
  have := congrArg List.length (List.takeWhile_append_dropWhile (p := p) (l := l))
  simp only [List.length_append] at this
  omega

theorem nthLoop_empty (e : Enc) (field : Nat) (hfd : 0 < field) (cs : List (List Nat)) (hc : ∀ c ∈ cs, IsChar e c)
    (hh : ∀ c, cs.head? = some c → sepB wsSet c = false) (fuel : Nat) (hf : cs.length < fuel) :
    nthLoop e field fuel cs.flatten = some [] := by
  have hset : ∀ b ∈ [32, 9, 10], b < 128 := by decide
  induction fuel generalizing cs with
  | zero => omega
  | succ fuel ih =>
    unfold nthLoop
    cases hcs : cs with
    | nil => simp
    | cons c cs0 =>
      rw [← hcs]
      have hne : cs.flatten ≠ [] := by
        obtain ⟨b, rest, e1, _⟩ := isChar_cons (hc c (hcs ▸ List.mem_cons_self))
        rw [hcs, e1]; simp
      rw [if_pos ⟨hfd, hne⟩, cspn_spec e _ hset cs hc _ (Nat.le_refl _)]
      simp only
      rw [skipWs_spec e _ (fun x hx => hc x (mem_dropWhile hx))]
      simp only
      apply ih
      · exact fun x hx => hc x (mem_dropWhile (mem_dropWhile hx))
      · intro x hx
        cases hd : List.dropWhile (sepB wsSet) (List.dropWhile (fun c => !sepB [32, 9, 10] c) cs) with
        | nil => rw [hd] at hx; cases hx
        | cons y ys =>
          rw [hd] at hx
          simp at hx
          subst hx
          exact dropWhile_head hd
      · have h1 : sepB [32, 9, 10] c = false := by
          have h0 := hh c (by rw [hcs]; rfl)
          obtain ⟨b, rest, e1, _⟩ := isChar_cons (hc c (hcs ▸ List.mem_cons_self))
          subst e1
          cases rest with
          | cons _ _ => rfl
          | nil =>
            simp [sepB, wsSet] at h0 ⊢
            omega
        have : List.dropWhile (fun c => !sepB [32, 9, 10] c) cs = List.dropWhile (fun c => !sepB [32, 9, 10] c) cs0 := by
          rw [hcs, List.dropWhile_cons_of_pos (by simp [h1])]
        rw [this]
        have l1 := dropWhile_len (sepB wsSet) (List.dropWhile (fun c => !sepB [32, 9, 10] c) cs0)
        have l2 := dropWhile_len (fun c => !sepB [32, 9, 10] c) cs0
        have l3 : cs.length = cs0.length + 1 := by rw [hcs]; rfl
        omega

end Verif.Lines
