import Verif.StmIn.File
/-!
# Comments, and TRN files
-/
set_option autoImplicit false
namespace Verif.StmIn
open Verif.Lines (cstr cstr_eq)
open Verif.CtmIn (Out)

theorem tokFrom_seps {s : List Nat} (h : ∀ b ∈ s, Sep b) (x : List Nat) : tokFrom [] (s ++ x) = tokFrom [] x := by
  induction s with
  | nil => rfl
  | cons b s ih =>
    rw [List.cons_append, tokFrom, if_pos (show b = 32 ∨ b = 9 ∨ b = 13 ∨ b = 10 from h b (by simp)), if_pos rfl, List.nil_append]
    exact ih (fun c hc => h c (by simp [hc]))

theorem tokFrom_word {f : List Nat} (h : ∀ b ∈ f, ¬ Sep b) (cur x : List Nat) : tokFrom cur (f ++ x) = tokFrom (cur ++ f) x := by
  induction f generalizing cur with
  | nil => simp
  | cons b f ih =>
    rw [List.cons_append, tokFrom, if_neg (show ¬ (b = 32 ∨ b = 9 ∨ b = 13 ∨ b = 10) from h b (by simp)), ih (fun c hc => h c (by simp [hc]))]
    simp

theorem tokFrom_parts {line : List Nat} {fs : List (List Nat)} (h : Parts line fs) : tokFrom [] line = fs := by
  induction h with
  | nil s hs =>
    have := tokFrom_seps hs []
    rw [List.append_nil] at this
    rw [this]
    rfl
  | cons s f rest fs hs hf hn hr _ ih =>
    rw [tokFrom_seps hs, tokFrom_word hn, List.nil_append, ← ih]
    cases rest with
    | nil => rw [tokFrom, if_neg hf]; rfl
    | cons b rest =>
      have hb : b = 32 ∨ b = 9 ∨ b = 13 ∨ b = 10 := hr b rfl
      rw [tokFrom, if_pos hb, if_neg hf, tokFrom, if_pos hb, if_pos rfl]
      rfl

theorem comment_parts {line : List Nat} {fs : List (List Nat)} (h : Parts line fs) (h0 : 0 ∉ line) :
    comment line = catWords 0 [] ⟨[], [], [], []⟩ fs := by
  rw [comment, cstr_eq (fun c hc e => h0 (e ▸ hc)), tokFrom_parts h]

theorem quoted_value {x : List Nat} (h : 34 ∉ x) : (quoted x).filter (· ≠ 34) = x := by
  have : x.filter (· ≠ 34) = x := by
    rw [List.filter_eq_self]
    intro a ha
    exact decide_eq_true (fun e => h (e ▸ ha))
  rw [quoted, List.filter_cons, if_neg (by simp), List.filter_append, this]
  simp

theorem quoted_count (x : List Nat) : 2 ≤ (quoted x).count 34 := by
  rw [quoted, List.count_cons, List.count_append]
  simp

theorem quoted_last (x : List Nat) : (quoted x).getLast? = some 34 := by
  rw [quoted, ← List.cons_append, List.getLast?_append]
  rfl

theorem catWord_quoted {i : Nat} (hi : 2 ≤ i) (t : List Nat) (c : Cat) {x : List Nat} (hx : 34 ∉ x) :
    catWord i t c (quoted x) = ([], if i = 2 then { c with id := x } else if i = 3 then { c with title := x } else if i = 4 then { c with desc := x } else c) := by
  rw [catWord, if_neg (by omega), if_neg (by omega), if_pos (quoted_count x), if_pos (quoted_last x)]
  show ([], _) = _
  rw [quoted_value hx]

/-- After the fifth word nothing changes. -/
theorem catWords_late (ws : List (List Nat)) : ∀ (i : Nat) (t : List Nat) (c : Cat), 5 ≤ i → catWords i t c ws = c := by
  induction ws with
  | nil => intro i t c h; rfl
  | cons w ws ih =>
    intro i t c h
    rw [catWords, ih _ _ _ (by omega), catWord, if_neg (by omega), if_neg (by omega)]
    generalize (if 2 ≤ w.count 34 then w else (if t = [] then t else t ++ [32]) ++ w) = t'
    show (if w.getLast? = some 34 then _ else _ : List Nat × Cat).2 = c
    split
    · show (if i = 2 then _ else _) = c
      rw [if_neg (by omega), if_neg (by omega), if_neg (by omega)]
    · rfl

theorem catWord_one (t : List Nat) (c : Cat) (w : List Nat) :
    catWord 1 t c w = (t, if w = kwCategory then { c with type := kwCategory } else if w = kwLabel then { c with type := kwLabel } else c) := rfl

theorem entry_comment {line : List Nat} {c : Cat} (h : EntryLine line c) : comment line = c := by
  obtain ⟨hd, hp, _, h0, hk, hid, hq⟩ := h
  rw [comment_parts hp h0]
  obtain ⟨ty, id, title, desc⟩ := c
  simp only [List.mem_cons, List.not_mem_nil, or_false] at hq hk hid
  rw [catWords, catWords, catWords, catWords, catWords, catWords]
  rw [show catWord 0 [] ⟨[], [], [], []⟩ hd = ([], ⟨[], [], [], []⟩) from rfl, catWord_one]
  have hty : (if ty = kwCategory then (⟨kwCategory, [], [], []⟩ : Cat) else if ty = kwLabel then ⟨kwLabel, [], [], []⟩ else ⟨[], [], [], []⟩) = ⟨ty, [], [], []⟩ := by
    rcases hk with rfl | rfl
    · rfl
    · rfl
  show (catWord 4 _ (catWord 3 _ (catWord 2 _ (if ty = kwCategory then (⟨kwCategory, [], [], []⟩ : Cat) else if ty = kwLabel then ⟨kwLabel, [], [], []⟩ else ⟨[], [], [], []⟩) (quoted id)).2 (quoted title)).2 (quoted desc)).2 = _
  rw [hty, catWord_quoted (by omega) _ _ (hq id (by simp)), catWord_quoted (by omega) _ _ (hq title (by simp)), catWord_quoted (by omega) _ _ (hq desc (by simp))]
  rfl

theorem tokFrom_mem {l cur : List Nat} {w : List Nat} (h : w ∈ tokFrom cur l) : ∀ c ∈ w, c ∈ cur ∨ c ∈ l := by
  induction l generalizing cur with
  | nil =>
    rw [tokFrom] at h
    split at h
    · cases h
    · intro c hc
      rw [List.mem_singleton.1 h] at hc
      exact .inl hc
  | cons b l ih =>
    intro c hc
    rw [tokFrom] at h
    split at h
    · rcases List.mem_append.1 h with h | h
      · split at h
        · cases h
        · rw [List.mem_singleton.1 h] at hc
          exact .inl hc
      · rcases ih h c hc with h | h
        · cases h
        · exact .inr (by simp [h])
    · rcases ih h c hc with h | h
      · rcases List.mem_append.1 h with h | h
        · exact .inl h
        · exact .inr (by rw [List.mem_singleton.1 h]; simp)
      · exact .inr (by simp [h])

theorem catWords_noquote {ws : List (List Nat)} (h : ∀ w ∈ ws, w.getLast? ≠ some 34) : ∀ (i : Nat) (t : List Nat) (c : Cat), (catWords i t c ws).id = c.id := by
  induction ws with
  | nil => intro i t c; rfl
  | cons w ws ih =>
    intro i t c
    rw [catWords, ih (fun w hw => h w (by simp [hw])), catWord]
    split
    · rfl
    · split
      · show (if w = kwCategory then _ else _ : Cat).id = _
        split
        · rfl
        · split <;> rfl
      · show (if w.getLast? = some 34 then _ else _ : List Nat × Cat).2.id = c.id
        rw [if_neg (h w (by simp))]

theorem remark_comment {line : List Nat} (h : 34 ∉ line) : (comment line).id = [] := by
  rw [comment, catWords_noquote]
  intro w hw he
  have hm := List.mem_of_getLast? he
  rcases tokFrom_mem hw 34 hm with h' | h'
  · cases h'
  · exact h ((List.takeWhile_sublist _).subset h')

theorem step_cats {w : Nat} {ms : List Nat → Int} {junk l : List Nat} {st st' : St} (h : step w ms junk st l = .ok st') :
    st'.cats = if l.head? = some 59 then (if (comment l).id = [] then st.cats else st.cats ++ [comment l]) else st.cats := by
  rw [step] at h
  by_cases hc : l.head? = some 59
  · rw [if_pos hc] at h ⊢
    cases h
    rfl
  · rw [if_neg hc] at h ⊢
    split at h
    · cases h
      rfl
    · cases h
    · cases h

theorem run_cats {w : Nat} {ms : List Nat → Int} {junk : Nat → List Nat} {lines : List (List Nat)} {st st' : St} (h : run w ms junk st lines = .ok st')
    {cs : List Cat} (hc : CatLines lines cs) : st'.cats = st.cats ++ cs := by
  have hrun : ∀ {l : List Nat} {ls : List (List Nat)} {st : St}, run w ms junk st (l :: ls) = .ok st' →
      ∃ st1, step w ms (junk st.lineNum) st l = .ok st1 ∧ run w ms junk st1 ls = .ok st' := by
    intro l ls st h
    rw [run] at h
    split at h
    · exact ⟨_, ‹_›, h⟩
    · cases h
    · cases h
  induction hc generalizing st with
  | nil =>
    cases h
    simp
  | entry l c ls cs he _ ih =>
    obtain ⟨st1, h1, h2⟩ := hrun h
    have hcom := entry_comment he
    obtain ⟨_, _, hh, _, _, hid, _⟩ := he
    rw [ih h2, step_cats h1, if_pos hh, hcom, if_neg hid]
    simp
  | remark l ls cs hq _ ih =>
    obtain ⟨st1, h1, h2⟩ := hrun h
    rw [ih h2, step_cats h1, remark_comment hq, if_pos rfl]
    split <;> rfl
  | segment l ls cs hh _ ih =>
    obtain ⟨st1, h1, h2⟩ := hrun h
    rw [ih h2, step_cats h1, if_neg hh]

/-! ## TRN -/

theorem findLast_none {c : Nat} {l : List Nat} (h : c ∉ l) : findLast c l = none := by
  induction l with
  | nil => rfl
  | cons a l ih =>
    rw [findLast, ih (fun hm => h (by simp [hm]))]
    exact if_neg (fun e => h (by simp [e]))

theorem findLast_last {c : Nat} (x : List Nat) {y : List Nat} (h : c ∉ y) : findLast c (x ++ (c :: y)) = some x.length := by
  induction x with
  | nil =>
    rw [List.nil_append, findLast, findLast_none h]
    exact if_pos rfl
  | cons a x ih =>
    rw [List.cons_append, findLast, ih]
    rfl

theorem findLastSep_none {l : List Nat} (h : 95 ∉ l) (h' : 45 ∉ l) : findLastSep l = none := by
  induction l with
  | nil => rfl
  | cons a l ih =>
    rw [findLastSep, ih (fun hm => h (by simp [hm])) (fun hm => h' (by simp [hm]))]
    exact if_neg (fun e => e.elim (fun e => h (by simp [e])) (fun e => h' (by simp [e])))

theorem findLastSep_last {c : Nat} (hc : c = 95 ∨ c = 45) (x : List Nat) {y : List Nat} (h : 95 ∉ y) (h' : 45 ∉ y) :
    findLastSep (x ++ (c :: y)) = some x.length := by
  induction x with
  | nil =>
    rw [List.nil_append, findLastSep, findLastSep_none h h']
    exact if_pos hc
  | cons a x ih =>
    rw [List.cons_append, findLastSep, ih]
    rfl

theorem uttOf_line {line uid spkr text : List Nat} (h : UttLine line uid spkr text) : uttOf line = (uid, spkr, text) := by
  obtain ⟨tail, rfl, h1, h2, h3, h4, _⟩ := h
  have e1 : findLast 40 (text ++ (40 :: (uid ++ (41 :: tail)))) = some text.length := by
    refine findLast_last text (fun hm => ?_)
    rcases List.mem_append.1 hm with hm | hm
    · exact h1 hm
    · rcases List.mem_cons.1 hm with hm | hm
      · omega
      · exact h2 hm
  have e2 : findLast 41 (text ++ (40 :: (uid ++ (41 :: tail)))) = some (text.length + 1 + uid.length) := by
    have : text ++ (40 :: (uid ++ (41 :: tail))) = (text ++ (40 :: uid)) ++ (41 :: tail) := by simp
    rw [this, findLast_last _ h3]
    simp; omega
  have e3 : (match findLastSep uid with
    | some j => uid.take j
    | none => uid) = spkr := by
    rcases h4 with ⟨b, rest, hb, rfl, h5, h6⟩ | ⟨h5, h6, rfl⟩
    · rw [findLastSep_last hb spkr h5 h6]
      exact List.take_left
    · rw [findLastSep_none h5 h6]
  have e4 : ((text ++ (40 :: (uid ++ (41 :: tail)))).drop (text.length + 1)).take (text.length + 1 + uid.length - (text.length + 1)) = uid := by
    have : text ++ (40 :: (uid ++ (41 :: tail))) = (text ++ [40]) ++ (uid ++ (41 :: tail)) := by simp
    rw [this, show text.length + 1 = (text ++ [40]).length by simp, List.drop_left, Nat.add_sub_cancel_left, List.take_left]
  have e5 : (text ++ (40 :: (uid ++ (41 :: tail)))).take text.length = text := List.take_left
  generalize text ++ (40 :: (uid ++ (41 :: tail))) = line at *
  have e6 : (if text.length + 1 ≤ text.length + 1 + uid.length then (line.drop (text.length + 1)).take (text.length + 1 + uid.length - (text.length + 1))
      else line.drop (text.length + 1)) = uid := by rw [if_pos (by omega), e4]
  unfold uttOf
  rw [e1, e2]
  dsimp only
  rw [e6, if_neg (Nat.succ_ne_zero _), Nat.add_sub_cancel, e5]
  exact Prod.ext rfl (Prod.ext e3 rfl)

theorem trn_run {n e : Nat} {lines : List (List Nat)} {us : List Utt} (h : TrnSays n e lines us) : ∀ {done : List Utt} {m : List (List Nat × List Utt)},
    (m.map Prod.fst).Pairwise (· < ·) → (∀ k, k ∈ m.map Prod.fst ↔ ∃ x ∈ done, x.spkr = k) → (∀ k, under k m = done.filter (fun x => x.spkr = k)) →
      ((trnRun n e m lines).map Prod.fst).Pairwise (· < ·) ∧
        (∀ k, k ∈ (trnRun n e m lines).map Prod.fst ↔ ∃ x ∈ done ++ us, x.spkr = k) ∧
          ∀ k, under k (trnRun n e m lines) = (done ++ us).filter (fun x => x.spkr = k) := by
  induction h with
  | nil n e =>
    intro done m h1 h2 h3
    rw [List.append_nil]
    exact ⟨h1, h2, h3⟩
  | comment n e l ls us hc _ ih =>
    intro done m h1 h2 h3
    rw [trnRun, if_pos hc]
    exact ih h1 h2 h3
  | line n e l uid spkr text ls us hu _ ih =>
    intro done m h1 h2 h3
    have hhead : l.head? ≠ some 59 := hu.choose_spec.2.2.2.2.2
    rw [trnRun, if_neg hhead]
    dsimp only
    rw [uttOf_line hu]
    have hi := ih (done := done ++ [⟨40 :: (uid ++ [41]), spkr, text, n, e⟩])
      (m := insert spkr ⟨[40] ++ uid ++ [41], spkr, text, n, e⟩ m) (insert_sorted _ _ _ h1) ?_ ?_
    · rw [List.append_assoc done] at hi
      exact hi
    · intro k
      rw [insert_keys, h2]
      constructor
      · rintro (rfl | ⟨x, hx, rfl⟩)
        · exact ⟨_, List.mem_append.2 (.inr (List.mem_singleton.2 rfl)), rfl⟩
        · exact ⟨x, by simp [hx], rfl⟩
      · rintro ⟨x, hx, rfl⟩
        rcases List.mem_append.1 hx with hx | hx
        · exact .inr ⟨x, hx, rfl⟩
        · cases List.mem_singleton.1 hx
          exact .inl rfl
    · intro k
      rw [insert_under _ _ _ h1, List.filter_append]
      by_cases hk : k = spkr
      · subst hk
        rw [if_pos rfl, h3, List.filter_cons, if_pos (decide_eq_true rfl)]
        rfl
      · rw [if_neg hk, h3, List.filter_cons, if_neg (by rw [decide_eq_true_eq]; exact fun e => hk e.symm), List.filter_nil, List.append_nil]

end Verif.StmIn
