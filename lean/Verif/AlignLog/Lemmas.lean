import Verif.AlignLog.Spec
import Verif.AscSgml.Tags
/-!
# Lemmas: fields, insertion into lists
-/
set_option autoImplicit false
namespace Verif.AlignLog
open Verif.AscSgml (dec secs numOf millis dec_spec numOf_dec millis_secs secs_bytes Digit)

/-- Fields joined by commas. -/
def join : List (List Nat) → List Nat
  | [] => []
  | [f] => f
  | f :: g :: l => f ++ 44 :: join (g :: l)

theorem splitComma_ne (l : List Nat) : splitComma l ≠ [] := by
  cases l with
  | nil => unfold splitComma; exact List.cons_ne_nil _ _
  | cons b l =>
    unfold splitComma
    split
    · exact List.cons_ne_nil _ _
    · split <;> exact List.cons_ne_nil _ _

theorem split_one (f : List Nat) (h : 44 ∉ f) : splitComma f = [f] := by
  induction f with
  | nil => rfl
  | cons b f ih =>
    unfold splitComma
    rw [if_neg (fun he => h (by rw [he]; exact List.mem_cons_self)), ih (fun hm => h (List.mem_cons_of_mem _ hm))]

theorem split_cons (f l : List Nat) (h : 44 ∉ f) : splitComma (f ++ 44 :: l) = f :: splitComma l := by
  induction f with
  | nil => show splitComma (44 :: l) = _; rw [splitComma, if_pos rfl]
  | cons b f ih =>
    show splitComma (b :: (f ++ 44 :: l)) = _
    rw [splitComma, if_neg (fun he => h (by rw [he]; exact List.mem_cons_self)), ih (fun hm => h (List.mem_cons_of_mem _ hm))]

theorem split_join (fs : List (List Nat)) (hne : fs ≠ []) (h : ∀ f ∈ fs, 44 ∉ f) : splitComma (join fs) = fs := by
  induction fs with
  | nil => exact absurd rfl hne
  | cons f fs ih =>
    cases fs with
    | nil => exact split_one f (h f List.mem_cons_self)
    | cons g fs =>
      show splitComma (f ++ 44 :: join (g :: fs)) = _
      rw [split_cons f _ (h f List.mem_cons_self), ih (List.cons_ne_nil _ _) (fun x hx => h x (List.mem_cons_of_mem _ hx))]

/-! ## Clean bytes -/

theorem clean_nil : Clean [] := fun b hb => absurd hb List.not_mem_nil

theorem clean_append {a b : List Nat} (ha : Clean a) (hb : Clean b) : Clean (a ++ b) := by
  intro x hx
  rcases List.mem_append.1 hx with h | h
  · exact ha x h
  · exact hb x h

theorem clean_dec (n : Nat) : Clean (dec n) := by
  intro b hb
  have := (dec_spec n).2.1 b hb
  unfold Digit at this
  omega

theorem clean_time (n : Int) : Clean (timeText n) := by
  unfold timeText
  split
  · exact clean_nil
  · intro b hb
    have := (secs_bytes n).2 b hb
    unfold Digit at this
    omega

theorem clean_bar (l : List Nat) : Clean (barText l) := by
  unfold barText
  induction l with
  | nil => exact clean_nil
  | cons a l ih =>
    cases l with
    | nil => show Clean ([124].intercalate [dec a]); rw [List.intercalate_singleton]; exact clean_dec a
    | cons b l =>
      show Clean ([124].intercalate (dec a :: dec b :: l.map dec))
      rw [List.intercalate_cons_cons]
      refine clean_append (clean_append (clean_dec a) ?_) ih
      intro x hx
      rcases List.mem_singleton.1 hx with rfl
      omega

theorem clean_iff (w : List Nat) : Clean w → 44 ∉ w ∧ w.filter (fun b => !isWs b) = w := by
  intro h
  refine ⟨fun hm => (h 44 hm).1 rfl, List.filter_eq_self.2 (fun b hb => ?_)⟩
  have := h b hb
  unfold isWs
  simp only [Bool.not_eq_true', Bool.or_eq_false_iff, decide_eq_false_iff_not, Bool.and_eq_false_imp, decide_eq_true_eq]
  omega

theorem join_clean (fs : List (List Nat)) (h : ∀ f ∈ fs, Clean f) : (join fs).filter (fun b => !isWs b) = join fs := by
  induction fs with
  | nil => rfl
  | cons f fs ih =>
    cases fs with
    | nil => exact (clean_iff f (h f List.mem_cons_self)).2
    | cons g fs =>
      show (f ++ 44 :: join (g :: fs)).filter _ = f ++ 44 :: join (g :: fs)
      rw [List.filter_append, (clean_iff f (h f List.mem_cons_self)).2, List.filter_cons_of_pos (by decide),
        ih (fun x hx => h x (List.mem_cons_of_mem _ hx))]

theorem timeField_eq (n : Int) : timeField n = timeText n := by
  unfold timeField timeText
  by_cases h : n < 0
  · rw [if_pos h, if_neg (by omega)]
  · rw [if_neg h, if_pos (by omega)]

theorem barred_eq (l : List Nat) : barred l = barText l := by
  unfold barText
  induction l with
  | nil => rfl
  | cons a l ih =>
    cases l with
    | nil => show dec a = _; rw [List.map_cons, List.map_nil, List.intercalate_singleton]
    | cons b l =>
      show dec a ++ 124 :: barred (b :: l) = _
      rw [ih]
      simp only [List.map_cons, List.intercalate_cons_cons, List.append_assoc, List.singleton_append]

theorem csv_join (t : Tok) : csv t = join (tokCols t) := by
  unfold csv tokCols
  simp only [join, timeField_eq, barred_eq, List.append_assoc, List.cons_append]

theorem csvSeg_join (s : Seg) : csvSeg s = join (segCols s) := by
  unfold csvSeg segCols
  simp only [join, timeField_eq, List.append_assoc, List.cons_append, List.nil_append]
  rfl

theorem blank_join : blank = join noCols := by decide

theorem join_append (a b : List (List Nat)) (ha : a ≠ []) (hb : b ≠ []) : join (a ++ b) = join a ++ 44 :: join b := by
  induction a with
  | nil => exact absurd rfl ha
  | cons f a ih =>
    cases a with
    | nil =>
      cases b with
      | nil => exact absurd rfl hb
      | cons g b => rfl
    | cons g a =>
      show f ++ 44 :: join ((g :: a) ++ b) = (f ++ 44 :: join (g :: a)) ++ 44 :: join b
      rw [ih (List.cons_ne_nil _ _), List.append_assoc]; rfl

theorem line_join (type : List Nat) (sg : Nat) (file channel eval : List Nat) (r h : List (List Nat)) (hr : r ≠ [])
    (hh : h ≠ []) :
    line type sg file channel eval (join r) (join h) = join ([type, dec sg, file, channel, eval] ++ (r ++ h)) := by
  rw [join_append _ _ (List.cons_ne_nil _ _) (fun he => hr (List.append_eq_nil_iff.1 he).1), join_append _ _ hr hh]
  unfold line
  simp only [join, List.append_assoc, List.cons_append]

theorem tokCols_clean (t : Tok) (h : CleanTok t) : ∀ f ∈ tokCols t, Clean f := by
  intro f hf
  simp only [tokCols, List.mem_cons, List.not_mem_nil, or_false] at hf
  rcases hf with rfl | rfl | rfl | rfl | rfl | rfl | rfl | rfl | rfl | rfl | rfl
  · exact clean_dec _
  · exact clean_time _
  · exact clean_time _
  · exact h.2.2.1
  · exact clean_dec _
  · exact clean_time _
  · exact clean_time _
  · exact h.1
  · exact h.2.1
  · exact clean_bar _
  · exact clean_bar _

theorem segCols_clean (s : Seg) (h : CleanSeg s) : ∀ f ∈ segCols s, Clean f := by
  intro f hf
  simp only [segCols, List.mem_cons, List.not_mem_nil, or_false] at hf
  rcases hf with rfl | rfl | rfl | rfl | rfl | rfl | rfl | rfl | rfl | rfl | rfl
  · exact clean_dec _
  · exact clean_time _
  · exact clean_time _
  · exact h.1
  all_goals exact clean_nil

theorem noCols_clean : ∀ f ∈ noCols, Clean f := by
  intro f hf
  simp only [noCols, List.mem_cons, List.not_mem_nil, or_false, or_self] at hf
  rw [hf]; exact clean_nil

/-- The types of lines. -/
def IsType (w : List Nat) : Prop := w = bytes "SG" ∨ w = bytes "NO" ∨ w = bytes "YES"

theorem type_clean (w : List Nat) (h : IsType w) : Clean w := by
  rcases h with rfl | rfl | rfl <;> (intro b hb; revert b; decide)

/-- A line of clean fields is read as these fields. -/
theorem fields_of (type : List Nat) (ht : IsType type) (fs : List (List Nat)) (hne : fs ≠ []) (hc : ∀ f ∈ fs, Clean f) :
    fieldsOf (logged (join (type :: fs))) = some (type :: fs) := by
  have hc' : ∀ f ∈ type :: fs, Clean f := by
    intro f hf
    rcases List.mem_cons.1 hf with rfl | hf
    · exact type_clean _ ht
    · exact hc f hf
  have h1 : (bytes "[ALIGNMENT]").isPrefixOf (logged (join (type :: fs))) = true := by
    rw [List.isPrefixOf_iff_prefix]
    exact ⟨32 :: join (type :: fs), rfl⟩
  have h2 : (logged (join (type :: fs))).drop 11 = 32 :: join (type :: fs) := rfl
  have h3 : (bytes "Aligned").isPrefixOf ((32 :: join (type :: fs)).dropWhile isWs) = false := by
    rw [List.dropWhile_cons_of_pos (by decide)]
    cases fs with
    | nil => exact absurd rfl hne
    | cons f fs =>
      rcases ht with rfl | rfl | rfl <;> rfl
  unfold fieldsOf
  rw [if_pos h1, h2]
  dsimp only
  rw [if_neg (by rw [h3]; exact Bool.false_ne_true), List.filter_cons_of_neg (by decide), join_clean _ hc',
    split_join _ (List.cons_ne_nil _ _) (fun f hf => (clean_iff f (hc' f hf)).1)]

/-! ## Hashes -/

theorem upsert_new {α : Type} (p : α → Bool) (new : α) (f : α → α) (l : List α) (h : ∀ x ∈ l, p x = false) :
    upsert p new f l = l ++ [f new] := by
  induction l with
  | nil => rfl
  | cons x l ih =>
    unfold upsert
    rw [if_neg (by rw [h x List.mem_cons_self]; exact Bool.false_ne_true), ih (fun y hy => h y (List.mem_cons_of_mem _ hy))]
    rfl

theorem upsert_last {α : Type} (p : α → Bool) (new : α) (f : α → α) (l : List α) (x : α) (h : ∀ y ∈ l, p y = false)
    (hx : p x = true) : upsert p new f (l ++ [x]) = l ++ [f x] := by
  induction l with
  | nil => show upsert p new f [x] = _; unfold upsert; rw [if_pos hx]; rfl
  | cons y l ih =>
    show upsert p new f (y :: (l ++ [x])) = _
    unfold upsert
    rw [if_neg (by rw [h y List.mem_cons_self]; exact Bool.false_ne_true), ih (fun z hz => h z (List.mem_cons_of_mem _ hz))]
    rfl

theorem dec_inj {a b : Nat} (h : dec a = dec b) : a = b := by rw [← numOf_dec a, h, numOf_dec b]

theorem time_inj {a b : Int} (ha : 0 ≤ a) (hb : 0 ≤ b) (h : timeText a = timeText b) : a = b := by
  unfold timeText at h
  rw [if_neg (by omega), if_neg (by omega)] at h
  have := congrArg millis h
  rw [millis_secs, millis_secs] at this
  omega

theorem dec_bar (n : Nat) : 124 ∉ dec n := by
  intro hm
  have := (dec_spec n).2.1 124 hm
  unfold Digit at this
  omega

theorem cut_bar {a b x y : List Nat} (ha : 124 ∉ a) (hb : 124 ∉ b) (h : a ++ 124 :: x = b ++ 124 :: y) : a = b ∧ x = y := by
  induction a generalizing b with
  | nil =>
    cases b with
    | nil => exact ⟨rfl, (List.cons.inj h).2⟩
    | cons c b => exact absurd ((List.cons.inj h).1 ▸ List.mem_cons_self) hb
  | cons c a ih =>
    cases b with
    | nil => exact absurd ((List.cons.inj h).1 ▸ List.mem_cons_self) ha
    | cons d b =>
      obtain ⟨h1, h2⟩ := List.cons.inj h
      obtain ⟨h3, h4⟩ := ih (fun hm => ha (List.mem_cons_of_mem _ hm)) (fun hm => hb (List.mem_cons_of_mem _ hm)) h2
      exact ⟨by rw [h1, h3], h4⟩

theorem bar_inj {l m : List Nat} (h : barText l = barText m) : l = m := by
  rw [← barred_eq, ← barred_eq] at h
  induction l generalizing m with
  | nil =>
    cases m with
    | nil => rfl
    | cons b m =>
      cases m with
      | nil => exact absurd h.symm (dec_spec b).1
      | cons c m => exact absurd h.symm (fun he => (dec_spec b).1 (List.append_eq_nil_iff.1 he).1)
  | cons a l ih =>
    cases l with
    | nil =>
      cases m with
      | nil => exact absurd h (dec_spec a).1
      | cons b m =>
        cases m with
        | nil => rw [dec_inj h]
        | cons c m =>
          have h' : dec a = dec b ++ 124 :: barred (c :: m) := h
          exact absurd (h' ▸ List.mem_append_right _ List.mem_cons_self) (dec_bar a)
    | cons a' l =>
      cases m with
      | nil => exact absurd h (fun he => (dec_spec a).1 (List.append_eq_nil_iff.1 he).1)
      | cons b m =>
        cases m with
        | nil =>
          have h' : dec a ++ 124 :: barred (a' :: l) = dec b := h
          exact absurd (h' ▸ List.mem_append_right _ List.mem_cons_self) (dec_bar b)
        | cons c m =>
          obtain ⟨h1, h2⟩ := cut_bar (dec_bar a) (dec_bar b) h
          rw [dec_inj h1, ih h2]

end Verif.AlignLog
