import Verif.Rfilter.Parse
import Verif.Rfilter.Apply
import Verif.Lines.Read
/-!
# Reading a rule file
-/
set_option autoImplicit false
namespace Verif.Rfilter
open Verif.Lines (isSpace cstr fgets takeLine takeLine_spec Ended cstr_eq)

/-! ## What holds of every rule that is read -/

theorem strstr_bound {pat l : List Nat} {i : Nat} (h : strstr pat l = some i) : i + pat.length ≤ l.length := by
  induction l generalizing i with
  | nil =>
    rw [strstr] at h
    split at h
    · rename_i hp
      cases h
      rw [hp]
      simp
    · cases h
  | cons a l ih =>
    rw [strstr] at h
    split at h
    · rename_i hp
      cases h
      have := (List.isPrefixOf_iff_prefix.1 hp).length_le
      omega
    · cases hs : strstr pat l with
      | none => rw [hs] at h; cases h
      | some j =>
        rw [hs] at h
        cases h
        have := ih hs
        simp only [List.length_cons]
        omega

theorem backSp_le (l : List Nat) (lo e : Nat) : backSp l lo e ≤ e := by
  induction e with
  | zero => exact Nat.le_refl _
  | succ e ih =>
    rw [backSp]
    split
    · omega
    · exact Nat.le_refl _

theorem substr_mem {l : List Nat} {p : Int × Int} {b : Nat} (h : b ∈ substr l p) : b ∈ l := by
  rw [substr] at h
  split at h
  · simp at h
  · exact List.mem_of_mem_drop (List.mem_of_mem_take h)

theorem field_mem {l : List Nat} {s e b : Nat} (h : b ∈ field l s e) : b ∈ l := by
  rw [field] at h
  split at h
  · exact substr_mem h
  · simp at h

theorem substr_length {l : List Nat} {p : Int × Int} (h1 : 0 ≤ p.1) (h2 : p.2 < l.length) (hne : substr l p ≠ []) :
    ((substr l p).length : Int) = p.2 - p.1 + 1 := by
  by_cases h : p.2 - p.1 + 1 < 1
  · rw [substr, if_pos h] at hne
    exact absurd rfl hne
  · rw [substr, if_neg h, List.length_take, List.length_drop]
    omega

theorem lhs_sound (l : List Nat) (ieq : Nat) (h : ieq ≤ l.length) : (lhs l ieq).1 ≠ [] → (lhs l ieq).2 = (lhs l ieq).1.length := by
  intro hne
  by_cases hs : skipSp l 0 < ieq
  · rw [lhs, if_pos hs] at hne ⊢
    simp only at hne ⊢
    have hb := backSp_le l (skipSp l 0) (ieq - 1)
    rw [substr_length _ _ hne]
    · rw [unquote]
      split
      · simp only; omega
      · simp only; omega
    · rw [unquote]
      split
      · simp only; omega
      · simp only; omega

  · rw [lhs, if_neg hs] at hne
    exact absurd rfl hne

theorem parseRule_sound {l : List Nat} {r : Rule} (h : parseRule l = .ok r) :
    r.Sound ∧ (∀ b ∈ r.sin, b ∈ l) ∧ (∀ b ∈ r.sout, b ∈ l) ∧ (∀ b ∈ r.lctx, b ∈ l) ∧ ∀ b ∈ r.rctx, b ∈ l := by
  have hlm : ∀ ieq b, b ∈ (lhs l ieq).1 → b ∈ l := by
    intro ieq b hb
    rw [lhs] at hb
    split at hb
    · exact substr_mem hb
    · simp at hb
  have hcm : ∀ m b, b ∈ (contexts l m).1 ∨ b ∈ (contexts l m).2 → b ∈ l := by
    intro m b hb
    cases m with
    | none => simp [contexts] at hb
    | some ic =>
      rw [contexts] at hb
      split at hb
      · simp at hb
      · rcases hb with hb | hb
        · exact field_mem hb
        · exact field_mem hb
  rw [parseRule] at h
  split at h
  · cases h
  · split at h
    · cases h
    · rename_i ieq hieq
      have hle : ieq ≤ l.length := by have := strstr_bound hieq; omega
      split at h
      · cases h
      · cases h
        exact ⟨lhs_sound l ieq hle, hlm ieq, fun b hb => field_mem hb, fun b hb => hcm _ b (.inl hb), fun b hb => hcm _ b (.inr hb)⟩
      · cases h
        exact ⟨lhs_sound l ieq hle, hlm ieq, fun b hb => field_mem hb, by simp, by simp⟩

/-- A rule without newlines. -/
def Rule.NoNl (r : Rule) : Prop := 10 ∉ r.sin ∧ 10 ∉ r.sout ∧ 10 ∉ r.lctx ∧ 10 ∉ r.rctx

theorem rtrim_mem {l : List Nat} {b : Nat} (h : b ∈ rtrim l) : b ∈ l := by
  rw [rtrim, List.mem_reverse] at h
  have := (List.dropWhile_sublist (l := l.reverse) isSpace).subset h
  exact List.mem_reverse.1 this

theorem rtrim_snoc (l : List Nat) (c : Nat) (h : Blank c) : rtrim (l ++ [c]) = rtrim l := by
  rw [rtrim, rtrim, List.reverse_append]
  simp [(isSpace_iff c).2 h]

theorem removeComments_mem {flag l : List Nat} {b : Nat} (h : b ∈ removeComments flag l) : b ∈ l ∨ b = 32 := by
  rw [removeComments] at h
  split at h
  · exact .inl h
  · split at h
    · exact .inl h
    · rcases List.mem_append.1 h with h | h
      · exact .inl (List.mem_of_mem_take h)
      · exact .inr (List.mem_replicate.1 h).2

/-- What every rule set under construction keeps. -/
def RdOk (st : Rd) : Prop := ∀ r ∈ st.rules, r.Sound ∧ r.NoNl

theorem ruleLine_ok {flag : List Nat} {st st' : Rd} {raw : List Nat} (hraw : 10 ∉ rtrim raw) (hst : RdOk st)
    (h : ruleLine flag st raw = .ok st') : RdOk st' := by
  rw [ruleLine] at h
  split at h
  · split at h
    · rw [auxLine] at h
      split at h
      · cases h
      · cases h
        exact hst
    · split at h
      · cases h
      · have hst2 : RdOk (allocate st) := by
          rw [allocate]
          split <;> exact hst
        rw [dataLine] at h
        split at h
        · cases h
        · split at h <;> cases h
        · cases h
        · cases h
        · rename_i r hr
          split at h
          · rw [store] at h
            split at h
            · split at h
              · cases h
                have hs := parseRule_sound hr
                have h10 : 10 ∉ removeComments flag (rtrim raw) := by
                  intro hm
                  rcases removeComments_mem hm with h | h
                  · exact hraw h
                  · cases h
                intro r' hr'
                rcases List.mem_append.1 hr' with hr' | hr'
                · exact hst2 r' hr'
                · rw [List.mem_singleton.1 hr']
                  exact ⟨hs.1, fun hm => h10 (hs.2.1 _ hm), fun hm => h10 (hs.2.2.1 _ hm), fun hm => h10 (hs.2.2.2.1 _ hm),
                    fun hm => h10 (hs.2.2.2.2 _ hm)⟩
              · cases h
            · cases h
          · cases h
  · cases h
    exact hst

theorem ruleLines_ok {flag : List Nat} {raws : List (List Nat)} {st st' : Rd} (hraw : ∀ raw ∈ raws, 10 ∉ rtrim raw) (hst : RdOk st)
    (h : ruleLines flag raws st = .ok st') : RdOk st' := by
  induction raws generalizing st with
  | nil =>
    cases h
    exact hst
  | cons raw raws ih =>
    rw [ruleLines] at h
    split at h
    · rename_i st1 h1
      exact ih (fun r hr => hraw r (List.mem_cons_of_mem _ hr)) (ruleLine_ok (hraw raw (List.mem_cons_self ..)) hst h1) h
    · cases h
    · cases h
    · cases h

/-- A text read by `fgets`: at most one newline, at the end. -/
theorem getLines_nl (n fuel : Nat) (s : List Nat) : ∀ raw ∈ getLines n fuel s, 10 ∉ rtrim raw ∧ (10 ∉ raw ∨ Ended raw) := by
  induction fuel generalizing s with
  | zero => simp [getLines]
  | succ fuel ih =>
    intro raw hraw
    rw [getLines] at hraw
    split at hraw
    · simp at hraw
    · rename_i l rest hg
      rcases List.mem_cons.1 hraw with hraw | hraw
      · have hl : l = (takeLine (n - 1) s).1 := by
          rw [fgets] at hg
          split at hg
          · cases hg
          · rw [Option.some.inj hg]
        have key : 10 ∉ raw ∨ Ended raw := by
          rcases (takeLine_spec (n - 1) s).2 with ⟨l', e, hn⟩ | ⟨hn, _⟩
          · rw [← hl] at e
            rw [hraw, e, cstr, List.takeWhile_append]
            split
            · rename_i hlen
              have h1 : l'.takeWhile (· ≠ 0) = l' :=
                List.Sublist.eq_of_length (List.takeWhile_sublist _) hlen
              right
              refine ⟨l', ?_, hn⟩
              simp
            · left
              intro hm
              exact hn ((List.takeWhile_sublist _).subset hm)
          · left
            rw [← hl] at hn
            rw [hraw, cstr]
            intro hm
            exact hn ((List.takeWhile_sublist _).subset hm)
        refine ⟨?_, key⟩
        rcases key with h | ⟨l', e, h⟩
        · exact fun hm => h (rtrim_mem hm)
        · rw [e, rtrim_snoc _ _ (by simp [Blank])]
          exact fun hm => h (rtrim_mem hm)
      · exact ih rest raw hraw

/-- Every rule set that is read has its index built, and no newlines in its rules. -/
theorem getRules_ok {file : List Nat} {rs : RuleSet} (h : getRules file = .ok rs) : rs.Built ∧ ∀ r ∈ rs.rules, r.NoNl := by
  rw [getRules] at h
  split at h
  · cases h
  · rename_i l0 rest hlines
    split at h
    · rename_i st hst
      split at h
      · cases h
      · cases h
        have hok : RdOk st := ruleLines_ok (fun raw hr => (getLines_nl 132 _ file raw (by rw [hlines]; exact List.mem_cons_of_mem _ hr)).1)
          (by intro r hr; simp [rd0] at hr) hst
        exact ⟨⟨rfl, rfl, rfl, fun r hr => (hok r hr).1⟩, fun r hr => (hok r hr).2⟩
    · cases h
    · cases h
    · cases h

/-! ## Files whose lines are known -/

theorem takeLine_line (n : Nat) (l rest : List Nat) (h : 10 ∉ l) (hl : l.length + 1 ≤ n) :
    takeLine n (l ++ 10 :: rest) = (l ++ [10], rest) := by
  induction l generalizing n with
  | nil =>
    cases n with
    | zero => simp at hl
    | succ n => simp [takeLine]
  | cons c l ih =>
    cases n with
    | zero => simp at hl
    | succ n =>
      simp only [List.mem_cons, not_or] at h
      rw [List.cons_append, takeLine, if_neg (fun e => h.1 e.symm), ih n h.2 (by simp at hl; omega)]
      rfl

theorem getLines_fileOf (n : Nat) (ls : List (List Nat)) (h : ∀ l ∈ ls, ShortLine n l) (fuel : Nat) (hf : ls.length ≤ fuel) :
    getLines (n + 2) fuel (fileOf ls) = ls.map (· ++ [10]) := by
  induction ls generalizing fuel with
  | nil => cases fuel <;> simp [getLines, fileOf, fgets]
  | cons l ls ih =>
    cases fuel with
    | zero => simp at hf
    | succ fuel =>
      obtain ⟨h0, h10, hl⟩ := h l (List.mem_cons_self ..)
      have e : fileOf (l :: ls) = l ++ 10 :: fileOf ls := by simp [fileOf]
      rw [getLines, e, fgets, if_neg (by simp), show n + 2 - 1 = n + 1 by omega, takeLine_line (n + 1) l _ h10 (by omega)]
      simp only
      rw [ih (fun l' hl' => h l' (List.mem_cons_of_mem _ hl')) fuel (by simp at hf; omega), cstr_eq]
      · rfl
      · intro c hc hc0
        rcases List.mem_append.1 hc with hc | hc
        · exact h0 (by rw [← hc0]; exact hc)
        · simp at hc
          omega

theorem length_fileOf (ls : List (List Nat)) : ls.length ≤ (fileOf ls).length := by
  induction ls with
  | nil => simp
  | cons l ls ih =>
    have e : fileOf (l :: ls) = l ++ 10 :: fileOf ls := by simp [fileOf]
    rw [e]
    simp
    omega

theorem rtrim_blank (l s : List Nat) (h : ∀ b ∈ s, Blank b) : rtrim (l ++ s) = rtrim l := by
  rw [rtrim, rtrim, List.reverse_append]
  congr 1
  have : ∀ b ∈ s.reverse, isSpace b = true := fun b hb => (isSpace_iff b).2 (h b (List.mem_reverse.1 hb))
  rw [List.dropWhile_append_of_pos this]

theorem rtrim_end (l : List Nat) (c : Nat) (h : ¬ Blank c) : rtrim (l ++ [c]) = l ++ [c] := by
  rw [rtrim, List.reverse_append]
  simp [isSpace_false h]

theorem rtrim_core {l : List Nat} (h : ∀ c, l.getLast? = some c → ¬ Blank c) : rtrim l = l := by
  rcases List.eq_nil_or_concat l with e | ⟨l', c, e⟩
  · subst e; rfl
  · rw [List.concat_eq_append] at e
    rw [e] at h ⊢
    exact rtrim_end l' c (h c (by simp))

theorem rtrim_suffix (a l : List Nat) (h : a ≠ []) (hl : ∀ c, a.getLast? = some c → ¬ Blank c) :
    rtrim (a ++ l) = a ++ rtrim l := by
  rcases List.eq_nil_or_concat a with e | ⟨l', c, e⟩
  · exact absurd e h
  · rw [List.concat_eq_append] at e
    subst e
    have hc := hl c (by simp)
    rw [rtrim, rtrim, List.reverse_append, List.reverse_append, List.dropWhile_append]
    cases hd : l.reverse.dropWhile isSpace with
    | nil => simp [isSpace_false hc]
    | cons x y => simp

theorem RuleText.last {core : List Nat} {r : SRule} (h : RuleText core r) : ∃ a c, core = a ++ [c] ∧ ¬ Blank c := by
  cases h with
  | plain _ s1 wa s2 s3 wb hs hA hB h3 hno hl hr hctx =>
    by_cases hwb : wb = []
    · rw [hwb, h3.1 hwb]
      exact ⟨s1 ++ (wa ++ (s2 ++ [61])), 62, by simp, by simp [Blank]⟩
    · obtain ⟨w', c, e, hc⟩ := part_end hB hwb
      exact ⟨s1 ++ (wa ++ (s2 ++ ([61, 62] ++ (s3 ++ w')))), c, by rw [e]; simp, hc⟩
  | context _ s1 wa s2 s3 wb s4 s5 wc s6 s7 wd k hs hA hB hC hD h3 h5 h7 hno h47 h95 hbr =>
    by_cases hwd : wd = []
    · rw [hwd, h7.1 hwd]
      exact ⟨s1 ++ (wa ++ (s2 ++ ([61, 62] ++ (s3 ++ (wb ++ (s4 ++ ([47] ++ (s5 ++ (wc ++ (s6 ++ List.replicate k 95)))))))))), 95,
        by simp [List.replicate_succ'], by simp [Blank]⟩
    · obtain ⟨w', c, e, hc⟩ := part_end hD hwd
      exact ⟨s1 ++ (wa ++ (s2 ++ ([61, 62] ++ (s3 ++ (wb ++ (s4 ++ ([47] ++ (s5 ++ (wc ++ (s6 ++ (List.replicate (k + 1) 95 ++
        (s7 ++ w')))))))))))), c, by rw [e]; simp, hc⟩

theorem strstr_none {pat l : List Nat} (hp : pat ≠ []) (h : ¬ Contains pat l) : strstr pat l = none := by
  induction l with
  | nil => rw [strstr, if_neg hp]
  | cons a l ih =>
    rw [strstr, if_neg, ih]
    · rfl
    · rintro ⟨x, y, e⟩
      exact h ⟨a :: x, y, by rw [e]; rfl⟩
    · intro hq
      obtain ⟨t, ht⟩ := List.isPrefixOf_iff_prefix.1 hq
      exact h ⟨[], t, by rw [← ht]; rfl⟩

theorem strstr_some {pat l : List Nat} (h : Contains pat l) : (strstr pat l).isSome = true := by
  induction l with
  | nil =>
    obtain ⟨a, b, e⟩ := h
    have := (List.append_eq_nil_iff.1 (List.append_eq_nil_iff.1 e.symm).2).1
    rw [strstr, if_pos this]
    rfl
  | cons c l ih =>
    rw [strstr]
    split
    · rfl
    · rename_i hq
      have : Contains pat l := by
        obtain ⟨a, b, e⟩ := h
        cases a with
        | nil =>
          exfalso
          apply hq
          rw [e]
          exact List.isPrefixOf_iff_prefix.2 ⟨b, rfl⟩
        | cons x a =>
          simp only [List.cons_append, List.cons.injEq] at e
          exact ⟨a, b, e.2⟩
      have := ih this
      cases hs : strstr pat l with
      | none => rw [hs] at this; cases this
      | some j => rfl

theorem strstr_first {pat l a b : List Nat} (h : l = a ++ (pat ++ b)) (hf : ∀ x y, l = x ++ (pat ++ y) → a.length ≤ x.length) :
    strstr pat l = some a.length := by
  induction a generalizing l with
  | nil =>
    subst h
    rw [List.nil_append]
    cases hp : pat ++ b with
    | nil =>
      rw [strstr, if_pos (List.append_eq_nil_iff.1 hp).1]
      rfl
    | cons c t =>
      rw [strstr, if_pos]
      · rfl
      · rw [← hp]
        exact List.isPrefixOf_iff_prefix.2 ⟨b, rfl⟩
  | cons c a ih =>
    rw [h, List.cons_append, strstr, if_neg, ih rfl]
    · rfl
    · intro x y e
      have := hf (c :: x) y (by rw [h]; simp [e])
      simp at this
      exact this
    · intro hq
      obtain ⟨t, ht⟩ := List.isPrefixOf_iff_prefix.1 hq
      have := hf [] t (by rw [h]; exact ht.symm)
      simp at this

theorem has_iff (k l : List Nat) (hk : k ≠ []) : has k l = true ↔ Contains k l := by
  rw [has]
  by_cases h : Contains k l
  · simp [strstr_some h, h]
  · simp [strstr_none hk h, h]

/-- The state after a line. -/
def after (st : Rd) : Effect → Rd
  | .nothing => st
  | .rule r => { allocate st with rules := st.rules ++ [⟨r.left, r.source, r.source.length, r.right, r.target⟩] }
  | .caseMatters b => { st with caseSensitive := b }
  | .keepRest b => { st with copyNoHit := b }
  | .atMost n => { st with maxRules := n }

theorem upper_map (l : List Nat) : l.map upper = upperText l := rfl

theorem atobool_iff (v : List Nat) : atobool v = true ↔ Yes v := by
  rw [atobool, Yes, alike_iff, alike_iff, alike_iff]
  have e : foldOf false = lower := rfl
  rw [e]
  simp only [Bool.or_eq_true, beq_iff_eq, or_assoc]
  have h1 : ([84] : List Nat).map lower = [116] := by decide
  have h2 : ([89, 69, 83] : List Nat).map lower = [121, 101, 115] := by decide
  have h3 : ([84, 82, 85, 69] : List Nat).map lower = [116, 114, 117, 101] := by decide
  rw [h1, h2, h3]

theorem digits_eq (v : List Nat) (acc : Nat) (h : ∀ d ∈ v, 48 ≤ d ∧ d ≤ 57) :
    digits acc v = v.foldl (fun n d => n * 10 + (d - 48)) acc := by
  induction v generalizing acc with
  | nil => rfl
  | cons d v ih =>
    rw [digits, if_pos (h d (List.mem_cons_self ..)), ih _ (fun x hx => h x (List.mem_cons_of_mem _ hx))]
    rfl

theorem atol_eq (v : List Nat) (h : ∀ d ∈ v, 48 ≤ d ∧ d ≤ 57) : atol v = (number v : Int) := by
  have hd : v.dropWhile isSpace = v := by
    cases v with
    | nil => rfl
    | cons d v =>
      have := h d (List.mem_cons_self ..)
      simp [isSpace_false (b := d) (by simp [Blank]; omega)]
  rw [atol, hd]
  split
  · have := h 45 (List.mem_cons_self ..)
    omega
  · have := h 43 (List.mem_cons_self ..)
    omega
  · rw [digits_eq v 0 h]
    rfl

theorem sstok2_value {line a v c : List Nat} {q q' : Nat} (h : line = 42 :: (a ++ q :: (v ++ q' :: c))) (hq : q = 34 ∨ q = 39)
    (hq' : q' = 34 ∨ q' = 39) (ha : 34 ∉ a) (ha' : 39 ∉ a) (hv : 34 ∉ v) (hv' : 39 ∉ v) : sstok2 line = some v := by
  have hnq : ∀ l : List Nat, 34 ∉ l → 39 ∉ l → ∀ b ∈ l, (fun b => !isQuote b) b = true := by
    intro l h1 h2 b hb
    have e1 : b ≠ 34 := fun e => h1 (e ▸ hb)
    have e2 : b ≠ 39 := fun e => h2 (e ▸ hb)
    simp [isQuote, e1, e2]
  have hisq : ∀ b, b = 34 ∨ b = 39 → isQuote b = true := by
    rintro b (rfl | rfl) <;> decide
  have h42 : isQuote 42 = false := by decide
  have e1 : line.dropWhile (fun b => !isQuote b) = q :: (v ++ q' :: c) := by
    rw [h, List.dropWhile_cons, if_pos (by simp [h42]), List.dropWhile_append_of_pos (hnq a ha ha'), List.dropWhile_cons,
      if_neg (by simp [hisq q hq])]
  rw [sstok2, e1]
  simp only
  rw [List.takeWhile_append_of_pos (hnq v hv hv'), List.takeWhile_cons, if_neg (by simp [hisq q' hq'])]
  simp

theorem sstok2_any {line a c : List Nat} {q : Nat} (h : line = 42 :: (a ++ q :: c)) (hq : q = 34 ∨ q = 39) (ha : 34 ∉ a) (ha' : 39 ∉ a) :
    ∃ v, sstok2 line = some v := by
  have hnq : ∀ b ∈ a, (fun b => !isQuote b) b = true := by
    intro b hb
    have e1 : b ≠ 34 := fun e => ha (e ▸ hb)
    have e2 : b ≠ 39 := fun e => ha' (e ▸ hb)
    simp [isQuote, e1, e2]
  have hisq : isQuote q = true := by
    rcases hq with rfl | rfl <;> decide
  have h42 : isQuote 42 = false := by decide
  have e1 : line.dropWhile (fun b => !isQuote b) = q :: c := by
    rw [h, List.dropWhile_cons, if_pos (by simp [h42]), List.dropWhile_append_of_pos hnq, List.dropWhile_cons,
      if_neg (by simp [hisq])]
  exact ⟨_, by rw [sstok2, e1]⟩

theorem contains_mono {k l a b : List Nat} (h : Contains k l) : Contains k (a ++ (l ++ b)) := by
  obtain ⟨x, y, e⟩ := h
  exact ⟨a ++ x, y ++ b, by rw [e]; simp⟩

theorem not_contains_append {k l m : List Nat} (h : ¬ Contains k (l ++ m)) : ¬ Contains k l := by
  intro hc
  exact h (by simpa using contains_mono (a := []) (b := m) hc)

theorem upperText_append (a b : List Nat) : upperText (a ++ b) = upperText a ++ upperText b := by simp [upperText]

theorem validData_of {flag l : List Nat} (hne : l ≠ []) (h : flag = [] ∨ ¬ Contains flag l) : validData flag l = true := by
  rw [validData, if_neg hne]
  split
  · rfl
  · rename_i hf
    rcases h with h | h
    · exact absurd h hf
    · have : flag.isPrefixOf l = false := by
        cases hp : flag.isPrefixOf l with
        | false => rfl
        | true =>
          obtain ⟨t, ht⟩ := List.isPrefixOf_iff_prefix.1 hp
          exact absurd ⟨[], t, by rw [← ht]; rfl⟩ h
      rw [this]
      rfl

/-- An auxiliary line with its trailing white space removed. -/
theorem setting_trim {kw : List Nat} {others : List (List Nat)} {line v : List Nat} (h : Setting kw others line v) (hkw : kw ≠ [])
    (hoth : ∀ k ∈ others, k ≠ []) :
    (rtrim line).head? = some 42 ∧ sstok2 (rtrim line) = some v ∧ has kw ((rtrim line).map upper) = true ∧
    (∀ k ∈ others, has k ((rtrim line).map upper) = false) ∧ ∃ t, line = rtrim line ++ t := by
  obtain ⟨a, q, q', c, e, hq, hq', ha, ha', hv, hv', hk, ho⟩ := h
  have hb : ¬ Blank q' := by rcases hq' with rfl | rfl <;> simp [Blank]
  have e' : line = (42 :: (a ++ q :: (v ++ [q']))) ++ c := by rw [e]; simp
  have et : rtrim line = 42 :: (a ++ q :: (v ++ q' :: rtrim c)) := by
    rw [e', rtrim_suffix _ _ (by simp)]
    · simp
    · intro x hx
      have : (42 :: (a ++ q :: (v ++ [q']))).getLast? = some q' := by
        rw [show (42 :: (a ++ q :: (v ++ [q']))) = (42 :: (a ++ q :: v)) ++ [q'] by simp]
        exact List.getLast?_concat ..
      rw [this] at hx
      cases hx
      exact hb
  have htrim : ∃ t, c = rtrim c ++ t := by
    refine ⟨(c.reverse.takeWhile isSpace).reverse, ?_⟩
    rw [rtrim, ← List.reverse_append, List.takeWhile_append_dropWhile, List.reverse_reverse]
  obtain ⟨t, ht⟩ := htrim
  have hsplit : line = rtrim line ++ t := by
    rw [et, e]
    conv => lhs; rw [ht]
    simp
  refine ⟨by rw [et]; rfl, sstok2_value et hq hq' ha ha' hv hv', ?_, ?_, t, hsplit⟩
  · rw [has_iff _ _ hkw, upper_map, et]
    have : upperText (42 :: (a ++ q :: (v ++ q' :: rtrim c))) =
        upperText [42] ++ (upperText a ++ upperText (q :: (v ++ q' :: rtrim c))) := by
      rw [← upperText_append, ← upperText_append]
      rfl
    rw [this]
    exact contains_mono hk
  · intro k hk'
    cases hh : has k ((rtrim line).map upper) with
    | false => rfl
    | true =>
      rw [has_iff _ _ (hoth k hk'), upper_map] at hh
      exfalso
      apply ho k hk'
      rw [hsplit, upperText_append]
      simpa using contains_mono (a := []) (b := upperText t) hh

theorem flag_line {flag line t : List Nat} (e : line = rtrim line ++ t) (h : flag = [] ∨ ¬ Contains flag line) :
    flag = [] ∨ ¬ Contains flag (rtrim line) := by
  rcases h with h | h
  · exact .inl h
  · right
    rw [e] at h
    exact not_contains_append h

/-- What a line of the file does to the state. -/
theorem ruleLine_effect {flag line : List Nat} {e : Effect} (h : FileLine flag line e) (hflag : ∀ b ∈ flag, ¬ Blank b) (st : Rd)
    (hfmt : st.format = nist1) (hpos : 0 ≤ st.maxRules)
    (hroom : ∀ r, e = .rule r → ((st.rules.length : Int) < st.maxRules ∧ st.rules.length + 1 < (allocate st).alloc.getD 0)) :
    ruleLine flag st (line ++ [10]) = .ok (after st e) := by
  have h10 : Blank 10 := by simp [Blank]
  rw [ruleLine, rtrim_snoc _ _ h10]
  -- the storing of a rule
  have hdata : ∀ (l : List Nat) (r : SRule), e = .rule r → parseRule l = .ok ⟨r.left, r.source, r.source.length, r.right, r.target⟩ →
      dataLine (allocate st) l = .ok (after st e) := by
    intro l r he hp
    obtain ⟨q1, q2⟩ := hroom r he
    have hf2 : (allocate st).format = nist1 := by rw [← hfmt, allocate]; split <;> rfl
    have hr2 : (allocate st).rules = st.rules := by rw [allocate]; split <;> rfl
    have hm2 : (allocate st).maxRules = st.maxRules := by rw [allocate]; split <;> rfl
    rw [dataLine, hp]
    simp only
    rw [if_pos hf2, store, hr2, hm2, if_pos q1, if_pos q2, he, after, ← hm2]
  cases h with
  | blank _ hb =>
    have : rtrim line = [] := by
      have := rtrim_blank [] line hb
      rw [List.nil_append] at this
      rw [this]
      rfl
    rw [this]
    rfl
  | comment rest hf =>
    rw [rtrim_suffix _ _ hf (fun c hc => hflag c (List.mem_of_getLast? hc))]
    have : validData flag (flag ++ rtrim rest) = false := by
      rw [validData, if_neg (by simp [hf]), if_neg hf]
      simp
    rw [this]
    rfl
  | rule core trail r hr ht h42 hfl =>
    obtain ⟨a, c, ec, hc⟩ := hr.last
    have htr : rtrim (core ++ trail) = core := by
      rw [rtrim_blank _ _ ht]
      exact rtrim_core (by intro x hx; rw [ec] at hx; simp at hx; subst hx; exact hc)
    have hfl2 : flag = [] ∨ ¬ Contains flag core := by
      rcases hfl with h | h
      · exact .inl h
      · exact .inr (not_contains_append h)
    rw [htr, validData_of (by rw [ec]; simp) hfl2]
    simp only [if_true]
    rw [if_neg h42, if_neg (by omega)]
    have hrc : removeComments flag core = core := by
      rw [removeComments]
      split
      · rfl
      · rename_i hf
        rw [strstr_none hf (by rcases hfl2 with h | h; exact absurd h hf; exact h)]
    rw [hrc]
    apply hdata core r rfl
    have := parseRule_text hr [] (by simp)
    rwa [List.append_nil] at this
  | remark core trail c r hr ht h42 hf hfirst =>
    obtain ⟨a, c', ec, hc⟩ := hr.last
    have htr : rtrim (core ++ (trail ++ (flag ++ c))) = core ++ (trail ++ (flag ++ rtrim c)) := by
      have : core ++ (trail ++ (flag ++ c)) = (core ++ (trail ++ flag)) ++ c := by simp
      rw [this, rtrim_suffix]
      · simp
      · rw [ec]; simp
      · intro x hx
        rw [← List.append_assoc, List.getLast?_append] at hx
        have : flag.getLast? = some x := by
          cases hg : flag.getLast? with
          | none => exact absurd (List.getLast?_eq_none_iff.1 hg) hf
          | some y =>
            rw [hg] at hx
            cases hx
            rfl
        exact hflag x (List.mem_of_getLast? this)
    rw [htr]
    have htc : ∃ t, c = rtrim c ++ t := by
      refine ⟨(c.reverse.takeWhile isSpace).reverse, ?_⟩
      rw [rtrim, ← List.reverse_append, List.takeWhile_append_dropWhile, List.reverse_reverse]
    obtain ⟨t, htc⟩ := htc
    have hfirst2 : ∀ x y, core ++ (trail ++ (flag ++ rtrim c)) = x ++ (flag ++ y) → (core ++ trail).length ≤ x.length := by
      intro x y exy
      apply hfirst x (y ++ t)
      conv => lhs; rw [htc]
      rw [show core ++ (trail ++ (flag ++ (rtrim c ++ t))) = (core ++ (trail ++ (flag ++ rtrim c))) ++ t by simp, exy]
      simp
    have hcpos : 0 < core.length := by rw [ec]; simp
    have hval : validData flag (core ++ (trail ++ (flag ++ rtrim c))) = true := by
      rw [validData, if_neg (by intro h; simp at h; rw [ec] at h; simp at h), if_neg hf]
      cases hp : flag.isPrefixOf (core ++ (trail ++ (flag ++ rtrim c))) with
      | false => rfl
      | true =>
        obtain ⟨z, hz⟩ := List.isPrefixOf_iff_prefix.1 hp
        have := hfirst2 [] z (by rw [← hz]; rfl)
        simp only [List.length_append, List.length_nil] at this
        omega
    have hhead : (core ++ (trail ++ (flag ++ rtrim c))).head? ≠ some 42 := by
      intro h
      apply h42
      cases hco : core with
      | nil => rw [hco] at hcpos; simp at hcpos
      | cons x y => rw [hco] at h; simpa using h
    rw [hval]
    simp only [if_true]
    rw [if_neg hhead, if_neg (by omega)]
    have hss : strstr flag (core ++ (trail ++ (flag ++ rtrim c))) = some (core ++ trail).length :=
      strstr_first (a := core ++ trail) (b := rtrim c) (by simp) hfirst2
    have hrc : removeComments flag (core ++ (trail ++ (flag ++ rtrim c))) =
        core ++ (trail ++ List.replicate (flag ++ rtrim c).length 32) := by
      rw [removeComments, if_neg hf, hss]
      simp only
      have e1 : core ++ (trail ++ (flag ++ rtrim c)) = (core ++ trail) ++ (flag ++ rtrim c) := by simp
      rw [e1, List.take_left]
      have e2 : ((core ++ trail) ++ (flag ++ rtrim c)).length - (core ++ trail).length = (flag ++ rtrim c).length := by
        simp only [List.length_append]; omega
      rw [e2]
      simp
    rw [hrc]
    apply hdata _ r rfl
    apply parseRule_text hr
    intro b hb
    rcases List.mem_append.1 hb with hb | hb
    · exact ht b hb
    · rw [(List.mem_replicate.1 hb).2]
      simp [Blank]
  | caseMatters _ v b hset hb hfl =>
    obtain ⟨g1, g2, g3, g4, t, g5⟩ := setting_trim hset (by decide) (by decide)
    rw [validData_of (by intro h; rw [h] at g1; cases g1) (flag_line g5 hfl)]
    simp only [if_true]
    rw [if_pos g1, auxLine, g2]
    simp only
    have k1 := g4 kwFormat (by simp)
    have k2 := g4 kwMax (by simp)
    have k3 := g4 kwCopy (by simp)
    have hv : atobool v = b := by
      rw [Bool.eq_iff_iff, atobool_iff]
      exact hb.symm
    simp only [kwFormat, kwMax, kwCopy, kwCase] at k1 k2 k3 g3
    rw [k1, k2, k3, g3, hv]
    rfl
  | keepRest _ v b hset hb hfl =>
    obtain ⟨g1, g2, g3, g4, t, g5⟩ := setting_trim hset (by decide) (by decide)
    rw [validData_of (by intro h; rw [h] at g1; cases g1) (flag_line g5 hfl)]
    simp only [if_true]
    rw [if_pos g1, auxLine, g2]
    simp only
    have k1 := g4 kwFormat (by simp)
    have k2 := g4 kwMax (by simp)
    have k3 := g4 kwCase (by simp)
    have hv : atobool v = b := by
      rw [Bool.eq_iff_iff, atobool_iff]
      exact hb.symm
    simp only [kwFormat, kwMax, kwCopy, kwCase] at k1 k2 k3 g3
    rw [k1, k2, k3, g3, hv]
    rfl
  | atMost _ v hset hv hfl =>
    obtain ⟨g1, g2, g3, g4, t, g5⟩ := setting_trim hset (by decide) (by decide)
    rw [validData_of (by intro h; rw [h] at g1; cases g1) (flag_line g5 hfl)]
    simp only [if_true]
    rw [if_pos g1, auxLine, g2]
    simp only
    have k1 := g4 kwFormat (by simp)
    have k2 := g4 kwCopy (by simp)
    have k3 := g4 kwCase (by simp)
    simp only [kwFormat, kwMax, kwCopy, kwCase] at k1 k2 k3 g3
    rw [k1, k2, k3, g3, atol_eq v hv]
    rfl
  | other a c q hq ha ha' hno hfl =>
    have hb : ¬ Blank q := by rcases hq with rfl | rfl <;> simp [Blank]
    have e' : 42 :: (a ++ q :: c) = (42 :: (a ++ [q])) ++ c := by simp
    have et : rtrim (42 :: (a ++ q :: c)) = 42 :: (a ++ q :: rtrim c) := by
      rw [e', rtrim_suffix _ _ (by simp)]
      · simp
      · intro x hx
        have : (42 :: (a ++ [q])).getLast? = some q := by
          rw [show (42 :: (a ++ [q])) = (42 :: a) ++ [q] by simp]
          exact List.getLast?_concat ..
        rw [this] at hx
        cases hx
        exact hb
    have htc : ∃ t, c = rtrim c ++ t := by
      refine ⟨(c.reverse.takeWhile isSpace).reverse, ?_⟩
      rw [rtrim, ← List.reverse_append, List.takeWhile_append_dropWhile, List.reverse_reverse]
    obtain ⟨t, htc⟩ := htc
    have hsplit : 42 :: (a ++ q :: c) = rtrim (42 :: (a ++ q :: c)) ++ t := by
      rw [et]
      conv => lhs; rw [htc]
      simp
    have hhas : ∀ k ∈ [kwFormat, kwMax, kwCopy, kwCase], has k ((rtrim (42 :: (a ++ q :: c))).map upper) = false := by
      intro k hk
      have hkn : k ≠ [] := by
        intro h
        subst h
        revert hk
        decide
      cases hh : has k ((rtrim (42 :: (a ++ q :: c))).map upper) with
      | false => rfl
      | true =>
        rw [has_iff _ _ hkn, upper_map] at hh
        exfalso
        apply hno k hk
        rw [hsplit, upperText_append]
        simpa using contains_mono (a := []) (b := upperText t) hh
    have g1 : (rtrim (42 :: (a ++ q :: c))).head? = some 42 := by rw [et]; rfl
    obtain ⟨v, g2⟩ := sstok2_any et hq ha ha'
    rw [validData_of (by intro h; rw [h] at g1; cases g1) (flag_line hsplit hfl)]
    simp only [if_true]
    rw [if_pos g1, auxLine, g2]
    simp only
    have k1 := hhas kwFormat (by simp)
    have k2 := hhas kwMax (by simp)
    have k3 := hhas kwCopy (by simp)
    have k4 := hhas kwCase (by simp)
    simp only [kwFormat, kwMax, kwCopy, kwCase] at k1 k2 k3 k4
    rw [k1, k2, k3, k4]
    rfl

/-- What holds between the lines. -/
structure Between (st : Rd) (es : List Effect) : Prop where
  format : st.format = nist1
  pos : 0 ≤ st.maxRules
  none : st.alloc = none → st.rules = []
  some : ∀ a, st.alloc = some a → a = st.maxRules.toNat ∧ ∀ n, .atMost n ∉ es
  early : MaxFirst es
  room : st.rules.length + (rulesOf es).length < maxOf st.maxRules.toNat es ∨ rulesOf es = []

theorem maxOf_const (n : Nat) (es : List Effect) (h : ∀ m, .atMost m ∉ es) : maxOf n es = n := by
  induction es with
  | nil => rfl
  | cons e es ih =>
    have ih' := ih (fun m hm => h m (List.mem_cons_of_mem _ hm))
    cases e with
    | atMost m => exact absurd (List.mem_cons_self ..) (h m)
    | _ => exact ih'

theorem Rule.spec_mk (r : SRule) : (Rule.mk r.left r.source r.source.length r.right r.target).spec = r := rfl

theorem ruleLines_effects {flag : List Nat} {ls : List (List Nat)} {es : List Effect} (h : FileLines flag ls es)
    (hflag : ∀ b ∈ flag, ¬ Blank b) (st : Rd) (hb : Between st es) :
    ∃ st' : Rd, ruleLines flag (ls.map (· ++ [10])) st = .ok st' ∧ st'.format = nist1 ∧
      st'.rules.map Rule.spec = st.rules.map Rule.spec ++ rulesOf es ∧ st'.caseSensitive = caseOf st.caseSensitive es ∧
      st'.copyNoHit = keepOf st.copyNoHit es ∧ (st'.alloc = none ↔ st.alloc = none ∧ rulesOf es = []) := by
  induction h generalizing st with
  | nil => exact ⟨st, rfl, hb.format, by simp [rulesOf], rfl, rfl, by simp [rulesOf]⟩
  | cons l e ls es hl hls ih =>
    have hearly : MaxFirst es := (List.pairwise_cons.1 hb.early).2
    have hroom : ∀ r, e = .rule r → ((st.rules.length : Int) < st.maxRules ∧ st.rules.length + 1 < (allocate st).alloc.getD 0) ∧
        (allocate st).alloc = some st.maxRules.toNat ∧ ∀ n, .atMost n ∉ es := by
      intro r he
      subst he
      have hno : ∀ n, .atMost n ∉ es := fun n hn => (List.pairwise_cons.1 hb.early).1 _ hn r n rfl rfl
      have hal : (allocate st).alloc = some st.maxRules.toNat := by
        cases ha : st.alloc with
        | none => rw [allocate, ha]
        | some a =>
          rw [allocate, ha]
          simp only
          rw [ha, (hb.some a ha).1]
      have hr := hb.room
      rcases hr with hr | hr
      · rw [rulesOf, show maxOf st.maxRules.toNat (.rule r :: es) = maxOf st.maxRules.toNat es from rfl, maxOf_const _ _ hno] at hr
        simp only [List.length_cons] at hr
        refine ⟨⟨by omega, ?_⟩, hal, hno⟩
        rw [hal]
        simp only [Option.getD_some]
        omega
      · cases hr
    have hstep := ruleLine_effect hl hflag st hb.format hb.pos (fun r he => (hroom r he).1)
    have hnext : Between (after st e) es := by
      cases e with
      | nothing =>
        exact ⟨hb.format, hb.pos, hb.none, fun a ha => ⟨(hb.some a ha).1, fun n hn => (hb.some a ha).2 n (List.mem_cons_of_mem _ hn)⟩,
          hearly, hb.room⟩
      | caseMatters b =>
        exact ⟨hb.format, hb.pos, hb.none, fun a ha => ⟨(hb.some a ha).1, fun n hn => (hb.some a ha).2 n (List.mem_cons_of_mem _ hn)⟩,
          hearly, hb.room⟩
      | keepRest b =>
        exact ⟨hb.format, hb.pos, hb.none, fun a ha => ⟨(hb.some a ha).1, fun n hn => (hb.some a ha).2 n (List.mem_cons_of_mem _ hn)⟩,
          hearly, hb.room⟩
      | atMost n =>
        refine ⟨hb.format, Int.natCast_nonneg n, hb.none, fun a ha => ?_, hearly, ?_⟩
        · exact absurd (List.mem_cons_self ..) ((hb.some a ha).2 n)
        · simpa [after, rulesOf, maxOf] using hb.room
      | rule r =>
        obtain ⟨_, hal, hno⟩ := hroom r rfl
        have hf2 : (allocate st).format = nist1 := by rw [← hb.format, allocate]; split <;> rfl
        have hm2 : (allocate st).maxRules = st.maxRules := by rw [allocate]; split <;> rfl
        refine ⟨hf2, by simpa [after, hm2] using hb.pos, ?_, ?_, hearly, ?_⟩
        · intro h
          simp only [after] at h
          rw [hal] at h
          cases h
        · intro a h
          simp only [after] at h ⊢
          rw [hal] at h
          cases h
          exact ⟨by rw [hm2], hno⟩
        · rcases hb.room with hr | hr
          · left
            simp only [after, hm2, List.length_append, List.length_singleton]
            simp only [rulesOf, maxOf, List.length_cons] at hr
            omega
          · cases hr
    obtain ⟨st', g1, g2, g3, g4, g5, g6⟩ := ih (after st e) hnext
    refine ⟨st', ?_, g2, ?_, ?_, ?_, ?_⟩
    · rw [List.map_cons, ruleLines, hstep]
      exact g1
    · rw [g3]
      cases e <;> simp [after, rulesOf, Rule.spec]
    · rw [g4]
      cases e with
      | rule r => simp only [after, caseOf]; rw [allocate]; split <;> rfl
      | _ => rfl
    · rw [g5]
      cases e with
      | rule r => simp only [after, keepOf]; rw [allocate]; split <;> rfl
      | _ => rfl
    · rw [g6]
      cases e with
      | rule r =>
        simp only [after, (hroom r rfl).2.1, rulesOf]
        simp
      | _ => rfl

theorem flagOf_eq {l0 flag : List Nat} (h : FlagOf l0 flag) : commentFlag (l0 ++ [10]) = flag := by
  obtain ⟨rest, e, hf, hr⟩ := h
  have hp : ∀ b ∈ flag, (fun b => decide (33 ≤ b) && decide (b ≤ 126)) b = true := by
    intro b hb
    have := hf b hb
    simp [this.1, this.2]
  rw [commentFlag, e, List.append_assoc, List.takeWhile_append_of_pos hp]
  cases hrest : rest with
  | nil => simp
  | cons b t =>
    have := hr b (by rw [hrest]; rfl)
    rw [List.cons_append, List.takeWhile_cons, if_neg]
    · simp
    · simpa using this

/-- Reading a rule file. -/
theorem getRules_file {l0 flag : List Nat} {ls : List (List Nat)} {es : List Effect} (hfl : FlagOf l0 flag)
    (hshort : ∀ l ∈ l0 :: ls, ShortLine 130 l) (h : FileLines flag ls es) (hearly : MaxFirst es) (hne : rulesOf es ≠ [])
    (hroom : (rulesOf es).length < maxOf 400 es) :
    ∃ rs : RuleSet, getRules (fileOf (l0 :: ls)) = .ok rs ∧ rs.Built ∧ rs.format = nist1 ∧ rs.spec = rulesOf es ∧
      rs.caseSensitive = caseOf true es ∧ rs.copyNoHit = keepOf true es := by
  have hflag : ∀ b ∈ flag, ¬ Blank b := by
    intro b hb
    obtain ⟨rest, e, hf, hr⟩ := hfl
    have := hf b hb
    simp [Blank]
    omega
  obtain ⟨st', g1, g2, g3, g4, g5, g6⟩ := ruleLines_effects h hflag rd0
    ⟨rfl, by simp [rd0], fun _ => rfl, by intro a ha; simp [rd0] at ha, hearly, by left; simpa [rd0] using hroom⟩
  have hg : getRules (fileOf (l0 :: ls)) =
      .ok ⟨st'.format, st'.copyNoHit, st'.caseSensitive, st'.rules, (buildIndex st'.caseSensitive st'.rules).order,
          (buildIndex st'.caseSensitive st'.rules).first, (buildIndex st'.caseSensitive st'.rules).last⟩ := by
    rw [getRules, getLines_fileOf 130 _ hshort _ (length_fileOf _), List.map_cons]
    simp only
    rw [flagOf_eq hfl, g1]
    simp only
    rw [if_neg (by rw [g6]; exact fun h => hne h.2)]
  refine ⟨_, hg, (getRules_ok hg).1, g2, ?_, g4, g5⟩
  rw [RuleSet.spec]
  simpa [rd0] using g3

/-- The texts of the input. -/
theorem filterLines_spec (rs : RuleSet) (hb : rs.Built) (hfmt : rs.format = nist1) (ts : List (List Nat)) (h0 : ∀ t ∈ ts, ∀ b ∈ t, b ≠ 0)
    (hne : ∀ t ∈ ts, t ≠ []) :
    (∃ os used, filterLines rs ts = .ok (os.flatten, used) ∧ RewritesAll rs.caseSensitive rs.copyNoHit rs.spec ts os used ∧
      (∀ o ∈ os, o.length < 100000) ∧ ∀ t ∈ ts, ¬ Hazard rs.caseSensitive rs.spec t) ∨
    (filterLines rs ts = .oob ∧ ∃ t ∈ ts, Hazard rs.caseSensitive rs.spec t ∨
      ∃ out used, Rewrites rs.caseSensitive rs.copyNoHit rs.spec [] t out used ∧ 100000 ≤ out.length) := by
  induction ts with
  | nil => exact .inl ⟨[], [], rfl, .nil, by simp, by simp⟩
  | cons t ts ih =>
    have hap : applyRules 100000 rs t = applyLoop 100000 rs t (t.length + 1) 0 [] [] := by
      rw [applyRules, if_neg (fun h => h hfmt)]
    have hspec := applyLoop_spec 100000 rs hb t (h0 t (List.mem_cons_self ..)) (t.length + 1) 0 [] [] (by omega) (by omega) (by simp)
    rw [filterLines, if_neg (hne t (List.mem_cons_self ..)), hap]
    simp only [List.take_zero, List.drop_zero, List.nil_append] at hspec
    rcases hspec with ⟨out, used, e, hrw, hlen, hnh⟩ | ⟨e, hh⟩
    · rw [e]
      simp only
      rcases ih (fun t' ht' => h0 t' (List.mem_cons_of_mem _ ht')) (fun t' ht' => hne t' (List.mem_cons_of_mem _ ht')) with
        ⟨os, more, e2, h2, h3, h4⟩ | ⟨e2, t', ht', hh'⟩
      · left
        rw [e2]
        refine ⟨out :: os, used ++ more, by simp, .cons _ _ _ _ _ _ hrw h2, ?_, ?_⟩
        · intro o ho
          rcases List.mem_cons.1 ho with ho | ho
          · rw [ho]; exact hlen
          · exact h3 o ho
        · intro t' ht'
          rcases List.mem_cons.1 ht' with ht' | ht'
          · rw [ht', hazard_iff]; exact hnh
          · exact h4 t' ht'
      · right
        rw [e2]
        exact ⟨rfl, t', List.mem_cons_of_mem _ ht', hh'⟩
    · right
      rw [e]
      refine ⟨rfl, t, List.mem_cons_self .., ?_⟩
      rcases hh with hh | hh
      · exact .inl ((hazard_iff _ _ _).2 hh)
      · exact .inr hh

end Verif.Rfilter
