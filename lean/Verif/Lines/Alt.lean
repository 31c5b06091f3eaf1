import Verif.Lines.Tok
import Verif.Text.Props
/-!
# Proofs about first alternatives and quoted tokens
-/
set_option autoImplicit false
namespace Verif.Lines
open Verif.Text

/-- What the tokeniser keeps of a list of tokens. -/
def altFilter (inAlt : Bool) (cnt : Nat) : List (List Nat) → List (List Nat)
  | [] => []
  | t :: ts =>
    if t.head? = some 123 then altFilter true 0 ts
    else if t.head? = some 125 then altFilter false cnt ts
    else
      let cnt' := if t.head? = some 47 then cnt + 1 else cnt
      if !inAlt || cnt' = 0 then if t = [64] then altFilter inAlt cnt' ts else t :: altFilter inAlt cnt' ts
      else altFilter inAlt cnt' ts

theorem valid_at (e : Enc) : Valid e [64] := by
  refine ⟨[[64]], rfl, ?_⟩
  intro c hc
  rw [List.mem_singleton] at hc
  subst hc
  exact ⟨64, [], rfl, nbytes_ascii e (by decide), by simp⟩

/-- What a call of the tokeniser does with the tokens `T` still to come. -/
def Out (cs : List (List Nat)) (set : List Nat) (T : List (List Nat)) (r : Option (Option (List Nat) × AltState)) : Prop :=
  (∃ st', r = some (none, st') ∧ T = []) ∨
  ∃ u st' cs' ts', r = some (some u, st') ∧ st'.base = some cs'.flatten ∧ Fields (IsSep set) cs' ts' ∧ (∀ c ∈ cs', c ∈ cs) ∧
    cs'.length ≤ cs.length ∧ T = u :: altFilter st'.inAlt st'.cnt (ts'.map List.flatten)

theorem Out.mono {cs ds : List (List Nat)} {set : List Nat} {T : List (List Nat)} {r : Option (Option (List Nat) × AltState)}
    (h : Out ds set T r) (hm : ∀ c ∈ ds, c ∈ cs) (hl : ds.length ≤ cs.length) : Out cs set T r := by
  rcases h with h | ⟨u, st', cs', ts', h1, h2, h3, h4, h5, h6⟩
  · exact .inl h
  · exact .inr ⟨u, st', cs', ts', h1, h2, h3, fun c hc => hm c (h4 c hc), by omega, h6⟩

theorem altLoop_spec (e : Enc) (set : List Nat) (hset : ∀ b ∈ set, b < 128) (fuel : Nat) (t cs : List (List Nat))
    (ts : List (List (List Nat))) (ht : ∀ c ∈ t, IsChar e c) (hc : ∀ c ∈ cs, IsChar e c) (hts : Fields (IsSep set) cs ts) (st : AltState)
    (hb : st.base = some cs.flatten) (hf : cs.length + 1 < fuel) :
    Out cs set (altFilter st.inAlt st.cnt (t.flatten :: ts.map List.flatten)) (altLoop e set fuel (some t.flatten) st) := by
  induction fuel generalizing t cs ts st with
  | zero => omega
  | succ fuel ih =>
    have hnext : ∀ st1 : AltState, st1.base = some cs.flatten →
        Out cs set (altFilter st1.inAlt st1.cnt (ts.map List.flatten)) (match strtok e set st1.base none with
          | none => none
          | some (t', base') => altLoop e set fuel t' { st1 with base := base' }) := by
      intro st1 hb1
      rcases strtok_step e set hset cs hc st1.base none hb1 with ⟨h1, h2⟩ | ⟨t', cs', h1, h2, h3, h4, h5, h6⟩
      · rw [h1]
        have := hts.unique h2
        subst this
        cases fuel with
        | zero => omega
        | succ fuel => exact .inl ⟨_, rfl, rfl⟩
      · rw [h1]
        obtain ⟨ts', _, g2⟩ := strtokAll_spec e set hset cs' (fun c hcc => hc c (h4 c hcc)) none (some cs'.flatten) rfl _
          (Nat.lt_succ_self _)
        have := hts.unique (h6 ts' g2)
        subst this
        have := ih t' cs' ts' (fun c hcc => hc c (h3 c hcc)) (fun c hcc => hc c (h4 c hcc)) g2
          { st1 with base := some cs'.flatten } rfl (by omega)
        exact this.mono h4 (by omega)
    unfold altLoop altFilter
    simp only
    by_cases h1 : t.flatten.head? = some 123
    · rw [if_pos h1, if_pos h1]
      exact hnext { st with inAlt := true, cnt := 0 } hb
    · rw [if_neg h1, if_neg h1]
      by_cases h2 : t.flatten.head? = some 125
      · rw [if_pos h2, if_pos h2]
        exact hnext { st with inAlt := false } hb
      · rw [if_neg h2, if_neg h2]
        have hst' : ∃ st', (if t.flatten.head? = some 47 then { st with cnt := st.cnt + 1 } else st) = st' ∧
            st'.inAlt = st.inAlt ∧ st'.cnt = (if t.flatten.head? = some 47 then st.cnt + 1 else st.cnt) ∧ st'.base = st.base := by
          refine ⟨_, rfl, ?_⟩
          split <;> exact ⟨rfl, rfl, rfl⟩
        obtain ⟨st', e1, e2, e3, e4⟩ := hst'
        rw [e1, ← e2, ← e3]
        by_cases h3 : (!st'.inAlt || decide (st'.cnt = 0)) = true
        · rw [if_pos h3, if_pos h3]
          have hv : Valid e t.flatten := ⟨t, rfl, ht⟩
          obtain ⟨r, hr⟩ := strcmp_defined e t.flatten [64] hv (valid_at e)
          have hz := strcmp_zero_iff e t.flatten [64] hv (valid_at e)
          rw [hr]
          simp only
          by_cases h4 : r = 0
          · subst h4
            rw [if_neg (show ¬ ((0 : Int) ≠ 0) by simp), if_pos (hz.1 hr)]
            exact hnext st' (e4.trans hb)
          · rw [if_pos h4, if_neg (fun h => h4 (by have := hz.2 h; rw [hr] at this; injection this))]
            exact .inr ⟨_, st', cs, ts, rfl, e4.trans hb, hts, fun _ h => h, Nat.le_refl _, rfl⟩
        · rw [if_neg h3, if_neg h3]
          exact hnext st' (e4.trans hb)

theorem flatten_length_ge {e : Enc} {cs : List (List Nat)} (hc : ∀ c ∈ cs, IsChar e c) : cs.length ≤ cs.flatten.length := by
  induction cs with
  | nil => exact Nat.le_refl _
  | cons c cs ih =>
    obtain ⟨b, rest, e1, _⟩ := isChar_cons (hc c List.mem_cons_self)
    have := ih (fun x hx => hc x (List.mem_cons_of_mem _ hx))
    subst e1
    simp only [List.length_cons, List.flatten_cons, List.length_append, List.cons_append]
    omega

theorem firstAlt_step (e : Enc) (set : List Nat) (hset : ∀ b ∈ set, b < 128) (cs : List (List Nat)) (ts : List (List (List Nat)))
    (hc : ∀ c ∈ cs, IsChar e c) (hts : Fields (IsSep set) cs ts) (st : AltState) (arg : Option (List Nat))
    (hb : arg.or st.base = some cs.flatten) :
    (∃ st', firstAlt e set st arg = some (none, st') ∧
      altFilter (if arg.isSome then false else st.inAlt) (if arg.isSome then 0 else st.cnt) (ts.map List.flatten) = []) ∨
    ∃ u st' cs' ts', firstAlt e set st arg = some (some u, st') ∧ st'.base = some cs'.flatten ∧ Fields (IsSep set) cs' ts' ∧
      (∀ c ∈ cs', c ∈ cs) ∧ cs'.length < cs.length ∧
      altFilter (if arg.isSome then false else st.inAlt) (if arg.isSome then 0 else st.cnt) (ts.map List.flatten) =
        u :: altFilter st'.inAlt st'.cnt (ts'.map List.flatten) := by
  unfold firstAlt
  simp only
  generalize hst1 : (if arg.isSome then { st with inAlt := false, cnt := 0 } else st) = st1
  have e1 : st1.inAlt = (if arg.isSome then false else st.inAlt) ∧ st1.cnt = (if arg.isSome then 0 else st.cnt) ∧
      st1.base = st.base := by
    subst hst1
    cases arg <;> exact ⟨rfl, rfl, rfl⟩
  rw [← e1.1, ← e1.2.1]
  have hlen := flatten_length_ge hc
  have hfuel : cs.length + 2 ≤ (arg.getD []).length + (st1.base.getD []).length + 2 := by
    rw [e1.2.2]
    cases arg with
    | some p => simp only [Option.some_or, Option.some.injEq] at hb; subst hb; simp only [Option.getD_some]; omega
    | none => simp only [Option.none_or] at hb; rw [hb]; simp only [Option.getD_some]; omega
  generalize (arg.getD []).length + (st1.base.getD []).length + 2 = fuel at *
  rcases strtok_step e set hset cs hc st1.base arg (by rw [e1.2.2]; exact hb) with ⟨h1, h2⟩ | ⟨t, cs', h1, h2, h3, h4, h5, h6⟩
  · rw [h1]
    have := hts.unique h2
    subst this
    cases fuel with
    | zero => omega
    | succ fuel => exact .inl ⟨_, rfl, rfl⟩
  · rw [h1]
    obtain ⟨ts', _, g2⟩ := strtokAll_spec e set hset cs' (fun c hcc => hc c (h4 c hcc)) none (some cs'.flatten) rfl _
      (Nat.lt_succ_self _)
    have := hts.unique (h6 ts' g2)
    subst this
    have := altLoop_spec e set hset fuel t cs' ts' (fun c hcc => hc c (h3 c hcc)) (fun c hcc => hc c (h4 c hcc)) g2
      { st1 with base := some cs'.flatten } rfl (by omega)
    rcases this with ⟨st', g3, g4⟩ | ⟨u, st', cs'', ts'', g3, g4, g5, g6, g7, g8⟩
    · exact .inl ⟨st', g3, g4⟩
    · exact .inr ⟨u, st', cs'', ts'', g3, g4, g5, fun c hcc => h4 c (g6 c hcc), by omega, g8⟩

theorem firstAltAll_spec (e : Enc) (set : List Nat) (hset : ∀ b ∈ set, b < 128) (cs : List (List Nat)) (ts : List (List (List Nat)))
    (hc : ∀ c ∈ cs, IsChar e c) (hts : Fields (IsSep set) cs ts) (st : AltState) (arg : Option (List Nat))
    (hb : arg.or st.base = some cs.flatten) (fuel : Nat) (hf : cs.length < fuel) :
    firstAltAll e set fuel st arg =
      some (altFilter (if arg.isSome then false else st.inAlt) (if arg.isSome then 0 else st.cnt) (ts.map List.flatten)) := by
  induction fuel generalizing cs ts st arg with
  | zero => omega
  | succ fuel ih =>
    unfold firstAltAll
    rcases firstAlt_step e set hset cs ts hc hts st arg hb with ⟨st', g3, g4⟩ | ⟨u, st', cs', ts', g3, g4, g5, g6, g7, g8⟩
    · rw [g3, g4]
    · rw [g3, g8]
      have := ih cs' ts' (fun c hcc => hc c (g6 c hcc)) g5 st' none g4 (by omega)
      simp only [this, Option.map_some]
      rfl

/-! ## Flat alternations -/

theorem altFilter_first (ws X : List (List Nat)) (h : ∀ w ∈ ws, Plain w) :
    altFilter true 0 (ws ++ X) = ws.filter (· ≠ [64]) ++ altFilter true 0 X := by
  induction ws with
  | nil => rfl
  | cons w ws ih =>
    obtain ⟨h1, h2, h3⟩ := h w List.mem_cons_self
    have ih := ih (fun x hx => h x (List.mem_cons_of_mem _ hx))
    rw [List.cons_append]
    conv => lhs; unfold altFilter
    simp only [if_neg h1, if_neg h2, if_neg h3]
    by_cases hw : w = [64]
    · subst hw
      simp [ih]
    · simp [hw, ih]

theorem altFilter_later (n : Nat) (hn : n ≠ 0) (ws X : List (List Nat)) (h : ∀ w ∈ ws, Plain w) :
    altFilter true n (ws ++ X) = altFilter true n X := by
  induction ws with
  | nil => rfl
  | cons w ws ih =>
    obtain ⟨h1, h2, h3⟩ := h w List.mem_cons_self
    have ih := ih (fun x hx => h x (List.mem_cons_of_mem _ hx))
    rw [List.cons_append]
    conv => lhs; unfold altFilter
    simp only [if_neg h1, if_neg h2, if_neg h3]
    simp [hn, ih]

theorem altFilter_others (n : Nat) (others : List (List (List Nat))) (X : List (List Nat)) (h : ∀ a ∈ others, ∀ w ∈ a, Plain w) :
    altFilter true n (others.flatMap (fun a => [47] :: a) ++ [125] :: X) = altFilter false (n + others.length) X := by
  induction others generalizing n with
  | nil => simp [altFilter]
  | cons a others ih =>
    simp only [List.flatMap_cons, List.cons_append, List.append_assoc]
    conv => lhs; unfold altFilter
    simp only [List.head?_cons]
    rw [if_neg (by simp), if_neg (by simp)]
    simp only [if_true]
    rw [if_neg (by simp)]
    rw [altFilter_later (n + 1) (by omega) a _ (h a List.mem_cons_self), ih (n + 1) (fun b hb => h b (List.mem_cons_of_mem _ hb))]
    simp only [List.length_cons]
    congr 1
    omega

theorem altFilter_items (n : Nat) (items : List Item) (h : ∀ i ∈ items, i.Plain) :
    altFilter false n (items.flatMap Item.tokens) = items.flatMap Item.firstWords := by
  induction items generalizing n with
  | nil => rfl
  | cons i items ih =>
    have hi := h i List.mem_cons_self
    have ih := fun n => ih n (fun x hx => h x (List.mem_cons_of_mem _ hx))
    simp only [List.flatMap_cons]
    cases i with
    | word w =>
      obtain ⟨h1, h2, h3⟩ := hi
      simp only [Item.tokens, List.cons_append, List.nil_append]
      conv => lhs; unfold altFilter
      simp only [if_neg h1, if_neg h2, if_neg h3]
      by_cases hw : w = [64]
      · subst hw
        simp [Item.firstWords, ih]
      · simp [Item.firstWords, hw, ih]
    | alt first others =>
      obtain ⟨h1, h2⟩ := hi
      simp only [Item.tokens, List.cons_append, List.append_assoc, List.nil_append]
      conv => lhs; unfold altFilter
      simp only [List.head?_cons, if_true]
      rw [altFilter_first _ _ h1, altFilter_others _ _ _ h2, ih]
      rfl

end Verif.Lines
