import Verif.Corresp.Model
/-!
# Lemmas about the lattice error and the combined print
-/
set_option autoImplicit false
namespace Verif.Corresp
variable {W : Type}

theorem marks_content : ∀ es : List (Entry W), (marks es).filterMap id = oks es
  | [] => rfl
  | .ins _ :: es => by simp [marks, oks, marks_content es]
  | .ref _ _ :: es => by simp [marks, oks, marks_content es]

theorem oks_length : ∀ es : List (Entry W), (oks es).length = (refs es).length
  | [] => rfl
  | .ins _ :: es => by simp [refs, oks, oks_length es]
  | .ref _ _ :: es => by simp [refs, oks, oks_length es]

theorem content_takeWhile : ∀ ms : List (Option Bool), (ms.takeWhile (fun m => m.isNone)).filterMap id = []
  | [] => rfl
  | none :: ms => by simp [content_takeWhile ms]
  | some b :: ms => by simp

theorem content_split : ∀ ms : List (Option Bool), ms.filterMap id = (ms.dropWhile (fun m => m.isNone)).filterMap id
  | [] => rfl
  | none :: ms => by simp [content_split ms]
  | some b :: ms => by simp

theorem dropWhile_head : ∀ (ms rest : List (Option Bool)), ms.dropWhile (fun m => m.isNone) ≠ none :: rest
  | [], _ => by simp
  | none :: ms, rest => by simpa using dropWhile_head ms rest
  | some b :: ms, rest => by simp

theorem improve_content : ∀ (es : List (Entry W)) (ms : List (Option Bool)), (ms.filterMap id).length = (oks es).length →
    (improve es ms).filterMap id = List.zipWith (fun x y => x || y) (ms.filterMap id) (oks es)
  | [], ms, h => by
    simp only [oks, List.length_nil, List.length_eq_zero_iff] at h
    simp [improve, oks, h]
  | .ins _ :: es, ms, h => by
    simp only [improve, oks] at h ⊢
    exact improve_content es ms h
  | .ref _ ok :: es, ms, h => by
    unfold improve
    simp only
    have hs := content_split ms
    rw [hs] at h ⊢
    cases hd : ms.dropWhile (fun m => m.isNone) with
    | nil => rw [hd] at h; simp [oks] at h
    | cons m rest =>
      cases m with
      | none => exact absurd hd (dropWhile_head ms rest)
      | some b =>
        rw [hd] at h
        have ih := improve_content es rest (by simpa [oks] using h)
        simp only [List.filterMap_append, content_takeWhile, List.nil_append, oks]
        cases ok <;> cases b <;> simp [ih]

theorem fold_content (n : Nat) : ∀ (bs : List (List (Entry W))) (ms : List (Option Bool)), (ms.filterMap id).length = n →
    (∀ b ∈ bs, (oks b).length = n) →
    ((bs.foldl (fun m b => improve b m) ms).filterMap id).length = n ∧
    ∀ k < n, ((bs.foldl (fun m b => improve b m) ms).filterMap id)[k]? =
      ((ms.filterMap id)[k]?).map (fun x => x || bs.any (fun b => (oks b)[k]? == some true))
  | [], ms, hm, _ => ⟨hm, by intro k hk; simp⟩
  | b :: bs, ms, hm, hb => by
    have h0 := hb b (by simp)
    have h1 := improve_content b ms (by rw [hm, h0])
    have h2 : ((improve b ms).filterMap id).length = n := by rw [h1]; simp [hm, h0]
    obtain ⟨i1, i2⟩ := fold_content n bs (improve b ms) h2 (fun x hx => hb x (by simp [hx]))
    refine ⟨i1, ?_⟩
    intro k hk
    have := i2 k hk
    rw [List.foldl_cons, this, h1]
    have hk0 : k < (oks b).length := by omega
    have hk1 : k < (ms.filterMap id).length := by omega
    rw [List.getElem?_zipWith, List.getElem?_eq_getElem hk0, List.getElem?_eq_getElem hk1]
    simp only [Option.map_some, List.any_cons]
    rw [List.getElem?_eq_getElem hk0]
    cases (oks b)[k] <;> simp [Bool.or_assoc]

theorem countP_range {A : Type} (p : A → Bool) : ∀ l : List A, l.countP p = (List.range l.length).countP (fun k => (l[k]?).any p)
  | [] => rfl
  | x :: l => by
    rw [List.length_cons, List.range_succ_eq_map, List.countP_cons, List.countP_cons, List.countP_map, countP_range p l]
    congr 1

theorem count_some : ∀ ms : List (Option Bool), ms.countP (fun m => m.isSome) = (ms.filterMap id).length
  | [] => rfl
  | none :: ms => by simp [count_some ms]
  | some b :: ms => by simp [count_some ms]

theorem count_false : ∀ ms : List (Option Bool), ms.countP (fun m => m == some false) = (ms.filterMap id).countP (fun b => !b)
  | [] => rfl
  | none :: ms => by simp [count_false ms]
  | some b :: ms => by cases b <;> simp [List.countP_cons, count_false ms]

theorem sum_lt {A : Type} (f g : A → Nat) : ∀ l : List A, (∀ x ∈ l, f x ≤ g x) → (∃ x ∈ l, f x < g x) → (l.map f).sum < (l.map g).sum
  | [], _, ⟨x, hx, _⟩ => by simp at hx
  | y :: l, h, ⟨x, hx, hlt⟩ => by
    have hle : ∀ l' : List A, (∀ x ∈ l', f x ≤ g x) → (l'.map f).sum ≤ (l'.map g).sum := by
      intro l'
      induction l' with
      | nil => intro _; simp
      | cons z l' ih =>
        intro h'
        have a := h' z (by simp)
        have b := ih (fun x hx => h' x (by simp [hx]))
        simp; omega
    have hy := h y (by simp)
    have hl : ∀ x ∈ l, f x ≤ g x := fun x hx => h x (by simp [hx])
    rcases List.mem_cons.mp hx with rfl | hx
    · have := hle l hl; simp; omega
    · have := sum_lt f g l hl ⟨x, hx, hlt⟩; simp; omega

/-- The cell a system has in a column. -/
def cell (i : Nat) : Column W → Option (Entry W)
  | .ins cells => (cells[i]?).join
  | .word _ cells => (cells[i]?).join

theorem multiPrint_spec (R : List W) : ∀ (f : Nat) (ps : List (List (Entry W))), (ps.map List.length).sum < f → (∀ p ∈ ps, refs p = R) →
    ps ≠ [] →
    ∃ cs, multiPrint f ps = some cs ∧
      (cs.filterMap (fun c => match c with | .word r _ => some r | .ins _ => none)) = R ∧
      (∀ (i : Nat) (p : List (Entry W)), ps[i]? = some p → cs.filterMap (cell i) = p) ∧
      (∀ c ∈ cs, match c with
        | .word r cells => cells.length = ps.length ∧ ∀ x ∈ cells, ∃ ok, x = some (.ref r ok)
        | .ins cells => cells.length = ps.length ∧ (∃ h, some (.ins h) ∈ cells) ∧ ∀ x ∈ cells, x = none ∨ ∃ h, x = some (.ins h))
  | 0, ps, h, _, _ => by omega
  | f + 1, ps, hf, hR, hne => by
    unfold multiPrint
    by_cases hany : ps.any (fun p => !p.isEmpty) = true
    · rw [if_pos hany]
      by_cases hins : ps.any isIns = true
      · rw [if_pos hins]
        have hsum : ((insRest ps).map List.length).sum < f := by
          unfold insRest
          rw [List.map_map]
          have : (ps.map (List.length ∘ fun p => if isIns p = true then p.tail else p)).sum < (ps.map List.length).sum := by
            apply sum_lt
            · intro x _
              simp only [Function.comp]
              split <;> simp
            · rw [List.any_eq_true] at hins
              obtain ⟨x, hx, hi⟩ := hins
              refine ⟨x, hx, ?_⟩
              simp only [Function.comp, if_pos hi]
              cases x with
              | nil => simp [isIns] at hi
              | cons e es => simp
          omega
        obtain ⟨cs, h1, h2, h3, h4⟩ := multiPrint_spec R f (insRest ps) hsum (by
          intro p hp
          unfold insRest at hp
          rw [List.mem_map] at hp
          obtain ⟨q, hq, rfl⟩ := hp
          have := hR q hq
          split
          · rename_i hi
            cases q with
            | nil => simp [isIns] at hi
            | cons e es =>
              cases e with
              | ins h => simpa [refs] using this
              | ref r ok => simp [isIns] at hi
          · exact this) (by unfold insRest; simp [hne])
        have hlen : (insRest ps).length = ps.length := by simp [insRest]
        refine ⟨.ins (insCells ps) :: cs, by rw [h1]; rfl, by simpa using h2, ?_, ?_⟩
        · intro i p hp
          have hr : (insRest ps)[i]? = some (if isIns p then p.tail else p) := by simp [insRest, hp]
          have hc : cell i (.ins (insCells ps)) = if isIns p then p.head? else none := by simp [cell, insCells, hp]
          have := h3 i _ hr
          rw [List.filterMap_cons, hc]
          by_cases hi : isIns p = true
          · rw [if_pos hi] at this ⊢
            cases p with
            | nil => simp [isIns] at hi
            | cons e es => simp at this ⊢; exact this
          · rw [if_neg hi] at this ⊢
            exact this
        · intro c hc
          rcases List.mem_cons.mp hc with rfl | hc
          · simp only
            refine ⟨by simp [insCells], ?_, ?_⟩
            · rw [List.any_eq_true] at hins
              obtain ⟨x, hx, hi⟩ := hins
              cases x with
              | nil => simp [isIns] at hi
              | cons e es =>
                cases e with
                | ref r ok => simp [isIns] at hi
                | ins h =>
                  refine ⟨h, ?_⟩
                  unfold insCells
                  rw [List.mem_map]
                  exact ⟨_, hx, by simp [isIns]⟩
            · intro x hx
              unfold insCells at hx
              rw [List.mem_map] at hx
              obtain ⟨q, hq, rfl⟩ := hx
              cases q with
              | nil => left; simp
              | cons e es =>
                cases e with
                | ref r ok => left; simp [isIns]
                | ins h => right; exact ⟨h, by simp [isIns]⟩
          · have := h4 c hc
            rw [hlen] at this
            exact this
      · rw [if_neg hins]
        -- every system has the same next reference word
        have hni : ∀ p ∈ ps, isIns p = false := by
          intro p hp
          rw [Bool.not_eq_true, List.any_eq_false] at hins
          simpa using hins p hp
        have hR0 : ∃ r R', R = r :: R' := by
          rw [List.any_eq_true] at hany
          obtain ⟨p, hp, he⟩ := hany
          have := hR p hp
          have hi := hni p hp
          cases p with
          | nil => simp at he
          | cons e es =>
            cases e with
            | ins h => simp [isIns] at hi
            | ref r ok => exact ⟨r, refs es, this.symm⟩
        obtain ⟨r, R', rfl⟩ := hR0
        have hform : ∀ p ∈ ps, ∃ ok es, p = .ref r ok :: es ∧ refs es = R' := by
          intro p hp
          have h1 := hR p hp
          have hi := hni p hp
          cases p with
          | nil => simp [refs] at h1
          | cons e es =>
            cases e with
            | ins h => simp [isIns] at hi
            | ref r' ok =>
              simp only [refs, List.cons.injEq] at h1
              exact ⟨ok, es, by rw [h1.1], h1.2⟩
        have hsum : ((ps.map List.tail).map List.length).sum < f := by
          rw [List.map_map]
          have : (ps.map (List.length ∘ List.tail)).sum < (ps.map List.length).sum := by
            apply sum_lt
            · intro x _; simp
            · cases ps with
              | nil => exact absurd rfl hne
              | cons p ps =>
                obtain ⟨ok, es, e, _⟩ := hform p (by simp)
                exact ⟨p, by simp, by rw [e]; simp⟩
          omega
        obtain ⟨cs, h1, h2, h3, h4⟩ := multiPrint_spec R' f (ps.map List.tail) hsum (by
          intro p hp
          rw [List.mem_map] at hp
          obtain ⟨q, hq, rfl⟩ := hp
          obtain ⟨ok, es, e, e'⟩ := hform q hq
          rw [e]; exact e') (by simp [hne])
        refine ⟨.word r (ps.map List.head?) :: cs, ?_, by simpa using h2, ?_, ?_⟩
        · cases ps with
          | nil => exact absurd rfl hne
          | cons p ps =>
            obtain ⟨ok, es, e, _⟩ := hform p (by simp)
            subst e
            simp only
            rw [h1]; rfl
        · intro i p hp
          have := h3 i p.tail (by simp [hp])
          obtain ⟨ok, es, e, _⟩ := hform p (List.mem_of_getElem? hp)
          have hc : cell i (.word r (ps.map List.head?)) = p.head? := by simp [cell, hp]
          rw [List.filterMap_cons, hc]
          subst e
          simp at this ⊢; exact this
        · intro c hc
          rcases List.mem_cons.mp hc with rfl | hc
          · simp only
            refine ⟨by simp, ?_⟩
            intro x hx
            rw [List.mem_map] at hx
            obtain ⟨q, hq, rfl⟩ := hx
            obtain ⟨ok, es, e, _⟩ := hform q hq
            exact ⟨ok, by rw [e]; rfl⟩
          · have := h4 c hc
            rw [List.length_map] at this
            exact this
    · rw [if_neg hany]
      have hnil : ∀ p ∈ ps, p = [] := by
        intro p hp
        rw [Bool.not_eq_true, List.any_eq_false] at hany
        have := hany p hp
        simpa using this
      refine ⟨[], rfl, ?_, ?_, by simp⟩
      · cases ps with
        | nil => exact absurd rfl hne
        | cons p ps =>
          have h1 := hR p (by simp)
          rw [hnil p (by simp)] at h1
          exact h1
      · intro i p hp
        rw [hnil p (List.mem_of_getElem? hp)]; rfl

end Verif.Corresp
