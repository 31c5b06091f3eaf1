import Verif.Lines.Alt
import Verif.Lines.Quote
/-!
# Properties of line reading and tokenising
-/
set_option autoImplicit false
namespace Verif.Lines
open Verif.Text

/-! ### C39: lines -/

/-- C39: whatever the size of the buffer (at least two bytes), a file without NUL bytes is delivered exactly line by line:
nothing is lost, split or joined, and no write goes outside the buffer. -/
theorem lines_complete (cap len : Nat) (s : List Nat) (h0 : ∀ c ∈ s, c ≠ 0) (hl : 2 ≤ len) (hc : len ≤ cap) :
    ∃ ls, readAll (s.length + 1) cap len s = some ls ∧ IsLines s ls :=
  readAll_spec _ cap len s h0 hl hc (Nat.lt_succ_self _)

/-- C39: in particular the lines do not depend on the buffer. -/
theorem lines_independent (cap len cap' len' : Nat) (s : List Nat) (h0 : ∀ c ∈ s, c ≠ 0) (hl : 2 ≤ len) (hc : len ≤ cap)
    (hl' : 2 ≤ len') (hc' : len' ≤ cap') : readAll (s.length + 1) cap len s = readAll (s.length + 1) cap' len' s := by
  obtain ⟨ls, h1, h2⟩ := lines_complete cap len s h0 hl hc
  obtain ⟨ms, h3, h4⟩ := lines_complete cap' len' s h0 hl' hc'
  rw [h1, h3, h2.unique h4]

/-- C39: a single call delivers the next line and leaves the rest of the file. -/
theorem next_line (cap len : Nat) (l rest : List Nat) (h0 : ∀ c ∈ l ++ 10 :: rest, c ≠ 0) (hn : 10 ∉ l) (hl : 2 ≤ len)
    (hc : len ≤ cap) : ∃ cap' len', ensureFgets cap len (l ++ 10 :: rest) = .line cap' len' (l ++ [10]) rest ∧ 2 ≤ len' ∧ len' ≤ cap' := by
  obtain ⟨cap', len', l', rest', g1, g2, g3, g4, g5, g6⟩ := ensureFgets_spec cap len (l ++ 10 :: rest) h0 hl hc (by simp)
  refine ⟨cap', len', ?_, g3, g4⟩
  have : l' = l ++ [10] ∧ rest' = rest := by
    rcases g6 with ⟨m, e, hm⟩ | ⟨h, e⟩
    · subst e
      have h1 : IsLines (m ++ 10 :: []) [m ++ [10]] := .cons hm .nil
      clear g1 g5 h1 h0
      induction m generalizing l with
      | nil =>
        cases l with
        | nil => simpa using g2
        | cons a l => simp at g2 hn; exact absurd g2.1 hn.1
      | cons b m ih =>
        cases l with
        | nil => simp at g2 hm; exact absurd g2.1.symm hm.1
        | cons a l =>
          simp only [List.cons_append, List.cons.injEq] at g2 ⊢
          obtain ⟨e1, e2⟩ := ih l (fun h => hn (List.mem_cons_of_mem _ h)) (fun h => hm (List.mem_cons_of_mem _ h)) g2.2
          exact ⟨⟨g2.1, e1⟩, e2⟩
    · subst e
      rw [List.append_nil] at g2
      subst g2
      simp at h
  rw [g1, this.1, this.2]

/-- A file of two lines read with a buffer of two bytes. -/
example : readAll 10 2 2 [97, 98, 99, 10, 100] = some [[97, 98, 99, 10], [100]] := by decide

/-- A line beginning with a NUL byte makes the code read before the buffer. -/
example : ensureFgets 100 100 [0, 97, 10] = .undef := by decide

/-! ### C45: numbered fields -/

/-- C45 (part): field 0 is the first field of the line.  Missing: every other field, for which the property is false
(`nth_field_empty`). -/
theorem nth_field_partial (e : Enc) (ws t rest : List (List Nat)) (hv : ∀ c ∈ ws ++ t ++ rest, IsChar e c)
    (hws : ∀ c ∈ ws, IsSep wsSet c) (ht : ∀ c ∈ t, ¬ IsSep wsSet c) (hr : ∀ c, rest.head? = some c → IsSep [32, 9, 10] c)
    (hne : t ≠ []) : nthField e (ws ++ t ++ rest).flatten 0 = some t.flatten := by
  have hset : ∀ b ∈ [32, 9, 10], b < 128 := by decide
  have hd : (ws ++ t ++ rest).dropWhile (sepB wsSet) = t ++ rest := by
    have h1 : ∀ (ws : List (List Nat)), (∀ c ∈ ws, IsSep wsSet c) → (ws ++ (t ++ rest)).dropWhile (sepB wsSet) = t ++ rest := by
      intro ws hws
      induction ws with
      | nil =>
        cases t with
        | nil => exact absurd rfl hne
        | cons c t =>
          have : sepB wsSet c = false := by
            cases h : sepB wsSet c with
            | false => rfl
            | true => exact absurd ((sepB_iff _ _).1 h) (ht c List.mem_cons_self)
          rw [List.nil_append, List.cons_append, List.dropWhile_cons_of_neg (by simp [this])]
      | cons c ws ih =>
        rw [List.cons_append, List.dropWhile_cons_of_pos ((sepB_iff _ _).2 (hws c List.mem_cons_self))]
        exact ih (fun x hx => hws x (List.mem_cons_of_mem _ hx))
    rw [List.append_assoc]
    exact h1 ws hws
  unfold nthField
  rw [skipWs_spec e _ hv, hd]
  simp only
  unfold nthLoop
  rw [if_neg (by simp)]
  simp only
  rw [cspn_spec e _ hset (t ++ rest) (fun c hc => hv c (by rw [List.append_assoc]; exact List.mem_append_right _ hc)) _ (Nat.le_refl _)]
  simp only [Option.map_some]
  congr 2
  clear hd hv hne
  induction t with
  | nil =>
    cases rest with
    | nil => rfl
    | cons c rest =>
      rw [List.nil_append, List.takeWhile_cons_of_neg (by simp [(sepB_iff _ _).2 (hr c rfl)])]
  | cons c t ih =>
    have : sepB [32, 9, 10] c = false := by
      cases h : sepB [32, 9, 10] c with
      | false => rfl
      | true =>
        exfalso
        obtain ⟨b, e1, hb⟩ := (sepB_iff _ _).1 h
        apply ht c List.mem_cons_self
        refine ⟨b, e1, ?_⟩
        simp [wsSet] at hb ⊢
        omega
    rw [List.cons_append, List.takeWhile_cons_of_pos (by simp [this]), ih (fun x hx => ht x (List.mem_cons_of_mem _ hx))]

/-- C45 is false for every other field: the result is always empty, whatever the line. -/
theorem nth_field_empty (e : Enc) (p : List Nat) (hp : Valid e p) (field : Nat) (hf : 0 < field) :
    nthField e p field = some [] := by
  obtain ⟨cs, rfl, hc⟩ := hp
  unfold nthField
  rw [skipWs_spec e cs hc]
  simp only
  have hsub : ∀ c ∈ cs.dropWhile (sepB wsSet), IsChar e c := fun c hcc => hc c (mem_dropWhile hcc)
  have hlen := flatten_length_ge hsub
  rw [nthLoop_empty e field hf _ hsub (by
    intro c hcc
    cases hd : cs.dropWhile (sepB wsSet) with
    | nil => rw [hd] at hcc; cases hcc
    | cons y ys =>
      rw [hd] at hcc
      simp at hcc
      subst hcc
      exact dropWhile_head hd) _ (by omega)]
  rfl

/-- "System name: x y" has the fields 2 and 3, but the code finds none. -/
example : nthField .ascii [97, 32, 98, 32, 99] 0 = some [97] ∧ nthField .ascii [97, 32, 98, 32, 99] 1 = some [] := by decide

/-! ### C62: tokens -/

/-- C62: taking tokens until there are none gives exactly the fields of the text, in every encoding. -/
theorem tokens_are_fields (e : Enc) (set : List Nat) (hset : ∀ b ∈ set, b < 128) (cs : List (List Nat)) (hc : ∀ c ∈ cs, IsChar e c)
    (base : Option (List Nat)) : ∃ ts, strtokAll e set (cs.length + 1) base (some cs.flatten) = some (ts.map List.flatten) ∧
      Fields (IsSep set) cs ts :=
  strtokAll_spec e set hset cs hc base _ rfl _ (Nat.lt_succ_self _)

/-- Two words, a two-byte character in the second. -/
example : strtokAll .utf8 [32, 9, 10] 9 none (some [32, 97, 98, 32, 32, 0xC3, 0xA9, 10]) = some [[97, 98], [0xC3, 0xA9]] := by
  decide

example : Fields (IsSep [32]) [[32], [97], [98], [32], [99]] [[[97], [98]], [[99]]] := by
  refine .skip ⟨32, rfl, by decide⟩ (.tok (t := [[97], [98]]) (c := [32]) (cs := [[99]]) (by decide) ?_ ⟨32, rfl, by decide⟩ (.last (by decide) ?_))
  · intro x hx
    rw [← sepB_iff]
    revert x
    decide
  · intro x hx
    rw [← sepB_iff]
    revert x
    decide

/-! ### C63: first alternatives -/

/-- C63 (part): for a transcript whose alternations are not nested, the tokens delivered are the words of the transcript
with the first alternative chosen everywhere, without `@`.  Missing: nested alternations, for which the property is false
(`first_alternative_nested`). -/
theorem first_alternative_partial (e : Enc) (set : List Nat) (hset : ∀ b ∈ set, b < 128) (cs : List (List Nat))
    (hc : ∀ c ∈ cs, IsChar e c) (ts : List (List (List Nat))) (hts : Fields (IsSep set) cs ts) (items : List Item)
    (hi : ∀ i ∈ items, i.Plain) (htok : ts.map List.flatten = items.flatMap Item.tokens) (st : AltState) :
    firstAltAll e set (cs.length + 1) st (some cs.flatten) = some (items.flatMap Item.firstWords) := by
  rw [firstAltAll_spec e set hset cs ts hc hts st _ rfl _ (Nat.lt_succ_self _), htok]
  simp only [Option.isSome_some, if_true, altFilter_items 0 items hi]

/-- "x { a / b c } @ y" gives "x a y". -/
example : firstAltAll .ascii [32] 30 ⟨true, 3, none⟩
    (some [120, 32, 123, 32, 97, 32, 47, 32, 98, 32, 99, 32, 125, 32, 64, 32, 121]) = some [[120], [97], [121]] := by decide

/-- C63 is false for nested alternations: "{ a { b / c } / d } e" gives "a b / d e" instead of "a b e". -/
theorem first_alternative_nested : firstAltAll .ascii [32] 30 ⟨false, 0, none⟩
    (some [123, 32, 97, 32, 123, 32, 98, 32, 47, 32, 99, 32, 125, 32, 47, 32, 100, 32, 125, 32, 101])
    = some [[97], [98], [47], [100], [101]] := by decide

/-! ### C64: quoted tokens -/

/-- C64: separators between double quotes do not separate; a quote without a partner extends to the end. -/
theorem quoted_tokens (e : Enc) (set : List Nat) (hset : ∀ b ∈ set, b < 128) (hq : 34 ∉ set) (us : List (List Nat))
    (hu : Units e us) (data : Option (List Nat)) :
    ∃ ts, strqtokAll e set (us.length + 1) data (some us.flatten) = some (ts.map List.flatten) ∧ Fields (IsSep set) us ts :=
  strqtokAll_spec e set hset hq us hu data _ rfl _ (Nat.lt_succ_self _)

/-- `C,"a:b",c:S` splits at the second colon only. -/
example : strqtokAll .ascii [58, 10] 20 none (some [67, 44, 34, 97, 58, 98, 34, 44, 99, 58, 83]) =
    some [[67, 44, 34, 97, 58, 98, 34, 44, 99], [83]] := by decide

example : Units .ascii [[67], [34, 97, 58, 34], [58], [34, 98]] :=
  .cons (.inl ⟨⟨67, [], rfl, rfl, by decide⟩, by decide⟩) (.cons (.inr ⟨[97, 58], rfl, by decide⟩)
    (.cons (.inl ⟨⟨58, [], rfl, rfl, by decide⟩, by decide⟩) (.unclosed (by decide))))

end Verif.Lines
