import Verif.Lines.Read
import Verif.Text.Order
/-!
# Proofs about tokenising
-/
set_option autoImplicit false
namespace Verif.Lines
open Verif.Text

/-! ## Fields -/

theorem Fields.of_nil {sep : List Nat → Prop} {ts : List (List (List Nat))} (h : Fields sep [] ts) : ts = [] := by
  generalize hs : ([] : List (List Nat)) = cs at h
  cases h with
  | nil => rfl
  | skip => cases hs
  | last h => exact absurd hs.symm h
  | tok h => simp at hs

theorem split_unique {sep : List Nat → Prop} {t u cs ds : List (List Nat)} {c d : List Nat} (ht : ∀ x ∈ t, ¬ sep x)
    (hu : ∀ x ∈ u, ¬ sep x) (hc : sep c) (hd : sep d) (h : t ++ c :: cs = u ++ d :: ds) : t = u ∧ c = d ∧ cs = ds := by
  induction t generalizing u with
  | nil =>
    cases u with
    | nil => simpa using h
    | cons a u =>
      simp only [List.nil_append, List.cons_append, List.cons.injEq] at h
      exact absurd (h.1 ▸ hc) (hu a List.mem_cons_self)
  | cons b t ih =>
    cases u with
    | nil =>
      simp only [List.nil_append, List.cons_append, List.cons.injEq] at h
      exact absurd (h.1 ▸ hd) (ht b List.mem_cons_self)
    | cons a u =>
      simp only [List.cons_append, List.cons.injEq] at h
      obtain ⟨e1, e2⟩ := ih (fun x hx => ht x (List.mem_cons_of_mem _ hx)) (fun x hx => hu x (List.mem_cons_of_mem _ hx)) h.2
      exact ⟨by rw [h.1, e1], e2⟩

/-- The fields of a sequence are determined by it. -/
theorem Fields.unique {sep : List Nat → Prop} {cs : List (List Nat)} {ts us : List (List (List Nat))} (h1 : Fields sep cs ts)
    (h2 : Fields sep cs us) : ts = us := by
  induction h1 generalizing us with
  | nil => exact h2.of_nil.symm
  | @skip c cs ts hc h ih =>
    generalize hs : c :: cs = ds at h2
    cases h2 with
    | nil => cases hs
    | skip _ h' => injection hs with _ hs; subst hs; exact ih h'
    | last _ h' => subst hs; exact absurd hc (h' c List.mem_cons_self)
    | @tok t _ _ _ hne h' =>
      cases t with
      | nil => exact absurd rfl hne
      | cons a t =>
        simp only [List.cons_append, List.cons.injEq] at hs
        exact absurd (hs.1 ▸ hc) (h' a List.mem_cons_self)
  | @last t hne hn =>
    generalize hs : t = ds at h2
    cases h2 with
    | nil => exact absurd hs hne
    | skip hc => subst hs; exact absurd hc (hn _ List.mem_cons_self)
    | last => rfl
    | tok _ _ hc => subst hs; exact absurd hc (hn _ (by simp))
  | @tok t cs c ts hne hn hc h ih =>
    generalize hs : t ++ c :: cs = ds at h2
    cases h2 with
    | nil => simp at hs
    | @skip c' _ _ hc' =>
      cases t with
      | nil => exact absurd rfl hne
      | cons a t =>
        simp only [List.cons_append, List.cons.injEq] at hs
        exact absurd (hs.1 ▸ hc') (hn a List.mem_cons_self)
    | last _ h' => subst hs; exact absurd hc (h' c (by simp))
    | tok _ h' hc' h'' =>
      obtain ⟨e1, _, e3⟩ := split_unique hn h' hc hc' hs
      subst e1 e3
      rw [ih h'']

/-- Separator test as a Boolean. -/
def sepB (set : List Nat) (c : List Nat) : Bool :=
  match c with
  | [b] => decide (b ∈ set)
  | _ => false

theorem sepB_iff (set : List Nat) (c : List Nat) : sepB set c = true ↔ IsSep set c := by
  unfold sepB IsSep
  split
  · simp
  · rename_i h
    constructor
    · intro h'; cases h'
    · rintro ⟨b, e, _⟩; exact absurd e (h b)

theorem fields_skip {sep : List Nat → Prop} {a b : List (List Nat)} {ts : List (List (List Nat))} (ha : ∀ c ∈ a, sep c)
    (h : Fields sep b ts) : Fields sep (a ++ b) ts := by
  induction a with
  | nil => exact h
  | cons c a ih => exact .skip (ha c List.mem_cons_self) (ih (fun x hx => ha x (List.mem_cons_of_mem _ hx)))

theorem mem_takeWhile {α : Type} {p : α → Bool} {l : List α} {x : α} (h : x ∈ l.takeWhile p) : p x = true ∧ x ∈ l := by
  induction l with
  | nil => cases h
  | cons a l ih =>
    by_cases ha : p a = true
    · rw [List.takeWhile_cons_of_pos ha] at h
      rcases List.mem_cons.1 h with e | h
      · subst e; exact ⟨ha, List.mem_cons_self⟩
      · exact ⟨(ih h).1, List.mem_cons_of_mem _ (ih h).2⟩
    · rw [List.takeWhile_cons_of_neg ha] at h
      cases h

theorem mem_dropWhile {α : Type} {p : α → Bool} {l : List α} {x : α} (h : x ∈ l.dropWhile p) : x ∈ l := by
  have := List.takeWhile_append_dropWhile (p := p) (l := l)
  rw [← this]
  exact List.mem_append_right _ h

theorem dropWhile_head {α : Type} {p : α → Bool} {l r : List α} {x : α} (h : l.dropWhile p = x :: r) : p x = false := by
  induction l with
  | nil => cases h
  | cons a l ih =>
    by_cases ha : p a = true
    · rw [List.dropWhile_cons_of_pos ha] at h
      exact ih h
    · rw [List.dropWhile_cons_of_neg ha] at h
      injection h with h _
      subst h
      simpa using ha

theorem fields_none {set : List Nat} {cs : List (List Nat)} (h : cs.dropWhile (sepB set) = []) : Fields (IsSep set) cs [] := by
  have := List.takeWhile_append_dropWhile (p := sepB set) (l := cs)
  rw [h, List.append_nil] at this
  rw [← this, ← List.append_nil (List.takeWhile _ _)]
  exact fields_skip (fun c hc => (sepB_iff _ _).1 (mem_takeWhile hc).1) .nil

theorem fields_some {set : List Nat} {cs : List (List Nat)} {ts : List (List (List Nat))}
    (hne : cs.dropWhile (sepB set) ≠ [])
    (h : Fields (IsSep set) (((cs.dropWhile (sepB set)).dropWhile (fun c => !sepB set c)).drop 1) ts) :
    Fields (IsSep set) cs (((cs.dropWhile (sepB set)).takeWhile (fun c => !sepB set c)) :: ts) := by
  have h1 := List.takeWhile_append_dropWhile (p := sepB set) (l := cs)
  have hsk : ∀ c ∈ cs.takeWhile (sepB set), IsSep set c := fun c hc => (sepB_iff _ _).1 (mem_takeWhile hc).1
  cases hd : cs.dropWhile (sepB set) with
  | nil => exact absurd hd hne
  | cons c q =>
    rw [hd] at h h1
    have hc := dropWhile_head hd
    have h2 := List.takeWhile_append_dropWhile (p := fun c => !sepB set c) (l := c :: q)
    have htne : (c :: q).takeWhile (fun c => !sepB set c) ≠ [] := by
      rw [List.takeWhile_cons_of_pos (by simp [hc])]
      simp
    have htn : ∀ x ∈ (c :: q).takeWhile (fun c => !sepB set c), ¬ IsSep set x := by
      intro x hx hs
      have := (mem_takeWhile hx).1
      rw [(sepB_iff _ _).2 hs] at this
      cases this
    generalize (c :: q).takeWhile (fun c => !sepB set c) = t at *
    conv => lhs; rw [← h1]
    apply fields_skip hsk
    cases hr : (c :: q).dropWhile (fun c => !sepB set c) with
    | nil =>
      rw [hr] at h h2
      have := h.of_nil
      subst this
      rw [← h2, List.append_nil]
      exact .last htne htn
    | cons d r =>
      have hds := dropWhile_head hr
      rw [hr] at h h2
      rw [← h2]
      exact .tok htne htn ((sepB_iff _ _).1 (by simpa using hds)) h

/-! ## strtok on texts of complete characters -/

theorem nbytes_ascii (e : Enc) {b : Nat} (h : b < 128) : nbytes e b = some 1 := by
  have : b &&& 0x80 = 0 := by
    have : ∀ b : Nat, b < 128 → b &&& 0x80 = 0 := by decide
    exact this b h
  cases e <;> simp [nbytes, this]

theorem isChar_cons {e : Enc} {c : List Nat} (h : IsChar e c) : ∃ b rest, c = b :: rest ∧ nbytes e b = some (rest.length + 1) := by
  obtain ⟨b, rest, hc, hn, _⟩ := h
  refine ⟨b, rest, hc, ?_⟩
  rw [hn, hc]; rfl

theorem sepB_char {e : Enc} {set : List Nat} (hset : ∀ b ∈ set, b < 128) {b : Nat} {rest : List Nat}
    (hn : nbytes e b = some (rest.length + 1)) : sepB set (b :: rest) = decide (b ∈ set) := by
  cases rest with
  | nil => rfl
  | cons x rest =>
    by_cases hb : b ∈ set
    · rw [nbytes_ascii e (hset b hb)] at hn
      simp at hn
    · simp [sepB, hb]

theorem skipSet_spec (e : Enc) (set : List Nat) (hset : ∀ b ∈ set, b < 128) (cs : List (List Nat)) (hc : ∀ c ∈ cs, IsChar e c)
    (fuel : Nat) (hf : cs.flatten.length ≤ fuel) :
    skipSet e set fuel cs.flatten = some (cs.dropWhile (sepB set)).flatten := by
  induction cs generalizing fuel with
  | nil => unfold skipSet; rfl
  | cons c cs ih =>
    obtain ⟨b, rest, e1, hn⟩ := isChar_cons (hc c List.mem_cons_self)
    subst e1
    have hs := sepB_char hset hn
    simp only [List.flatten_cons, List.cons_append]
    cases fuel with
    | zero => simp at hf
    | succ fuel =>
      unfold skipSet
      by_cases hb : b ∈ set
      · rw [if_pos hb, hn]
        simp only
        rw [if_pos (by simp), List.dropWhile_cons_of_pos (by rw [hs]; simpa using hb)]
        have : (b :: (rest ++ cs.flatten)).drop (rest.length + 1) = cs.flatten := by simp
        rw [this]
        exact ih (fun c hcc => hc c (List.mem_cons_of_mem _ hcc)) fuel (by simp at hf ⊢; omega)
      · rw [if_neg hb, List.dropWhile_cons_of_neg (by rw [hs]; simpa using hb)]
        rfl

theorem scanTok_spec (e : Enc) (set : List Nat) (hset : ∀ b ∈ set, b < 128) (cs : List (List Nat)) (hc : ∀ c ∈ cs, IsChar e c)
    (fuel : Nat) (hf : cs.flatten.length ≤ fuel) :
    scanTok e set fuel cs.flatten =
      some ((cs.takeWhile (fun c => !sepB set c)).flatten, ((cs.dropWhile (fun c => !sepB set c)).drop 1).flatten) := by
  induction cs generalizing fuel with
  | nil => unfold scanTok; rfl
  | cons c cs ih =>
    obtain ⟨b, rest, e1, hn⟩ := isChar_cons (hc c List.mem_cons_self)
    subst e1
    have hs := sepB_char hset hn
    have ih := ih (fun c hcc => hc c (List.mem_cons_of_mem _ hcc))
    simp only [List.flatten_cons, List.cons_append]
    cases fuel with
    | zero => simp at hf
    | succ fuel =>
      have hf' : cs.flatten.length ≤ fuel := by
        simp only [List.flatten_cons, List.cons_append, List.length_cons, List.length_append] at hf; omega
      unfold scanTok
      rw [hn]
      simp only
      cases hb : decide (b ∈ set) with
      | true =>
        have hb' : b ∈ set := by simpa using hb
        have hr : rest = [] := by
          rw [nbytes_ascii e (hset b hb')] at hn
          simpa using hn
        subst hr
        rw [if_pos (show ([] : List Nat).length + 1 = 1 from rfl), if_pos hb', List.takeWhile_cons_of_neg (by rw [hs, hb]; simp),
          List.dropWhile_cons_of_neg (by rw [hs, hb]; simp)]
        simp
      | false =>
        have hb' : ¬ b ∈ set := by simpa using hb
        rw [List.takeWhile_cons_of_pos (by rw [hs, hb]; rfl), List.dropWhile_cons_of_pos (by rw [hs, hb]; rfl)]
        by_cases h1 : rest.length + 1 = 1
        · rw [if_pos h1, if_neg hb']
          have hr : rest = [] := by simpa using h1
          subst hr
          simp only [List.nil_append]
          rw [ih fuel hf']
          simp
        · rw [if_neg h1, if_pos (by simp)]
          have : (b :: (rest ++ cs.flatten)).drop (rest.length + 1) = cs.flatten := by simp
          rw [this, ih fuel hf']
          simp

/-- One call of `strtok`. -/
theorem strtok_step (e : Enc) (set : List Nat) (hset : ∀ b ∈ set, b < 128) (cs : List (List Nat)) (hc : ∀ c ∈ cs, IsChar e c)
    (base arg : Option (List Nat)) (hb : arg.or base = some cs.flatten) :
    (strtok e set base arg = some (none, some []) ∧ Fields (IsSep set) cs []) ∨
    ∃ t cs', strtok e set base arg = some (some t.flatten, some cs'.flatten) ∧ t ≠ [] ∧ (∀ c ∈ t, c ∈ cs) ∧ (∀ c ∈ cs', c ∈ cs) ∧
      cs'.length < cs.length ∧ ∀ ts, Fields (IsSep set) cs' ts → Fields (IsSep set) cs (t :: ts) := by
  have hst : strtok e set base arg = (match (some cs.flatten : Option (List Nat)) with
    | none => some (none, none)
    | some [] => some (none, some [])
    | some (b :: p) =>
      match skipSet e set (b :: p).length (b :: p) with
      | none => none
      | some [] => some (none, some [])
      | some (c :: q) =>
        match scanTok e set (c :: q).length (c :: q) with
        | none => none
        | some (t, r) => some (some t, some r)) := by
    cases arg with
    | some p => simp only [Option.some_or, Option.some.injEq] at hb; subst hb; rfl
    | none => simp only [Option.none_or] at hb; subst hb; rfl
  rw [hst]
  clear hst hb
  cases hcs : cs with
  | nil => exact .inl ⟨rfl, .nil⟩
  | cons c0 cs0 =>
    rw [← hcs]
    obtain ⟨b, rest, e1, hn⟩ := isChar_cons (hc c0 (hcs ▸ List.mem_cons_self))
    have hfl : cs.flatten = b :: (rest ++ cs0.flatten) := by rw [hcs, e1]; simp
    have hsk := skipSet_spec e set hset cs hc _ (Nat.le_refl _)
    rw [hfl]
    simp only
    rw [← hfl, hsk]
    cases hd : cs.dropWhile (sepB set) with
    | nil => exact .inl ⟨rfl, fields_none hd⟩
    | cons d ds =>
      right
      have hmem : ∀ x ∈ d :: ds, x ∈ cs := fun x hx => mem_dropWhile (hd ▸ hx)
      obtain ⟨b', rest', e2, hn'⟩ := isChar_cons (hc d (hmem d List.mem_cons_self))
      have hfl' : (d :: ds).flatten = b' :: (rest' ++ ds.flatten) := by rw [e2]; simp
      rw [hfl']
      simp only
      rw [← hfl', scanTok_spec e set hset (d :: ds) (fun x hx => hc x (hmem x hx)) _ (Nat.le_refl _)]
      refine ⟨_, _, rfl, ?_, ?_, ?_, ?_, ?_⟩
      · rw [List.takeWhile_cons_of_pos (by simp [dropWhile_head hd])]
        simp
      · intro x hx
        exact hmem x (mem_takeWhile hx).2
      · intro x hx
        exact hmem x (mem_dropWhile (List.mem_of_mem_drop hx))
      · have h1 := List.takeWhile_append_dropWhile (p := sepB set) (l := cs)
        have h2 := List.takeWhile_append_dropWhile (p := fun c => !sepB set c) (l := d :: ds)
        have h3 : (d :: ds).takeWhile (fun c => !sepB set c) = d :: ds.takeWhile (fun c => !sepB set c) :=
          List.takeWhile_cons_of_pos (by simp [dropWhile_head hd])
        have l1 := congrArg List.length h1
        have l2 := congrArg List.length h2
        rw [h3] at l2
        rw [hd] at l1
        simp only [List.length_append, List.length_cons, List.length_drop] at l1 l2 ⊢
        omega
      · intro ts hts
        have := fields_some (set := set) (cs := cs) (ts := ts) (by rw [hd]; simp) (by rw [hd]; exact hts)
        rw [hd] at this
        exact this

theorem strtokAll_spec (e : Enc) (set : List Nat) (hset : ∀ b ∈ set, b < 128) (cs : List (List Nat)) (hc : ∀ c ∈ cs, IsChar e c)
    (base arg : Option (List Nat)) (hb : arg.or base = some cs.flatten)
    (fuel : Nat) (hf : cs.length < fuel) :
    ∃ ts, strtokAll e set fuel base arg = some (ts.map List.flatten) ∧ Fields (IsSep set) cs ts := by
  induction fuel generalizing cs base arg with
  | zero => omega
  | succ fuel ih =>
    unfold strtokAll
    rcases strtok_step e set hset cs hc base arg hb with ⟨h1, h2⟩ | ⟨t, cs', h1, h2, h3, h4, h5, h6⟩
    · rw [h1]
      exact ⟨[], rfl, h2⟩
    · rw [h1]
      obtain ⟨ts, g1, g2⟩ := ih cs' (fun c hcc => hc c (h4 c hcc)) (some cs'.flatten) none rfl (by omega)
      simp only [g1, Option.map_some]
      exact ⟨t :: ts, rfl, h6 ts g2⟩

end Verif.Lines
