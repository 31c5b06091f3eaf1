import Verif.Net.Props
import Verif.Rover.Order
import Verif.Rover.Value
/-!
# ROVER: properties C26 and C27
-/
set_option autoImplicit false
namespace Verif.Rover
open Verif.Net
variable {W V : Type}

/-! ### C26 -/

/-- C26: combining any number of system outputs (not more words than the aligner's tables can hold) gives a sequence of
slots with one entry per system: a table with a row for each slot and a column for each system exists whose columns read
off the systems' word sequences, whose rows are the slots' entries, and no slot is without a word.  For every cost
function within the built-in limits. -/
theorem rover_alignment (F : Funcs W) (null : W) (t0 : Nat → Table) (m : Int) (systems : List (List W))
    (hne : systems ≠ []) (hsize : (systems.map List.length).sum * systems.length < 65534)
    (hm : F.Below m ((systems.map List.length).sum * systems.length + (systems.map List.length).sum)) :
    ∃ r slots table, dpalignN F null t0 (systems.map sysNet) = some r ∧ IsSlots r.net slots ∧
      Placed null systems slots table := by
  obtain ⟨r, slots, table, h1, h2, h3, _⟩ := dpalignN_ok F null t0 m systems hne hsize hm
  exact ⟨r, slots, table, h1, h2, h3⟩

/-- C26: every slot has as many entries as there are systems. -/
theorem rover_slot_size (F : Funcs W) (null : W) (t0 : Nat → Table) (m : Int) (systems : List (List W))
    (hne : systems ≠ []) (hsize : (systems.map List.length).sum * systems.length < 65534)
    (hm : F.Below m ((systems.map List.length).sum * systems.length + (systems.map List.length).sum)) :
    ∃ r slots, dpalignN F null t0 (systems.map sysNet) = some r ∧ IsSlots r.net slots ∧
      ∀ s ∈ slots, s.length = systems.length := by
  obtain ⟨r, slots, table, h1, h2, h3⟩ := rover_alignment F null t0 m systems hne hsize hm
  refine ⟨r, slots, h1, h2, ?_⟩
  intro s hs
  obtain ⟨i, hi, e⟩ := List.getElem_of_mem hs
  have hit : i < table.length := by rw [h3.rows]; exact hi
  have := h3.entries i (table[i]) s (List.getElem?_eq_getElem hit) (by rw [← e]; exact List.getElem?_eq_getElem hi)
  rw [this.length_eq, List.length_map]
  exact h3.width _ (List.getElem_mem hit)

/-- The standard costs on numbers (0 is the null word). -/
def demoF : Funcs Nat := ⟨wwd (· == 0) (fun _ => false) (· == ·), (· == 0), fun _ => false, (· == ·), 0⟩

/-- The hypotheses are met: three systems, one of them without words, standard costs. -/
example : ∃ r slots table, dpalignN demoF 0 (fun _ _ _ => ⟨0, 0, 0⟩) ([[1, 2, 3], [], [1, 3, 4]].map sysNet) = some r ∧
    IsSlots r.net slots ∧ Placed 0 [[1, 2, 3], [], [1, 3, 4]] slots table :=
  rover_alignment demoF 0 _ 4000 _ (by decide) (by decide) ⟨by decide, (wwd_below demoF rfl 0 0 (by decide) (by decide)).2.1,
    by decide⟩

/-! ### C27 -/

/-- C27: the output for a chunk is the concatenation of the votes on the slots of the combined network in order. -/
theorem rover_output (F : Funcs (Tok V)) (null : Tok V) (t0 : Nat → Table) (eq : V → V → Bool) (mt : Meth) (alpha : Rat)
    (m : Int) (systems : List (List (Tok V))) (hne : ∃ ws ∈ systems, ws ≠ [])
    (hsize : (systems.map List.length).sum * systems.length < 65534)
    (hm : F.Below m ((systems.map List.length).sum * systems.length + (systems.map List.length).sum)) :
    ∃ slots table, Placed null systems slots table ∧ chunk F null t0 eq mt alpha (systems.map sysNet) =
      (slots.mapM (vote eq null.val mt alpha)).map List.flatten := by
  obtain ⟨ws, hws, hw⟩ := hne
  obtain ⟨slots, table, h1, h2⟩ := chunk_ok F null t0 eq mt alpha m systems (List.ne_nil_of_mem hws) hsize hm
  refine ⟨slots, table, h1, ?_⟩
  rw [h2, if_neg]
  intro e
  apply hw
  obtain ⟨j, hj, e2⟩ := List.getElem_of_mem hws
  have := h1.column j ws (by rw [← e2]; exact List.getElem?_eq_getElem hj)
  have ht : table = [] := by
    apply List.eq_nil_of_length_eq_zero
    rw [h1.rows, e]; rfl
  rw [← this, ht]; rfl

/-- Refutation: with no word in any system the vote finds no word and ROVER exits. -/
theorem rover_empty_chunk_exits (F : Funcs (Tok V)) (null : Tok V) (t0 : Nat → Table) (eq : V → V → Bool) (mt : Meth)
    (alpha : Rat) (m : Int) (k : Nat) (hm : F.Below m 0) :
    chunk F null t0 eq mt alpha ((List.replicate (k + 1) ([] : List (Tok V))).map sysNet) = none := by
  have ht : ((List.replicate (k + 1) ([] : List (Tok V))).map List.length).sum = 0 := by simp
  obtain ⟨slots, table, h1, h2⟩ := chunk_ok F null t0 eq mt alpha m (List.replicate (k + 1) []) (by simp [List.replicate_succ])
    (by unfold total; rw [ht]; omega) (by unfold total; rw [ht]; simpa using hm)
  have hs : slots = [] := by
    apply List.eq_nil_of_length_eq_zero
    rw [← h1.rows]
    cases table with
    | nil => rfl
    | cons r table =>
      exfalso
      obtain ⟨w, hw⟩ := h1.used r (by simp)
      obtain ⟨j, hj, e⟩ := List.getElem_of_mem hw
      have hwid := h1.width r (by simp)
      have hj' : j < k + 1 := by rw [hwid] at hj; simpa using hj
      have hc := h1.column j [] (by rw [List.getElem?_replicate, if_pos hj'])
      rw [List.filterMap_eq_nil_iff] at hc
      have := hc r (by simp)
      rw [List.getElem?_eq_getElem hj, e] at this
      cases this
  rw [h2, if_pos hs]
  unfold vote collect
  rfl

/-- C27: the winner of a slot is a word with the highest score, the earliest such word of the slot; what is written is the
line with its mean times and confidence, or nothing if it is the null word. -/
theorem vote_winner {eq : V → V → Bool} (he : Equiv eq) (null : V) (m : Meth) (hmeth : m ≠ .oracle) (alpha : Rat)
    (slot : List (Tok V)) (L : List (Line V)) (h : vote eq null m alpha slot = some L) :
    ∃ pre w post s, slot = pre ++ w :: post ∧ (∀ x ∈ pre, eq x.val w.val = false) ∧ scoreOf eq m alpha slot w = some s ∧
      -1 < s ∧ (∀ x ∈ slot, ∀ s', scoreOf eq m alpha slot x = some s' → s' ≤ s) ∧
      (∀ x ∈ pre, ∀ s', scoreOf eq m alpha slot x = some s' → s' < s) ∧
      L = if eq w.val null then [] else [lineOf eq slot w] := by
  have hr : (reps eq slot []).length ≤ 49 := by
    by_cases hr : (reps eq slot []).length ≤ 49
    · exact hr
    · have := (collect_slot he slot).2
      rw [if_neg hr] at this
      unfold vote at h
      rw [this] at h
      cases h
  rcases vote_cases he null m alpha slot hr with ⟨e, _⟩ | ⟨_, w, _, pre, post, s, _, e1, e2, e3, e4, e5, e6, e7⟩
  · rw [e] at h; cases h
  · refine ⟨pre, w, post, s, e1, e2, e3, e4, e5, e6, ?_⟩
    rw [h] at e7
    cases m <;> simp at e7 hmeth ⊢ <;> exact e7

/-- C27: with at most 49 different words, no negative confidence, `alpha` between 0 and 1, and (for the method that divides
by the summed confidences) some positive confidence, the vote succeeds. -/
theorem vote_succeeds {eq : V → V → Bool} (he : Equiv eq) (null : V) (m : Meth) (alpha : Rat) (slot : List (Tok V))
    (hne : slot ≠ []) (h49 : AtMost eq 49 slot) (h0 : 0 ≤ alpha) (h1 : alpha ≤ 1) (hc : ∀ x ∈ slot, 0 ≤ x.conf)
    (hp : m = .avgconf → ∃ x ∈ slot, 0 < x.conf) : ∃ L, vote eq null m alpha slot = some L := by
  have hr := (atMost_reps he slot 49).1 h49
  rcases vote_cases he null m alpha slot hr with ⟨e, e2⟩ | ⟨_, w, _, pre, post, s, _, e1, e2, e3, e4, e5, e6, e7⟩
  · cases slot with
    | nil => exact absurd rfl hne
    | cons x xs =>
      obtain ⟨s, hs, h⟩ := score_nonneg he m alpha (x :: xs) x (by simp) h0 h1 hc hp
      have := e2 x (by simp) s hs
      grind
  · rw [e7]
    cases m <;> exact ⟨_, rfl⟩

/-- C27: with pure frequency voting the winner has the most votes. -/
theorem vote_majority {eq : V → V → Bool} (he : Equiv eq) (null : V) (m : Meth) (hmeth : m = .meth1 ∨ m = .maxconf)
    (slot : List (Tok V)) (L : List (Line V)) (h : vote eq null m 1 slot = some L) :
    ∃ w ∈ slot, (∀ x ∈ slot, (voters eq slot x).length ≤ (voters eq slot w).length) ∧
      L = if eq w.val null then [] else [lineOf eq slot w] := by
  have hm' : m ≠ .oracle := by rcases hmeth with e | e <;> rw [e] <;> decide
  obtain ⟨pre, w, post, s, e1, e2, e3, e4, e5, e6, e7⟩ := vote_winner he null m hm' 1 slot L h
  have hw : w ∈ slot := by rw [e1]; simp
  refine ⟨w, hw, ?_, e7⟩
  intro x hx
  have hlen : 0 < slot.length := List.length_pos_of_mem hw
  have key : ∀ y, scoreOf eq m 1 slot y = some (((voters eq slot y).length : Rat) / (slot.length : Rat)) := by
    intro y
    have one : (1 : Rat) - 1 = 0 := by grind
    rcases hmeth with e | e <;> subst e <;> unfold scoreOf <;> simp only [one, Rat.zero_mul, Rat.add_zero, Rat.one_mul]
  have hs : s = ((voters eq slot w).length : Rat) / (slot.length : Rat) := by
    have := key w
    rw [e3] at this
    injection this
  have := e5 x hx _ (key x)
  rw [hs] at this
  have hN := cast_pos hlen
  have hmul := Rat.mul_le_mul_of_nonneg_right this (c := (slot.length : Rat)) (by grind)
  rw [Rat.div_mul_cancel (by grind), Rat.div_mul_cancel (by grind)] at hmul
  exact Rat.natCast_le_natCast.1 hmul

/-- Refutation: voting by averaged confidences exits when all confidences vanish, even for `alpha` 1, where the confidences
are not to matter. -/
theorem avgconf_zero_exits {eq : V → V → Bool} (he : Equiv eq) (null : V) (alpha : Rat) (slot : List (Tok V))
    (hz : ∀ x ∈ slot, x.conf = 0) : vote eq null .avgconf alpha slot = none := by
  have hsum : ∀ l : List Rat, (∀ x ∈ l, x = 0) → l.sum = 0 := by
    intro l
    induction l with
    | nil => intro _; rfl
    | cons a l ih =>
      intro h
      rw [List.sum_cons, h a (by simp), ih fun x hx => h x (by simp [hx])]
      exact Rat.add_zero 0
  have hno : ∀ w, scoreOf eq .avgconf alpha slot w = none := by
    intro w
    unfold scoreOf
    simp only
    rw [if_pos]
    apply hsum
    intro x hx
    obtain ⟨t, ht, e⟩ := List.mem_map.1 hx
    rw [← e]; exact hz t ht
  cases hv : vote eq null .avgconf alpha slot with
  | none => rfl
  | some L =>
    obtain ⟨_, w, _, s, _, _, e3, _⟩ := vote_winner he null .avgconf (by decide) alpha slot L hv
    rw [hno w] at e3
    cases e3

/-- Refutation: more than 49 different words in a slot make ROVER exit, although 50 systems are accepted. -/
theorem too_many_words_exits {eq : V → V → Bool} (he : Equiv eq) (null : V) (m : Meth) (alpha : Rat) (slot : List (Tok V))
    (h : ¬ AtMost eq 49 slot) : vote eq null m alpha slot = none := by
  have hr : ¬ (reps eq slot []).length ≤ 49 := fun hr => h ((atMost_reps he slot 49).2 hr)
  have := (collect_slot he slot).2
  rw [if_neg hr] at this
  unfold vote
  rw [this]

/-- The oracle writes every different word of the slot once, in order of first occurrence: as an alternation when there are
several. -/
theorem oracle_lists_all {eq : V → V → Bool} (he : Equiv eq) (null : V) (alpha : Rat) (slot : List (Tok V))
    (L : List (Line V)) (h : vote eq null .oracle alpha slot = some L) :
    ∃ r, FirstOnes eq slot r ∧ L = match r with
      | [] => []
      | [w] => [lineOf eq slot w]
      | r => Line.altBegin :: (r.map (lineOf eq slot)).intersperse .alt ++ [.altEnd] := by
  have hr : (reps eq slot []).length ≤ 49 := by
    by_cases hr : (reps eq slot []).length ≤ 49
    · exact hr
    · have := (collect_slot he slot).2
      rw [if_neg hr] at this
      unfold vote at h
      rw [this] at h
      cases h
  have hri := (collect_slot he slot).1
  refine ⟨reps eq slot [], ⟨hri.sub, hri.apart, hri.all⟩, ?_⟩
  rcases vote_cases he null .oracle alpha slot hr with ⟨e, _⟩ | ⟨_, w, _, pre, post, s, _, e1, e2, e3, e4, e5, e6, e7⟩
  · rw [e] at h; cases h
  · rw [h] at e7
    injection e7 with e7
    rw [e7]
    have key : ∀ r : List (Tok V), r ≠ [] → oracleLines true (r.map (candOf eq slot)) =
        (r.map (lineOf eq slot)).intersperse .alt ++ [.altEnd] := by
      intro r
      induction r with
      | nil => intro h; exact absurd rfl h
      | cons a r ih =>
        intro _
        cases r with
        | nil => simp [oracleLines, line_cand]
        | cons b r =>
          have := ih (by simp)
          simp only [List.map_cons] at this ⊢
          rw [oracleLines.eq_3 _ _ _ (by simp), this, line_cand]
          simp
    cases hre : reps eq slot [] with
    | nil => simp [oracleLines]
    | cons a r =>
      cases r with
      | nil => simp [oracleLines, line_cand]
      | cons b r =>
        have := key (a :: b :: r) (by simp)
        simp only [List.length_cons]
        rw [if_pos (by omega), decide_eq_true (by omega), this]
        rfl

theorem nat_equiv : Equiv (V := Nat) (· == ·) :=
  ⟨by simp, by intro x y h; simp at h ⊢; exact h.symm, by intro x y z h1 h2; simp at h1 h2 ⊢; exact h1.trans h2⟩

/-- A slot of three systems: two say 7, one says 8 with higher confidence. -/
def demoSlot : List (Tok Nat) := [⟨8, 1, 2, 9/10⟩, ⟨7, 1, 2, 1/2⟩, ⟨7, 2, 3, 1/2⟩]

/-- Frequency voting takes 7 with mean times. -/
example : vote (· == ·) 0 .meth1 1 demoSlot = some [.word (3/2) 1 7 (1/2)] := by decide +kernel
/-- Voting by confidence takes 8. -/
example : vote (· == ·) 0 .meth1 0 demoSlot = some [.word 1 1 8 (9/10)] := by decide +kernel
example : vote (· == ·) 0 .oracle 1 demoSlot =
    some [.altBegin, .word 1 1 8 (9/10), .alt, .word (3/2) 1 7 (1/2), .altEnd] := by decide +kernel
example : ∃ L, vote (· == ·) 0 .avgconf 1 demoSlot = some L :=
  vote_succeeds nat_equiv 0 .avgconf 1 demoSlot (by decide) (by
    intro l hl _
    have := hl.length_le
    simp [demoSlot] at this
    omega) (by decide +kernel) (by decide +kernel) (by decide +kernel)
    (fun _ => ⟨⟨8, 1, 2, 9/10⟩, by decide +kernel, by decide +kernel⟩)

end Verif.Rover
