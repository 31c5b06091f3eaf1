import Verif.Score.Spec
/-!
# Sorting a path by time: lemmas
-/
set_option autoImplicit false
namespace Verif.Score
open Verif.Sgml

variable {W : Type}

/-- Within every run of insertions and deletions the start times do not decrease. -/
def RunsSorted (t1 : W → Int) : List (Entry W) → Prop
  | a :: b :: l => (isIndel a = true → isIndel b = true → key t1 a ≤ key t1 b) ∧ RunsSorted t1 (b :: l)
  | _ => True

/-- The path with its insertions and deletions blanked out. -/
def fixedPart (es : List (Entry W)) : List (Option (Entry W)) := es.map fun e => if isIndel e then none else some e

theorem startTime_eq (t1 : W → Int) (e : Entry W) : startTime t1 e = if isIndel e then some (key t1 e) else none := by
  cases e <;> rfl

theorem RunsSorted.inOrder (t1 : W → Int) : ∀ l : List (Entry W), RunsSorted t1 l → RunsInOrder t1 l
  | [], _ => trivial
  | [_], _ => trivial
  | a :: b :: l, h => by
    refine ⟨?_, RunsSorted.inOrder t1 (b :: l) h.2⟩
    intro x y hx hy
    rw [startTime_eq] at hx hy
    split at hx
    · split at hy
      · rename_i h1 h2
        cases hx; cases hy
        exact h.1 h1 h2
      · cases hy
    · cases hx

theorem pass_cons_cons (t1 : W → Int) (a b : Entry W) (l : List (Entry W)) : pass t1 (a :: b :: l) =
    if isIndel b then
      if key t1 a > key t1 b then (b :: (pass t1 (a :: l)).1, true) else (a :: (pass t1 (b :: l)).1, (pass t1 (b :: l)).2)
    else (a :: b :: l, false) := by
  rw [pass]

/-- A run stops here. -/
def Stop (rest : List (Entry W)) : Prop := ∀ e, rest.head? = some e → isIndel e = false

theorem pass_run (t1 : W → Int) (rest : List (Entry W)) (hs : Stop rest) (r : List (Entry W)) : ∀ a,
    (∀ e ∈ r, isIndel e = true) →
    pass t1 (a :: r ++ rest) = ((pass t1 (a :: r)).1 ++ rest, (pass t1 (a :: r)).2) := by
  induction r with
  | nil =>
    intro a _
    cases rest with
    | nil => simp [pass]
    | cons x xs =>
      have := hs x rfl
      simp only [List.cons_append, List.nil_append]
      rw [pass_cons_cons, this]
      simp [pass]
  | cons b l ih =>
    intro a h
    have hb := h b (by simp)
    have hl : ∀ e ∈ l, isIndel e = true := fun e he => h e (by simp [he])
    simp only [List.cons_append] at ih ⊢
    rw [pass_cons_cons, pass_cons_cons, hb]
    simp only [if_true]
    split
    · rw [ih a hl]; rfl
    · rw [ih b hl]; rfl

/-- The number of inversions. -/
def inv (t1 : W → Int) : List (Entry W) → Nat
  | [] => 0
  | a :: l => l.countP (fun b => decide (key t1 b < key t1 a)) + inv t1 l

theorem inv_le (t1 : W → Int) (l : List (Entry W)) : inv t1 l ≤ l.length * l.length := by
  induction l with
  | nil => simp [inv]
  | cons a l ih =>
    simp only [inv, List.length_cons]
    have := List.countP_le_length (p := fun b => decide (key t1 b < key t1 a)) (l := l)
    rw [Nat.mul_add, Nat.add_mul]
    omega

/-- A selection of entries whose times are those that the sort uses. -/
def Agrees (t1 : W → Int) {β : Type} (f : Entry W → Option β) (tf : β → Int) : Prop :=
  ∀ e w, isIndel e = true → f e = some w → key t1 e = tf w

theorem pass_spec (t1 : W → Int) (l : List (Entry W)) : ∀ a, (∀ e ∈ a :: l, isIndel e = true) →
    (pass t1 (a :: l)).1.Perm (a :: l) ∧
    inv t1 (pass t1 (a :: l)).1 + (if (pass t1 (a :: l)).2 then 1 else 0) ≤ inv t1 (a :: l) ∧
    ((pass t1 (a :: l)).2 = false → (pass t1 (a :: l)).1 = a :: l ∧ (a :: l).Pairwise (fun x y => key t1 x ≤ key t1 y)) ∧
    (∀ (β : Type) (f : Entry W → Option β) (tf : β → Int), Agrees t1 f tf →
      ((a :: l).filterMap f).Pairwise (fun x y => tf x ≤ tf y) → (pass t1 (a :: l)).1.filterMap f = (a :: l).filterMap f) := by
  induction l with
  | nil => intro a _; simp [pass, inv]
  | cons b l ih =>
    intro a h
    have ha := h a (by simp)
    have hb := h b (by simp)
    have hl : ∀ e ∈ l, isIndel e = true := fun e he => h e (by simp [he])
    rw [pass_cons_cons, hb]
    simp only [if_true]
    split
    · rename_i hab
      obtain ⟨h1, h2, h3, h4⟩ := ih a (by intro e he; rcases List.mem_cons.1 he with rfl | he; exact ha; exact hl e he)
      refine ⟨?_, ?_, by simp, ?_⟩
      · exact (h1.cons b).trans (List.Perm.swap _ _ _)
      · simp only [inv, List.countP_cons, h1.countP_eq] at h2 ⊢
        simp only [show ¬ key t1 a < key t1 b by omega, show key t1 b < key t1 a by omega, decide_true, decide_false, if_true]
        simp only [Bool.false_eq_true, if_false]
        split at h2 <;> omega
      · intro β f tf hf hp
        have hp' : ((a :: l).filterMap f).Pairwise (fun x y => tf x ≤ tf y) := by
          refine hp.sublist (List.Sublist.filterMap f ?_)
          exact List.Sublist.cons_cons a (List.sublist_cons_self b l)
        have := h4 β f tf hf hp'
        rw [List.filterMap_cons (a := b), this]
        cases hfa : f a with
        | none =>
          cases hfb : f b with
          | none => simp [hfa, hfb]
          | some y => simp [hfa, hfb]
        | some x =>
          cases hfb : f b with
          | none => simp [hfa, hfb]
          | some y =>
            exfalso
            simp only [List.filterMap_cons, hfa, hfb, List.pairwise_cons] at hp
            have := hp.1 y (by simp)
            rw [← hf a x ha hfa, ← hf b y hb hfb] at this
            omega
    · rename_i hab
      obtain ⟨h1, h2, h3, h4⟩ := ih b (by intro e he; rcases List.mem_cons.1 he with rfl | he; exact hb; exact hl e he)
      refine ⟨h1.cons a, ?_, ?_, ?_⟩
      · simp only [inv, h1.countP_eq] at h2 ⊢
        omega
      · intro hc
        obtain ⟨e1, e2⟩ := h3 hc
        refine ⟨by rw [e1], ?_⟩
        rw [List.pairwise_cons]
        refine ⟨?_, e2⟩
        intro y hy
        rcases List.mem_cons.1 hy with rfl | hy
        · omega
        · have := (List.pairwise_cons.1 e2).1 y hy
          omega
      · intro β f tf hf hp
        have hp' : ((b :: l).filterMap f).Pairwise (fun x y => tf x ≤ tf y) :=
          hp.sublist (List.Sublist.filterMap f (List.sublist_cons_self a _))
        rw [List.filterMap_cons, h4 β f tf hf hp', List.filterMap_cons (a := a)]

theorem passes_spec (t1 : W → Int) (rest : List (Entry W)) (hs : Stop rest) : ∀ (fuel : Nat) (l : List (Entry W)), l ≠ [] →
    (∀ e ∈ l, isIndel e = true) → inv t1 l < fuel →
    ∃ s, passes t1 fuel (l ++ rest) = some (s ++ rest) ∧ s.Perm l ∧ s.Pairwise (fun x y => key t1 x ≤ key t1 y) ∧
      (∀ (β : Type) (f : Entry W → Option β) (tf : β → Int), Agrees t1 f tf →
        (l.filterMap f).Pairwise (fun x y => tf x ≤ tf y) → s.filterMap f = l.filterMap f) := by
  intro fuel
  induction fuel with
  | zero => intro l _ _ h; omega
  | succ n ih =>
    intro l hne hi hf
    obtain ⟨a, r, rfl⟩ := List.exists_cons_of_ne_nil hne
    obtain ⟨h1, h2, h3, h4⟩ := pass_spec t1 r a hi
    unfold passes
    rw [pass_run t1 rest hs r a (fun e he => hi e (by simp [he]))]
    simp only
    cases hc : (pass t1 (a :: r)).2 with
    | false =>
      obtain ⟨e1, e2⟩ := h3 hc
      refine ⟨a :: r, by simp [e1], List.Perm.refl _, e2, fun _ _ _ _ _ => rfl⟩
    | true =>
      rw [hc] at h2
      simp only [if_true] at h2 ⊢
      have hi' : ∀ e ∈ (pass t1 (a :: r)).1, isIndel e = true := fun e he => hi e (h1.mem_iff.1 he)
      have hne' : (pass t1 (a :: r)).1 ≠ [] := by
        intro h0
        rw [h0] at h1
        exact absurd h1.length_eq (by simp)
      obtain ⟨s, k1, k2, k3, k4⟩ := ih _ hne' hi' (by omega)
      refine ⟨s, k1, k2.trans h1, k3, ?_⟩
      intro β f tf hag hp
      have e := h4 β f tf hag hp
      rw [k4 β f tf hag (by rw [e]; exact hp), e]

theorem runsSorted_skip (t1 : W → Int) (h : List (Entry W)) (hh : ∀ e ∈ h, isIndel e = false) (y : List (Entry W))
    (hy : RunsSorted t1 y) : RunsSorted t1 (h ++ y) := by
  induction h with
  | nil => exact hy
  | cons a h ih =>
    have ih := ih (fun e he => hh e (by simp [he]))
    have ha := hh a (by simp)
    rw [List.cons_append]
    cases hc : h ++ y with
    | nil => trivial
    | cons b l =>
      rw [hc] at ih
      exact ⟨by rw [ha]; simp, ih⟩

theorem runsSorted_run (t1 : W → Int) (y : List (Entry W)) (hs : Stop y) (hy : RunsSorted t1 y) (r : List (Entry W))
    (hp : r.Pairwise (fun a b => key t1 a ≤ key t1 b)) : RunsSorted t1 (r ++ y) := by
  induction r with
  | nil => exact hy
  | cons a r ih =>
    obtain ⟨h1, h2⟩ := List.pairwise_cons.1 hp
    have ih := ih h2
    cases r with
    | cons b r => exact ⟨fun _ _ => h1 b (by simp), ih⟩
    | nil =>
      cases y with
      | nil => trivial
      | cons b y => exact ⟨fun _ hb => absurd (hs b rfl) (by rw [hb]; simp), ih⟩

theorem takeWhile_append_stop {α : Type} (p : α → Bool) (a b : List α) (ha : ∀ e ∈ a, p e = true)
    (hb : ∀ e, b.head? = some e → p e = false) : (a ++ b).takeWhile p = a ∧ (a ++ b).dropWhile p = b := by
  induction a with
  | nil =>
    cases b with
    | nil => simp
    | cons x xs => simp [hb x rfl]
  | cons x xs ih =>
    obtain ⟨h1, h2⟩ := ih (fun e he => ha e (by simp [he]))
    simp [ha x (by simp), h1, h2]

theorem takeWhile_all {α : Type} (p : α → Bool) (l : List α) : ∀ e ∈ l.takeWhile p, p e = true := by
  induction l with
  | nil => simp
  | cons a l ih =>
    intro e he
    rw [List.takeWhile_cons] at he
    split at he
    · rcases List.mem_cons.1 he with rfl | h
      · assumption
      · exact ih e h
    · simp at he

theorem dropWhile_head {α : Type} (p : α → Bool) (l : List α) : ∀ e, (l.dropWhile p).head? = some e → p e = false := by
  induction l with
  | nil => simp
  | cons a l ih =>
    intro e he
    rw [List.dropWhile_cons] at he
    split at he
    · exact ih e he
    · simp only [List.head?_cons, Option.some.injEq] at he
      subst he
      simp_all

theorem fixedPart_run (r s : List (Entry W)) (hr : ∀ e ∈ r, isIndel e = true) (hp : s.Perm r) : fixedPart s = fixedPart r := by
  have key : ∀ l : List (Entry W), (∀ e ∈ l, isIndel e = true) → fixedPart l = List.replicate l.length none := by
    intro l
    induction l with
    | nil => intro _; rfl
    | cons a l ih =>
      intro h
      have := ih (fun e he => h e (by simp [he]))
      unfold fixedPart at this ⊢
      rw [List.map_cons, this, h a (by simp)]
      rfl
  rw [key r hr, key s (fun e he => hr e (hp.mem_iff.1 he)), hp.length_eq]

/-- What the sort does. -/
structure Sorted (t1 : W → Int) (l s : List (Entry W)) : Prop where
  fixed : fixedPart s = fixedPart l
  sorted : RunsSorted t1 s
  within : ∀ i, (∀ e, l[i]? = some e → isIndel e = false) → (s.take i).Perm (l.take i)
  order : ∀ (β : Type) (f : Entry W → Option β) (tf : β → Int), Agrees t1 f tf →
        (l.filterMap f).Pairwise (fun x y => tf x ≤ tf y) → s.filterMap f = l.filterMap f

theorem sortPath_spec (t1 : W → Int) : ∀ (fuel : Nat) (l : List (Entry W)), l.length < fuel →
    ∃ s, sortPath t1 fuel l = some s ∧ Sorted t1 l s := by
  intro fuel
  induction fuel with
  | zero => intro l h; omega
  | succ n ih =>
    intro l hl
    unfold sortPath
    simp only
    have hsplit := List.takeWhile_append_dropWhile (p := fun e : Entry W => !isIndel e) (l := l)
    have hhead := takeWhile_all (fun e : Entry W => !isIndel e) l
    have htail := dropWhile_head (fun e : Entry W => !isIndel e) l
    generalize l.takeWhile (fun e => !isIndel e) = head at *
    generalize l.dropWhile (fun e => !isIndel e) = tail at *
    have hh : ∀ e ∈ head, isIndel e = false := fun e he => by simpa using hhead e he
    split
    · rename_i h0
      subst h0
      rw [List.append_nil] at hsplit
      subst hsplit
      refine ⟨_, rfl, rfl, ?_, fun i _ => List.Perm.refl _, fun _ _ _ _ _ => rfl⟩
      have := runsSorted_skip t1 head hh [] trivial
      rwa [List.append_nil] at this
    · rename_i h0
      have hs2 := List.takeWhile_append_dropWhile (p := fun e : Entry W => isIndel e) (l := tail)
      have hr2 := takeWhile_all (fun e : Entry W => isIndel e) tail
      have hd2 := dropWhile_head (fun e : Entry W => isIndel e) tail
      have hne : tail.takeWhile (fun e => isIndel e) ≠ [] := by
        obtain ⟨x, xs, rfl⟩ := List.exists_cons_of_ne_nil h0
        have := htail x rfl
        simp only [Bool.not_eq_false'] at this
        simp [this]
      generalize tail.takeWhile (fun e => isIndel e) = run at *
      generalize tail.dropWhile (fun e => isIndel e) = rest at *
      subst hs2
      subst hsplit
      have hfu : inv t1 run < (run ++ rest).length * (run ++ rest).length + 1 := by
        have h1 := inv_le t1 run
        have h2 : run.length * run.length ≤ (run ++ rest).length * (run ++ rest).length := by
          rw [List.length_append]
          exact Nat.mul_le_mul (by omega) (by omega)
        omega
      obtain ⟨s', k1, k2, k3, k4⟩ := passes_spec t1 rest hd2 _ run hne hr2 hfu
      rw [k1]
      simp only
      obtain ⟨e1, e2⟩ := takeWhile_append_stop isIndel s' rest (fun e he => hr2 e (k2.mem_iff.1 he)) hd2
      rw [e1, e2]
      have hlen : 0 < run.length := List.length_pos_iff.2 hne
      obtain ⟨r, j1, j2⟩ := ih rest (by simp only [List.length_append] at hl; omega)
      rw [j1]
      simp only [Option.map_some]
      have hstop : Stop r := by
        intro e he
        have hf := j2.fixed
        cases r with
        | nil => cases he
        | cons x xs =>
          cases he
          cases rest with
          | nil => simp [fixedPart] at hf
          | cons y ys =>
            have := hd2 y rfl
            simp only [fixedPart, List.map_cons, List.cons.injEq, this] at hf
            cases hx : isIndel e with
            | false => rfl
            | true => rw [hx] at hf; simp at hf
      refine ⟨_, rfl, ?_, ?_, ?_, ?_⟩
      · have h1 := fixedPart_run run s' hr2 k2
        have h2 := j2.fixed
        simp only [fixedPart, List.map_append, List.append_assoc] at h1 h2 ⊢
        rw [h1, h2]
      · rw [List.append_assoc]
        exact runsSorted_skip t1 head hh _ (runsSorted_run t1 r hstop j2.sorted s' k3)
      · intro i hi
        rw [List.append_assoc]
        rcases Nat.lt_or_ge head.length i with h | h
        · rcases Nat.lt_or_ge i (head.length + run.length) with h' | h'
          · exfalso
            have : i - head.length < run.length := by omega
            rw [List.getElem?_append_right (by omega), List.getElem?_append_left this, List.getElem?_eq_getElem this] at hi
            have h3 := hi _ rfl
            rw [hr2 _ (List.getElem_mem this)] at h3
            cases h3
          · rw [List.take_append, List.take_append, List.take_append, List.take_append, List.take_of_length_le (by omega),
              List.take_of_length_le (by rw [k2.length_eq]; omega), List.take_of_length_le (l := run) (by omega), k2.length_eq]
            refine List.Perm.append_left _ (List.Perm.append k2 (j2.within _ ?_))
            intro e he
            refine hi e ?_
            rw [List.getElem?_append_right (by omega), List.getElem?_append_right (by omega)]
            exact he
        · rw [List.take_append_of_le_length h, List.take_append_of_le_length h]
      · intro β f tf hag hp
        have p1 : (run.filterMap f).Pairwise (fun x y => tf x ≤ tf y) := by
          refine hp.sublist (List.Sublist.filterMap f ?_)
          exact (List.sublist_append_left run rest).trans (List.sublist_append_right head _)
        have p2 : (rest.filterMap f).Pairwise (fun x y => tf x ≤ tf y) := by
          refine hp.sublist (List.Sublist.filterMap f ?_)
          exact (List.sublist_append_right run rest).trans (List.sublist_append_right head _)
        simp only [List.filterMap_append, List.append_assoc]
        rw [k4 β f tf hag p1, j2.order β f tf hag p2]

theorem agrees_ref (t1 : W → Int) : Agrees t1 Entry.ref t1 := by
  intro e w hi hf
  cases e <;> simp_all [isIndel, Entry.ref, key]

theorem agrees_hyp (t1 : W → Int) : Agrees t1 Entry.hyp t1 := by
  intro e w hi hf
  cases e <;> simp_all [isIndel, Entry.hyp, key]

end Verif.Score
