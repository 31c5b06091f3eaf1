import Verif.Hub.Model
import Verif.Hub.Spec
import Verif.TextVal.Props
/-!
# Lemmas on the driver of evaluations
-/
set_option autoImplicit false
namespace Verif.Hub
open Verif.TextVal

/-! ## Order of texts -/

theorem leq_iff (a b : List Char) : leq a b = true ↔ a < b ∨ a = b := by
  induction a generalizing b with
  | nil =>
    cases b with
    | nil => simp [leq]
    | cons d t => simp [leq]
  | cons c s ih =>
    cases b with
    | nil => simp [leq]
    | cons d t =>
      unfold leq
      rw [Bool.or_eq_true, Bool.and_eq_true, decide_eq_true_iff, beq_iff_eq, ih, List.cons_lt_cons_iff, List.cons.injEq]
      constructor
      · rintro (h | ⟨rfl, h | h⟩)
        · exact .inl (.inl h)
        · exact .inl (.inr ⟨rfl, h⟩)
        · exact .inr ⟨rfl, h⟩
      · rintro ((h | ⟨rfl, h⟩) | ⟨rfl, h⟩)
        · exact .inl h
        · exact .inr ⟨rfl, .inl h⟩
        · exact .inr ⟨rfl, .inr h⟩

theorem char_total (c d : Char) : c < d ∨ c = d ∨ d < c := by
  rcases Nat.lt_trichotomy c.toNat d.toNat with h | h | h
  · exact .inl h
  · exact .inr (.inl (Char.toNat_inj.1 h))
  · exact .inr (.inr h)

theorem char_trans {c d e : Char} (h1 : c < d) (h2 : d < e) : c < e := Nat.lt_trans (show c.toNat < d.toNat from h1) h2

theorem char_irrefl {c : Char} (h : c < c) : False := Nat.lt_irrefl c.toNat h

theorem leq_total (a b : List Char) : leq a b = true ∨ leq b a = true := by
  induction a generalizing b with
  | nil => exact .inl rfl
  | cons c s ih =>
    cases b with
    | nil => exact .inr rfl
    | cons d t =>
      simp only [leq, Bool.or_eq_true, Bool.and_eq_true, decide_eq_true_iff, beq_iff_eq]
      rcases char_total c d with h | rfl | h
      · exact .inl (.inl h)
      · rcases ih t with h | h
        · exact .inl (.inr ⟨rfl, h⟩)
        · exact .inr (.inr ⟨rfl, h⟩)
      · exact .inr (.inl h)

theorem leq_trans {a b c : List Char} (h1 : leq a b = true) (h2 : leq b c = true) : leq a c = true := by
  induction a generalizing b c with
  | nil => rfl
  | cons x s ih =>
    cases b with
    | nil => cases h1
    | cons y t =>
      cases c with
      | nil => cases h2
      | cons z u =>
        simp only [leq, Bool.or_eq_true, Bool.and_eq_true, decide_eq_true_iff, beq_iff_eq] at h1 h2 ⊢
        rcases h1 with h1 | ⟨rfl, h1⟩
        · rcases h2 with h2 | ⟨rfl, h2⟩
          · exact .inl (char_trans h1 h2)
          · exact .inl h1
        · rcases h2 with h2 | ⟨rfl, h2⟩
          · exact .inl h2
          · exact .inr ⟨rfl, ih h1 h2⟩

theorem leq_antisymm {a b : List Char} (h1 : leq a b = true) (h2 : leq b a = true) : a = b := by
  induction a generalizing b with
  | nil =>
    cases b with
    | nil => rfl
    | cons => cases h2
  | cons x s ih =>
    cases b with
    | nil => cases h1
    | cons y t =>
      simp only [leq, Bool.or_eq_true, Bool.and_eq_true, decide_eq_true_iff, beq_iff_eq] at h1 h2
      rcases h1 with h1 | ⟨rfl, h1⟩
      · rcases h2 with h2 | ⟨rfl, h2⟩
        · exact (char_irrefl (char_trans h1 h2)).elim
        · exact (char_irrefl h1).elim
      · rcases h2 with h2 | ⟨_, h2⟩
        · exact (char_irrefl h2).elim
        · rw [ih h1 h2]

theorem leq_lt {a b : List Char} (h : leq a b = true) (hn : a ≠ b) : a < b := ((leq_iff a b).1 h).resolve_right hn

/-! ## The order of records -/

theorem le_iff (num : List Char → Int) (n : Nat) (a b : List Char) :
    le num n a b = true ↔ (field 0 a < field 0 b ∨ (field 0 a = field 0 b ∧ (field 1 a < field 1 b ∨
      (field 1 a = field 1 b ∧ num (field n a) ≤ num (field n b))))) := by
  have irr : ∀ (x : List Char), ¬ x < x := fun x => List.lt_irrefl x
  unfold le
  by_cases h0 : field 0 a = field 0 b
  · rw [h0]
    by_cases h1 : field 1 a = field 1 b
    · rw [h1]
      simp [irr]
    · rw [if_neg (by simp), if_pos (by simpa using h1), leq_iff]
      simp [irr, h1]
  · rw [if_pos (by simpa using h0), leq_iff]
    simp [h0]

theorem le_total (num : List Char → Int) (n : Nat) (a b : List Char) : le num n a b = true ∨ le num n b a = true := by
  unfold le
  by_cases h0 : field 0 a = field 0 b
  · rw [h0]
    by_cases h1 : field 1 a = field 1 b
    · rw [h1]
      simp only [bne_self_eq_false, Bool.false_eq_true, if_false, decide_eq_true_iff]
      omega
    · rw [if_neg (by simp), if_pos (by simpa using h1), if_neg (by simp), if_pos (by simpa using Ne.symm h1)]
      exact leq_total _ _
  · rw [if_pos (by simpa using h0), if_pos (by simpa using Ne.symm h0)]
    exact leq_total _ _

theorem lt_trans' {a b c : List Char} (h1 : a < b) (h2 : b < c) : a < c := List.lt_trans h1 h2

theorem le_trans {num : List Char → Int} {n : Nat} {a b c : List Char} (h1 : le num n a b = true) (h2 : le num n b c = true) : le num n a c = true := by
  rw [le_iff] at h1 h2 ⊢
  rcases h1 with h1 | ⟨e1, h1⟩
  · rcases h2 with h2 | ⟨e2, h2⟩
    · exact .inl (lt_trans' h1 h2)
    · exact .inl (e2 ▸ h1)
  · rcases h2 with h2 | ⟨e2, h2⟩
    · exact .inl (e1 ▸ h2)
    · refine .inr ⟨e1.trans e2, ?_⟩
      rcases h1 with h1 | ⟨e3, h1⟩
      · rcases h2 with h2 | ⟨e4, h2⟩
        · exact .inl (lt_trans' h1 h2)
        · exact .inl (e4 ▸ h1)
      · rcases h2 with h2 | ⟨e4, h2⟩
        · exact .inl (e3 ▸ h2)
        · exact .inr ⟨e3.trans e4, by omega⟩

/-! ## Sorting -/

theorem ins_perm {α : Type} (r : α → α → Bool) (a : α) (l : List α) : (ins r a l).Perm (a :: l) := by
  induction l with
  | nil => exact List.Perm.refl _
  | cons b l ih =>
    unfold ins
    split
    · exact List.Perm.refl _
    · exact (ih.cons b).trans (List.Perm.swap a b l)

theorem sort_perm {α : Type} (r : α → α → Bool) (l : List α) : (sort r l).Perm l := by
  induction l with
  | nil => exact List.Perm.refl _
  | cons a l ih => exact (ins_perm r a _).trans (ih.cons a)

theorem ins_pairwise {α : Type} {r : α → α → Bool} (ht : ∀ a b, r a b = true ∨ r b a = true) (htr : ∀ a b c, r a b = true → r b c = true → r a c = true)
    (a : α) (l : List α) (h : l.Pairwise (fun x y => r x y = true)) : (ins r a l).Pairwise (fun x y => r x y = true) := by
  induction l with
  | nil => exact List.pairwise_singleton _ _
  | cons b l ih =>
    obtain ⟨h1, h2⟩ := List.pairwise_cons.1 h
    unfold ins
    split
    · rename_i hab
      refine List.pairwise_cons.2 ⟨?_, h⟩
      intro x hx
      rcases List.mem_cons.1 hx with rfl | hx
      · exact hab
      · exact htr _ _ _ hab (h1 x hx)
    · rename_i hab
      refine List.pairwise_cons.2 ⟨?_, ih h2⟩
      intro x hx
      rcases List.mem_cons.1 ((ins_perm r a l).mem_iff.1 hx) with rfl | hx
      · exact (ht b x).resolve_right hab
      · exact h1 x hx

theorem sort_pairwise {α : Type} {r : α → α → Bool} (ht : ∀ a b, r a b = true ∨ r b a = true) (htr : ∀ a b c, r a b = true → r b c = true → r a c = true)
    (l : List α) : (sort r l).Pairwise (fun x y => r x y = true) := by
  induction l with
  | nil => exact List.Pairwise.nil
  | cons a l ih => exact ins_pairwise ht htr a _ ih

theorem ins_filter {α : Type} {r : α → α → Bool} {P : α → Bool} (hP : ∀ a b, P a = true → P b = true → r a b = true) (a : α) (l : List α) :
    (ins r a l).filter P = (a :: l).filter P := by
  induction l with
  | nil => rfl
  | cons b l ih =>
    unfold ins
    split
    · rfl
    · rename_i hab
      rw [List.filter_cons, ih, List.filter_cons, List.filter_cons, List.filter_cons]
      by_cases ha : P a = true
      · by_cases hb : P b = true
        · exact absurd (hP a b ha hb) hab
        · simp only [if_neg hb]
      · simp only [if_neg ha]

theorem sort_filter {α : Type} {r : α → α → Bool} {P : α → Bool} (hP : ∀ a b, P a = true → P b = true → r a b = true) (l : List α) :
    (sort r l).filter P = l.filter P := by
  induction l with
  | nil => rfl
  | cons a l ih =>
    rw [show sort r (a :: l) = ins r a (sort r l) from rfl, ins_filter hP, List.filter_cons, List.filter_cons, ih]

theorem mem_uniq (k : List Char) (l : List (List Char)) : k ∈ uniq l ↔ k ∈ l := by
  induction l with
  | nil => exact Iff.rfl
  | cons a l ih =>
    unfold uniq
    split
    · rename_i h
      rw [ih, List.mem_cons]
      constructor
      · exact .inr
      · rintro (rfl | h')
        · exact List.contains_iff_mem.1 h
        · exact h'
    · rw [List.mem_cons, List.mem_cons, ih]

theorem uniq_nodup (l : List (List Char)) : (uniq l).Nodup := by
  induction l with
  | nil => exact List.nodup_nil
  | cons a l ih =>
    unfold uniq
    split
    · exact ih
    · rename_i h
      refine List.nodup_cons.2 ⟨?_, ih⟩
      rw [mem_uniq]
      intro hm
      exact h (List.contains_iff_mem.2 hm)

/-- The keys of a hash in order. -/
theorem keys_spec (l : List (List Char)) :
    (sort leq (uniq l)).Nodup ∧ (∀ k, k ∈ sort leq (uniq l) ↔ k ∈ l) ∧ (sort leq (uniq l)).Pairwise (fun a b => leq a b = true) :=
  ⟨(sort_perm leq _).nodup_iff.2 (uniq_nodup l), fun k => ((sort_perm leq _).mem_iff).trans (mem_uniq k l),
    sort_pairwise leq_total (fun _ _ _ => leq_trans) _⟩

theorem groups_perm {α β : Type} [BEq β] [LawfulBEq β] (key : α → β) (ks : List β) (hk : ks.Nodup) (l : List α) (h : ∀ x ∈ l, key x ∈ ks) :
    (ks.flatMap (fun k => l.filter (fun x => key x == k))).Perm l := by
  induction ks generalizing l with
  | nil =>
    cases l with
    | nil => exact List.Perm.refl _
    | cons a l => exact absurd (h a List.mem_cons_self) (by simp)
  | cons k ks ih =>
    obtain ⟨h1, h2⟩ := List.nodup_cons.1 hk
    rw [List.flatMap_cons]
    have e : ks.flatMap (fun k' => l.filter (fun x => key x == k')) = ks.flatMap (fun k' => (l.filter (fun x => !(key x == k))).filter (fun x => key x == k')) := by
      rw [List.flatMap_def, List.flatMap_def]
      congr 1
      apply List.map_congr_left
      intro k' hk'
      rw [List.filter_filter]
      apply List.filter_congr
      intro x _
      by_cases hx : key x = k'
      · have : key x ≠ k := by
          rintro rfl
          exact h1 (hx ▸ hk')
        simp [hx]
        rintro rfl
        exact h1 hk'
      · have : (key x == k') = false := by simpa using hx
        rw [this]
        rfl
    rw [e]
    refine List.Perm.trans ?_ (List.filter_append_perm (fun x => key x == k) l)
    refine List.Perm.append_left _ (ih h2 _ ?_)
    intro x hx
    obtain ⟨hx1, hx2⟩ := List.mem_filter.1 hx
    rcases List.mem_cons.1 (h x hx1) with e' | e'
    · rw [e'] at hx2
      simp at hx2
    · exact e'

theorem flatMap_perm {α β : Type} (l : List α) {f g : α → List β} (h : ∀ a ∈ l, (f a).Perm (g a)) : (l.flatMap f).Perm (l.flatMap g) := by
  induction l with
  | nil => exact List.Perm.refl _
  | cons a l ih =>
    rw [List.flatMap_cons, List.flatMap_cons]
    exact (h a List.mem_cons_self).append (ih (fun b hb => h b (List.mem_cons_of_mem _ hb)))

theorem group_perm (num : List Char → Int) (n : Nat) (g : List (List Char)) :
    ((sort leq (uniq (g.map sep))).flatMap (fun s => sort (le num n) (g.filter (fun x => sep x == s)))).Perm g := by
  refine (flatMap_perm _ (fun s _ => sort_perm _ _)).trans ?_
  obtain ⟨h1, h2, _⟩ := keys_spec (g.map sep)
  exact groups_perm sep _ h1 g (fun x hx => (h2 _).2 (List.mem_map_of_mem hx))

theorem grouped_perm (num : List Char → Int) (n : Nat) (l : List (List Char)) : (grouped num n l).Perm l := by
  unfold grouped
  refine (flatMap_perm _ (fun f _ => group_perm num n _)).trans ?_
  obtain ⟨h1, h2, _⟩ := keys_spec (l.map (field 0))
  exact groups_perm (field 0) _ h1 l (fun x hx => (h2 _).2 (List.mem_map_of_mem hx))

/-- Lines of different files are in the order of the files. -/
theorem grouped_files (num : List Char → Int) (n : Nat) (l : List (List Char)) :
    (grouped num n l).Pairwise (fun a b => field 0 a < field 0 b ∨ field 0 a = field 0 b) := by
  unfold grouped
  obtain ⟨h1, _, h3⟩ := keys_spec (l.map (field 0))
  have mem : ∀ (f x : List Char), x ∈ (let g := l.filter (fun x => field 0 x == f)
      (sort leq (uniq (g.map sep))).flatMap (fun s => sort (le num n) (g.filter (fun x => sep x == s)))) → field 0 x = f := by
    intro f x hx
    have := (group_perm num n _).mem_iff.1 hx
    exact eq_of_beq (List.mem_filter.1 this).2
  rw [List.pairwise_flatMap]
  constructor
  · intro f _
    refine List.Pairwise.imp_of_mem (R := fun _ _ => True) ?_ (List.pairwise_of_forall (fun _ _ => trivial))
    intro a b ha hb _
    exact .inr ((mem f a ha).trans (mem f b hb).symm)
  · refine h3.imp ?_
    intro f g hfg x hx y hy
    rw [mem f x hx, mem g y hy]
    exact (leq_iff f g).1 hfg

theorem uniq_const {g : List Char} {l : List (List Char)} (h : ∀ x ∈ l, x = g) (hn : l ≠ []) : uniq l = [g] := by
  induction l with
  | nil => exact absurd rfl hn
  | cons a l ih =>
    have ha := h a List.mem_cons_self
    subst ha
    have h' : ∀ x ∈ l, x = a := fun x hx => h x (List.mem_cons_of_mem _ hx)
    unfold uniq
    split
    · rename_i hc
      apply ih h'
      rintro rfl
      cases hc
    · rename_i hc
      cases l with
      | nil => rfl
      | cons b l =>
        exfalso
        apply hc
        rw [h' b List.mem_cons_self]
        simp

/-- With one separator there is one group for each file. -/
theorem grouped_one (num : List Char → Int) (n : Nat) (l : List (List Char)) (g : List Char) (h : ∀ x ∈ l, sep x = g) :
    grouped num n l = (sort leq (uniq (l.map (field 0)))).flatMap (fun f => sort (le num n) (l.filter (fun x => field 0 x == f))) := by
  unfold grouped
  rw [List.flatMap_def, List.flatMap_def]
  congr 1
  apply List.map_congr_left
  intro f hf
  obtain ⟨_, h2, _⟩ := keys_spec (l.map (field 0))
  obtain ⟨x, hx, rfl⟩ := List.mem_map.1 ((h2 f).1 hf)
  have hne : l.filter (fun y => field 0 y == field 0 x) ≠ [] := by
    intro e
    have : x ∈ l.filter (fun y => field 0 y == field 0 x) := List.mem_filter.2 ⟨hx, by simp⟩
    rw [e] at this
    cases this
  dsimp only
  rw [uniq_const (g := g) (by
    intro s hs
    obtain ⟨y, hy, rfl⟩ := List.mem_map.1 hs
    exact h y (List.mem_filter.1 hy).1) (by
    intro e
    exact hne (List.map_eq_nil_iff.1 e))]
  have e1 : sort leq [g] = [g] := rfl
  rw [e1, List.flatMap_cons, List.flatMap_nil, List.append_nil]
  congr 1
  rw [List.filter_eq_self]
  intro y hy
  rw [h y (List.mem_filter.1 hy).1]
  simp

theorem grouped_sorted (num : List Char → Int) (n : Nat) (l : List (List Char)) (g : List Char) (h : ∀ x ∈ l, sep x = g) :
    (grouped num n l).Pairwise (fun a b => le num n a b = true) := by
  rw [grouped_one num n l g h]
  obtain ⟨h1, _, h3⟩ := keys_spec (l.map (field 0))
  have mem : ∀ (f x : List Char), x ∈ sort (le num n) (l.filter (fun x => field 0 x == f)) → field 0 x = f := by
    intro f x hx
    exact eq_of_beq (List.mem_filter.1 ((sort_perm _ _).mem_iff.1 hx)).2
  rw [List.pairwise_flatMap]
  constructor
  · intro f _
    exact sort_pairwise (le_total num n) (fun _ _ _ => le_trans) _
  · refine List.Pairwise.imp (R := fun a b => leq a b = true ∧ a ≠ b) ?_ (List.Pairwise.and h3 h1)
    rintro f k ⟨hfk, hne⟩ x hx y hy
    rw [le_iff, mem f x hx, mem k y hy]
    exact .inl (leq_lt hfk hne)

theorem flatMap_only {α : Type} (ks : List (List Char)) (hk : ks.Nodup) (k : List Char) (X : List α) (h : k ∈ ks) :
    ks.flatMap (fun j => if j = k then X else []) = X := by
  induction ks with
  | nil => cases h
  | cons j ks ih =>
    obtain ⟨h1, h2⟩ := List.nodup_cons.1 hk
    rw [List.flatMap_cons]
    by_cases hj : j = k
    · subst hj
      rw [if_pos rfl]
      have : ks.flatMap (fun i => if i = j then X else []) = [] := by
        rw [List.flatMap_eq_nil_iff]
        intro i hi
        rw [if_neg]
        rintro rfl
        exact h1 hi
      rw [this, List.append_nil]
    · rw [if_neg hj, List.nil_append]
      exact ih h2 ((List.mem_cons.1 h).resolve_left (Ne.symm hj))

theorem grouped_stable (num : List Char → Int) (n : Nat) (l : List (List Char)) (g : List Char) (h : ∀ x ∈ l, sep x = g) (f c : List Char) (t : Int) :
    (grouped num n l).filter (fun x => field 0 x == f && field 1 x == c && num (field n x) == t) =
      l.filter (fun x => field 0 x == f && field 1 x == c && num (field n x) == t) := by
  have hP : ∀ (a b : List Char), (field 0 a == f && field 1 a == c && num (field n a) == t) = true →
      (field 0 b == f && field 1 b == c && num (field n b) == t) = true → le num n a b = true := by
    intro a b ha hb
    simp only [Bool.and_eq_true, beq_iff_eq] at ha hb
    rw [le_iff, ha.1.1, hb.1.1, ha.1.2, hb.1.2, ha.2, hb.2]
    exact .inr ⟨rfl, .inr ⟨rfl, Int.le_refl _⟩⟩
  rw [grouped_one num n l g h, List.filter_flatMap]
  obtain ⟨h1, h2, _⟩ := keys_spec (l.map (field 0))
  have e : ∀ k, (sort (le num n) (l.filter (fun x => field 0 x == k))).filter (fun x => field 0 x == f && field 1 x == c && num (field n x) == t) =
      if k = f then l.filter (fun x => field 0 x == f && field 1 x == c && num (field n x) == t) else [] := by
    intro k
    rw [sort_filter hP, List.filter_filter]
    split
    · rename_i hk
      subst hk
      apply List.filter_congr
      intro x _
      cases field 0 x == k <;> simp
    · rename_i hk
      rw [List.filter_eq_nil_iff]
      intro x _ hx
      simp only [Bool.and_eq_true, beq_iff_eq] at hx
      exact hk (hx.2.symm.trans hx.1.1.1)
  rw [show (fun k => (sort (le num n) (l.filter (fun x => field 0 x == k))).filter (fun x => field 0 x == f && field 1 x == c && num (field n x) == t)) =
    (fun k => if k = f then l.filter (fun x => field 0 x == f && field 1 x == c && num (field n x) == t) else []) from funext e]
  by_cases hf : f ∈ l.map (field 0)
  · exact flatMap_only _ h1 f _ ((h2 f).2 hf)
  · have e2 : l.filter (fun x => field 0 x == f && field 1 x == c && num (field n x) == t) = [] := by
      rw [List.filter_eq_nil_iff]
      intro x hx hx'
      simp only [Bool.and_eq_true, beq_iff_eq] at hx'
      exact hf (List.mem_map.2 ⟨x, hx, hx'.1.1⟩)
    rw [e2]
    simp

end Verif.Hub
