import Verif.LList.Spec
/-!
# Lemmas on linked lists
-/
set_option autoImplicit false
namespace Verif.LList
variable {D : Type}

/-- From pointer `p` the nodes at addresses `A` hold the sequence `l`. -/
def ListAt (h : Heap D) : Option Nat → List Nat → List D → Prop
  | p, [], [] => p = none
  | p, a :: A, d :: l => p = some a ∧ ∃ n, h.at a = some n ∧ n.data = d ∧ ListAt h n.next A l
  | _, _, _ => False

theorem at_cons_ne {h : Heap D} {n : Node D} {a : Nat} (e : a ≠ n.addr) : Heap.at (n :: h) a = h.at a := by
  unfold Heap.at
  rw [List.find?_cons_of_neg]
  simpa using fun e' => e e'.symm

theorem at_cons_self {h : Heap D} {n : Node D} : Heap.at (n :: h) n.addr = some n := by
  unfold Heap.at
  rw [List.find?_cons_of_pos]
  simp

theorem at_mem {h : Heap D} {a : Nat} {n : Node D} (e : h.at a = some n) : a ∈ h.map Node.addr := by
  have h1 := List.mem_of_find?_eq_some e
  have h2 : n.addr = a := by simpa using List.find?_some e
  exact List.mem_map.2 ⟨n, h1, h2⟩

theorem at_filter_ne {h : Heap D} {p a : Nat} (e : a ≠ p) : Heap.at (h.filter fun m => m.addr ≠ p) a = h.at a := by
  unfold Heap.at
  induction h with
  | nil => rfl
  | cons n h ih =>
    by_cases hn : n.addr = p
    · rw [List.filter_cons_of_neg (by simpa using hn), ih, List.find?_cons_of_neg]
      simp only [decide_eq_true_eq]
      intro e'; exact e (e'.symm.trans hn)
    · rw [List.filter_cons_of_pos (by simpa using hn), List.find?_cons, List.find?_cons, ih]

theorem at_setNext {h : Heap D} {q a : Nat} {x : Option Nat} :
    (setNext h q x).at a = (h.at a).map fun n => if a = q then { n with next := x } else n := by
  unfold Heap.at setNext
  induction h with
  | nil => rfl
  | cons n h ih =>
    rw [List.map_cons, List.find?_cons, List.find?_cons, ih]
    have ha : (if n.addr = q then { n with next := x } else n : Node D).addr = n.addr := by split <;> rfl
    rw [ha]
    by_cases hn : n.addr = a
    · simp only [hn, decide_true, Option.map_some]
    · simp only [hn, decide_false]

theorem map_setNext (h : Heap D) (q : Nat) (x : Option Nat) : (setNext h q x).map Node.addr = h.map Node.addr := by
  unfold setNext
  rw [List.map_map]
  apply List.map_congr_left
  intro n _
  show (if n.addr = q then { n with next := x } else n : Node D).addr = n.addr
  split <;> rfl

theorem listAt_frame {h h' : Heap D} : ∀ (A : List Nat) (l : List D) (p : Option Nat), (∀ a ∈ A, h'.at a = h.at a) →
    ListAt h p A l → ListAt h' p A l := by
  intro A
  induction A with
  | nil =>
    intro l p _ hl
    cases l with
    | nil => exact hl
    | cons => exact hl.elim
  | cons a A ih =>
    intro l p ha hl
    cases l with
    | nil => exact hl.elim
    | cons d l =>
      obtain ⟨e, n, h1, h2, h3⟩ := hl
      exact ⟨e, n, by rw [ha a (by simp)]; exact h1, h2, ih l n.next (fun b hb => ha b (by simp [hb])) h3⟩

theorem listAt_live {h : Heap D} : ∀ (A : List Nat) (l : List D) (p : Option Nat), ListAt h p A l →
    ∀ a ∈ A, a ∈ h.map Node.addr := by
  intro A
  induction A with
  | nil => intro l p _ a ha; cases ha
  | cons b A ih =>
    intro l p hl a ha
    cases l with
    | nil => exact hl.elim
    | cons d l =>
      obtain ⟨e, n, h1, h2, h3⟩ := hl
      rcases List.mem_cons.1 ha with e | ha
      · rw [e]; exact at_mem h1
      · exact ih l n.next h3 a ha

theorem listAt_len {h : Heap D} {A : List Nat} {l : List D} {p : Option Nat} (hl : ListAt h p A l) (hn : A.Nodup) :
    A.length ≤ h.length := by
  have := hn.length_le_of_subset (l₂ := h.map Node.addr) (fun a ha => listAt_live A l p hl a ha)
  simpa using this

theorem listAt_walk {h : Heap D} : ∀ (A : List Nat) (l : List D) (p : Option Nat) (fuel : Nat), ListAt h p A l →
    A.length ≤ fuel → walk h fuel p = some l := by
  intro A
  induction A with
  | nil =>
    intro l p fuel hl _
    cases l with
    | nil => have : p = none := hl
             subst this; cases fuel <;> rfl
    | cons => exact hl.elim
  | cons a A ih =>
    intro l p fuel hl hf
    cases l with
    | nil => exact hl.elim
    | cons d l =>
      obtain ⟨e, n, h1, h2, h3⟩ := hl
      subst e
      cases fuel with
      | zero => simp at hf
      | succ fuel =>
        unfold walk
        rw [h1]
        simp only
        rw [ih l n.next fuel h3 (by simpa using hf), h2]
        rfl

/-- The last address. -/
theorem lastNode_ok {h : Heap D} : ∀ (A : List Nat) (l : List D) (p fuel : Nat), ListAt h (some p) A l → A.length ≤ fuel →
    ∃ A0 q, A = A0 ++ [q] ∧ lastNode h fuel p = some q := by
  intro A
  induction A with
  | nil => intro l p fuel hl _
           cases l with
           | nil => cases hl
           | cons => exact hl.elim
  | cons a A ih =>
    intro l p fuel hl hf
    cases l with
    | nil => exact hl.elim
    | cons d l =>
      obtain ⟨e, n, h1, h2, h3⟩ := hl
      injection e with e
      subst e
      cases fuel with
      | zero => simp at hf
      | succ fuel =>
        unfold lastNode
        rw [h1]
        simp only
        cases A with
        | nil =>
          cases l with
          | nil =>
            have : n.next = none := h3
            exact ⟨[], p, rfl, by rw [this]⟩
          | cons => exact h3.elim
        | cons b A =>
          cases l with
          | nil => exact h3.elim
          | cons d' l =>
            have hb := h3.1
            rw [hb] at h3 ⊢
            obtain ⟨A0, q, e1, e2⟩ := ih (d' :: l) b fuel h3 (by simpa using hf)
            exact ⟨p :: A0, q, by rw [e1]; rfl, e2⟩

theorem listAt_snoc {h : Heap D} {x q : Nat} {d : D} (hx : h.at x = some ⟨x, d, none⟩) : ∀ (A0 : List Nat) (l : List D)
    (p : Option Nat), (A0 ++ [q]).Nodup → x ∉ A0 ++ [q] → ListAt h p (A0 ++ [q]) l →
    ListAt (setNext h q (some x)) p (A0 ++ [q] ++ [x]) (l ++ [d]) := by
  intro A0
  induction A0 with
  | nil =>
    intro l p _ hxn hl
    cases l with
    | nil => exact hl.elim
    | cons d' l =>
      obtain ⟨e, n, h1, h2, h3⟩ := hl
      cases l with
      | cons => exact h3.elim
      | nil =>
        have hqx : x ≠ q := by simpa using hxn
        refine ⟨e, { n with next := some x }, ?_, h2, rfl, ⟨x, d, none⟩, ?_, rfl, rfl⟩
        · rw [at_setNext, h1]; simp
        · rw [at_setNext, hx]; simp [hqx]
  | cons a A0 ih =>
    intro l p hn hxn hl
    cases l with
    | nil => exact hl.elim
    | cons d' l =>
      obtain ⟨e, n, h1, h2, h3⟩ := hl
      obtain ⟨hna, hn'⟩ := List.nodup_cons.1 hn
      have haq : a ≠ q := by
        intro e'; exact hna (by rw [e']; simp)
      refine ⟨e, n, ?_, h2, ih l n.next hn' (fun hm => hxn (List.mem_cons_of_mem _ hm)) h3⟩
      rw [at_setNext, h1]; simp [haq]

/-- The variables hold the sequences `v`, in separate nodes. -/
structure Holds (s : State D) (v : Nat → List D) (A : Nat → List Nat) : Prop where
  addrs : (s.heap.map Node.addr).Nodup
  lists : ∀ i, ListAt s.heap (s.var i) (A i) (v i)
  nodup : ∀ i, (A i).Nodup
  apart : ∀ i j, i ≠ j → ∀ a ∈ A i, a ∉ A j

/-- `malloc` delivers an address that is not in use. -/
def Fresh (alloc : Heap D → Nat) : Prop := ∀ h, alloc h ∉ h.map Node.addr

variable {alloc : Heap D → Nat}

theorem fresh_frame (hal : Fresh alloc) {h : Heap D} {d : D} {s : Option Nat} {A : List Nat} {l : List D} {p : Option Nat}
    (hl : ListAt h p A l) : ListAt (⟨alloc h, d, s⟩ :: h) p A l := by
  apply listAt_frame A l p _ hl
  intro a ha
  apply at_cons_ne
  intro e
  have e : a = alloc h := e
  exact hal h (by rw [← e]; exact listAt_live A l p hl a ha)

theorem holds_init {s : State D} {v : Nat → List D} {A : Nat → List Nat} (h : Holds s v A) (i : Nat) :
    Holds (set s i s.heap none) (fun j => if j = i then [] else v j) (fun j => if j = i then [] else A j) := by
  refine ⟨h.addrs, ?_, ?_, ?_⟩
  · intro j
    show ListAt s.heap (if j = i then none else s.var j) _ _
    by_cases e : j = i
    · simp [e, ListAt]
    · simp only [e, if_false]; exact h.lists j
  · intro j
    by_cases e : j = i
    · simp [e]
    · simp only [e, if_false]; exact h.nodup j
  · intro j k hjk a ha hb
    by_cases e : j = i
    · simp [e] at ha
    · by_cases e2 : k = i
      · simp [e2] at hb
      · simp only [e, e2, if_false] at ha hb
        exact h.apart j k hjk a ha hb

theorem holds_front (hal : Fresh alloc) {s : State D} {v : Nat → List D} {A : Nat → List Nat} (h : Holds s v A) (i : Nat)
    (d : D) : Holds (set s i (putFront alloc s.heap (s.var i) d).1 (putFront alloc s.heap (s.var i) d).2)
      (fun j => if j = i then d :: v i else v j) (fun j => if j = i then alloc s.heap :: A i else A j) := by
  have hx : ∀ j, alloc s.heap ∉ A j := fun j hm => hal s.heap (listAt_live _ _ _ (h.lists j) _ hm)
  refine ⟨?_, ?_, ?_, ?_⟩
  · show (List.map Node.addr (⟨alloc s.heap, d, s.var i⟩ :: s.heap)).Nodup
    exact List.nodup_cons.2 ⟨hal _, h.addrs⟩
  · intro j
    show ListAt (⟨alloc s.heap, d, s.var i⟩ :: s.heap) (if j = i then some (alloc s.heap) else s.var j) _ _
    by_cases e : j = i
    · subst e
      simp only [if_true]
      exact ⟨rfl, ⟨alloc s.heap, d, s.var j⟩, at_cons_self (n := ⟨alloc s.heap, d, s.var j⟩), rfl, fresh_frame hal (h.lists j)⟩
    · simp only [e, if_false]
      exact fresh_frame hal (h.lists j)
  · intro j
    by_cases e : j = i
    · simp only [e, if_true]
      exact List.nodup_cons.2 ⟨hx i, h.nodup i⟩
    · simp only [e, if_false]; exact h.nodup j
  · intro j k hjk a ha hb
    by_cases e : j = i
    · have e2 : k ≠ i := fun e2 => hjk (e.trans e2.symm)
      simp only [e, e2, if_true, if_false] at ha hb
      rcases List.mem_cons.1 ha with e3 | ha
      · rw [e3] at hb; exact hx k hb
      · exact h.apart i k (fun e4 => e2 e4.symm) a ha hb
    · by_cases e2 : k = i
      · simp only [e, e2, if_true, if_false] at ha hb
        rcases List.mem_cons.1 hb with e3 | hb
        · rw [e3] at ha; exact hx j ha
        · exact h.apart j i e a ha hb
      · simp only [e, e2, if_false] at ha hb
        exact h.apart j k hjk a ha hb

theorem holds_tail (hal : Fresh alloc) {s : State D} {v : Nat → List D} {A : Nat → List Nat} (h : Holds s v A) (i : Nat)
    (d : D) : ∃ h' p', putTail alloc s.heap (s.var i) d = some (h', p') ∧
      Holds (set s i h' p') (fun j => if j = i then v i ++ [d] else v j)
        (fun j => if j = i then A i ++ [alloc s.heap] else A j) := by
  have hx : ∀ j, alloc s.heap ∉ A j := fun j hm => hal s.heap (listAt_live _ _ _ (h.lists j) _ hm)
  cases hp : s.var i with
  | none =>
    have hl := h.lists i
    rw [hp] at hl
    have hA : A i = [] ∧ v i = [] := by
      cases hA : A i with
      | nil =>
        cases hv : v i with
        | nil => exact ⟨rfl, rfl⟩
        | cons => rw [hA, hv] at hl; exact hl.elim
      | cons a A' =>
        cases hv : v i with
        | nil => rw [hA, hv] at hl; exact hl.elim
        | cons => rw [hA, hv] at hl; cases hl.1
    refine ⟨_, _, rfl, ?_⟩
    have := holds_front hal h i d
    rw [hp, hA.1, hA.2] at this
    rw [hA.1, hA.2]
    exact this
  | some p =>
    have hl := h.lists i
    rw [hp] at hl
    have hl1 : ListAt (⟨alloc s.heap, d, none⟩ :: s.heap) (some p) (A i) (v i) := fresh_frame hal hl
    obtain ⟨A0, q, e1, e2⟩ := lastNode_ok (A i) (v i) p (s.heap.length + 1) hl1 (by
      have := listAt_len hl (h.nodup i); omega)
    refine ⟨setNext (⟨alloc s.heap, d, none⟩ :: s.heap) q (some (alloc s.heap)), some p, ?_, ?_⟩
    · show (match lastNode _ (s.heap.length + 1) p with
        | none => none
        | some q => some (setNext (⟨alloc s.heap, d, none⟩ :: s.heap) q (some (alloc s.heap)), some p)) = _
      rw [e2]
    · have hq : q ∈ A i := by rw [e1]; simp
      refine ⟨?_, ?_, ?_, ?_⟩
      · show ((setNext _ _ _).map Node.addr).Nodup
        rw [map_setNext]
        exact List.nodup_cons.2 ⟨hal _, h.addrs⟩
      · intro j
        show ListAt (setNext _ q _) (if j = i then some p else s.var j) _ _
        by_cases e : j = i
        · simp only [e, if_true]
          rw [e1]
          rw [e1] at hl1
          exact listAt_snoc at_cons_self A0 (v i) (some p) (by rw [← e1]; exact h.nodup i) (by rw [← e1]; exact hx i) hl1
        · simp only [e, if_false]
          have hj : ListAt (⟨alloc s.heap, d, none⟩ :: s.heap) (s.var j) (A j) (v j) := fresh_frame hal (h.lists j)
          apply listAt_frame (A j) (v j) _ _ hj
          intro a ha
          rw [at_setNext]
          have : a ≠ q := by
            intro e3; rw [e3] at ha
            exact h.apart j i e q ha hq
          simp [this]
      · intro j
        by_cases e : j = i
        · simp only [e, if_true]
          rw [List.nodup_append]
          refine ⟨h.nodup i, by simp, ?_⟩
          intro a ha b hb hab
          have hb : b = alloc s.heap := by simpa using hb
          rw [hab, hb] at ha
          exact hx i ha
        · simp only [e, if_false]; exact h.nodup j
      · intro j k hjk a ha hb
        by_cases e : j = i
        · have e2 : k ≠ i := fun e2 => hjk (e.trans e2.symm)
          simp only [e, e2, if_true, if_false] at ha hb
          rcases List.mem_append.1 ha with ha | e3
          · exact h.apart i k (fun e4 => e2 e4.symm) a ha hb
          · have e3 : a = alloc s.heap := by simpa using e3
            rw [e3] at hb; exact hx k hb
        · by_cases e2 : k = i
          · simp only [e, e2, if_true, if_false] at ha hb
            rcases List.mem_append.1 hb with hb | e3
            · exact h.apart j i e a ha hb
            · have e3 : a = alloc s.heap := by simpa using e3
              rw [e3] at ha; exact hx j ha
          · simp only [e, e2, if_false] at ha hb
            exact h.apart j k hjk a ha hb

theorem holds_first {s : State D} {v : Nat → List D} {A : Nat → List Nat} (h : Holds s v A) (i : Nat) :
    ∃ h' p', getFirst s.heap (s.var i) = some (h', p', (v i).head?) ∧
      Holds (set s i h' p') (fun j => if j = i then (v i).tail else v j) (fun j => if j = i then (A i).tail else A j) := by
  have hl := h.lists i
  cases hA : A i with
  | nil =>
    cases hv : v i with
    | cons => rw [hA, hv] at hl; exact hl.elim
    | nil =>
      rw [hA, hv] at hl
      have hp : s.var i = none := hl
      refine ⟨s.heap, none, by rw [hp]; rfl, ?_⟩
      exact holds_init h i
  | cons a A' =>
    cases hv : v i with
    | nil => rw [hA, hv] at hl; exact hl.elim
    | cons d l =>
      rw [hA, hv] at hl
      obtain ⟨e, n, h1, h2, h3⟩ := hl
      have hnd := h.nodup i
      rw [hA] at hnd
      obtain ⟨hna, hnd'⟩ := List.nodup_cons.1 hnd
      have haA : a ∈ A i := by rw [hA]; simp
      refine ⟨s.heap.filter (fun m => m.addr ≠ a), n.next, ?_, ?_⟩
      · rw [e]
        unfold getFirst
        simp only
        rw [h1, ← h2]
        rfl
      · refine ⟨?_, ?_, ?_, ?_⟩
        · exact List.Nodup.sublist (List.Sublist.map _ List.filter_sublist) h.addrs
        · intro j
          show ListAt (s.heap.filter _) (if j = i then n.next else s.var j) _ _
          by_cases ej : j = i
          · simp only [ej, if_true, List.tail_cons]
            apply listAt_frame A' l _ _ h3
            intro b hb
            apply at_filter_ne
            intro e2; rw [e2] at hb; exact hna hb
          · simp only [ej, if_false]
            apply listAt_frame (A j) (v j) _ _ (h.lists j)
            intro b hb
            apply at_filter_ne
            intro e2; rw [e2] at hb; exact h.apart j i ej a hb haA
        · intro j
          by_cases ej : j = i
          · simp only [ej, if_true, List.tail_cons]; exact hnd'
          · simp only [ej, if_false]; exact h.nodup j
        · intro j k hjk b hb hc
          by_cases ej : j = i
          · have e2 : k ≠ i := fun e2 => hjk (ej.trans e2.symm)
            simp only [ej, e2, if_true, if_false, List.tail_cons] at hb hc
            exact h.apart i k (fun e4 => e2 e4.symm) b (by rw [hA]; simp [hb]) hc
          · by_cases e2 : k = i
            · simp only [ej, e2, if_true, if_false, List.tail_cons] at hb hc
              exact h.apart j i ej b hb (by rw [hA]; simp [hc])
            · simp only [ej, e2, if_false] at hb hc
              exact h.apart j k hjk b hb hc

/-- Copying puts the elements in front of the list that is there. -/
theorem recur_ok (hal : Fresh alloc) {s : State D} {A : Nat → List Nat} {v : Nat → List D} (t : Nat) (h : Holds s v A)
    (ht : v t = []) : ∀ (B : List Nat) (l : List D) (p : Option Nat) (fuel : Nat), ListAt s.heap p B l → B.length < fuel →
    ∃ h' p' At, recur alloc fuel s.heap (s.var t) p = some (h', p') ∧
      Holds (set s t h' p') (fun j => if j = t then l else v j) (fun j => if j = t then At else A j) ∧
      ∀ a ∈ s.heap.map Node.addr, h'.at a = s.heap.at a := by
  intro B
  induction B with
  | nil =>
    intro l p fuel hl hf
    cases l with
    | cons => exact hl.elim
    | nil =>
      have hp : p = none := hl
      subst hp
      cases fuel with
      | zero => omega
      | succ fuel =>
        refine ⟨s.heap, s.var t, A t, rfl, ?_, fun _ _ => rfl⟩
        have e1 : set s t s.heap (s.var t) = s := by
          unfold set
          cases s with
          | mk hp vr => congr; funext j; by_cases e : j = t <;> simp [e]
        have e2 : (fun j => if j = t then ([] : List D) else v j) = v := by
          funext j; by_cases e : j = t <;> simp [e, ht]
        have e3 : (fun j => if j = t then A t else A j) = A := by
          funext j; by_cases e : j = t <;> simp [e]
        rw [e1, e2, e3]
        exact h
  | cons b B ih =>
    intro l p fuel hl hf
    cases l with
    | nil => exact hl.elim
    | cons d l =>
      obtain ⟨e, n, h1, h2, h3⟩ := hl
      subst e
      cases fuel with
      | zero => omega
      | succ fuel =>
        obtain ⟨h', p', At, k1, k2, k3⟩ := ih l n.next fuel h3 (by simp at hf; omega)
        have hf2 := holds_front hal k2 t n.data
        have hv : (set s t h' p').var t = p' := by simp [set]
        rw [hv] at hf2
        have hh : (set s t h' p').heap = h' := rfl
        rw [hh] at hf2
        refine ⟨(putFront alloc h' p' n.data).1, (putFront alloc h' p' n.data).2, alloc h' :: At, ?_, ?_, ?_⟩
        · unfold recur
          simp only
          rw [h1]
          simp only
          rw [k1]
        · have e1 : set (set s t h' p') t (putFront alloc h' p' n.data).1 (putFront alloc h' p' n.data).2 =
              set s t (putFront alloc h' p' n.data).1 (putFront alloc h' p' n.data).2 := by
            unfold set
            congr
            funext j
            by_cases e : j = t <;> simp [e]
          rw [e1] at hf2
          have e2 : (fun j => if j = t then n.data :: (fun j => if j = t then l else v j) t
              else (fun j => if j = t then l else v j) j) = fun j => if j = t then d :: l else v j := by
            funext j; by_cases e : j = t <;> simp [e, h2]
          have e3 : (fun j => if j = t then alloc h' :: (fun j => if j = t then At else A j) t
              else (fun j => if j = t then At else A j) j) = fun j => if j = t then alloc h' :: At else A j := by
            funext j; by_cases e : j = t <;> simp [e]
          rw [e2, e3] at hf2
          exact hf2
        · intro a ha
          have hne : a ≠ alloc h' := by
            intro e
            have hlive : (s.heap.at a).isSome := by
              obtain ⟨m, hm, e2⟩ := List.mem_map.1 ha
              unfold Heap.at
              rw [List.find?_isSome]
              exact ⟨m, hm, by simpa using e2⟩
            rw [← k3 a ha] at hlive
            obtain ⟨m, hm⟩ := Option.isSome_iff_exists.1 hlive
            exact hal h' (by rw [← e]; exact at_mem hm)
          show Heap.at (⟨alloc h', n.data, p'⟩ :: h') a = _
          rw [at_cons_ne hne, k3 a ha]

end Verif.LList
