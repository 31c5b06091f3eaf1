import Verif.LList.Lemmas
/-!
# Linked lists: property C43
-/
set_option autoImplicit false
namespace Verif.LList
variable {D : Type} {alloc : Heap D → Nat}

theorem step_ok (hal : Fresh alloc) {s : State D} {v : Nat → List D} {A : Nat → List Nat} (h : Holds s v A) (op : Op D)
    (hop : NoSelf [op]) : ∃ s' A', step alloc s op = some (s', (effect v op).2) ∧ Holds s' (effect v op).1 A' := by
  cases op with
  | init i => exact ⟨_, _, rfl, holds_init h i⟩
  | front i d => exact ⟨_, _, rfl, holds_front hal h i d⟩
  | tail i d =>
    obtain ⟨h', p', e, k⟩ := holds_tail hal h i d
    exact ⟨_, _, by show Option.map _ _ = _; rw [e]; rfl, k⟩
  | first i =>
    obtain ⟨h', p', e, k⟩ := holds_first h i
    exact ⟨_, _, by show Option.map _ _ = _; rw [e]; rfl, k⟩
  | copy t f =>
    have htf : t ≠ f := hop.1
    have h1 := holds_init h t
    have hl : ListAt s.heap ((set s t s.heap none).var f) (A f) (v f) := by
      have := h1.lists f
      simp only [htf.symm, if_false] at this
      exact this
    obtain ⟨h', p', At, k1, k2, _⟩ := recur_ok hal t h1 (by simp) (A f) (v f) _ (s.heap.length + 1) hl (by
      have := listAt_len (h.lists f) (h.nodup f); omega)
    refine ⟨set (set s t s.heap none) t h' p', fun j => if j = t then At else if j = t then [] else A j, ?_, ?_⟩
    · show Option.map _ (copy alloc s t f) = _
      unfold copy
      simp only
      have k1' : recur alloc ((set s t s.heap none).heap.length + 1) (set s t s.heap none).heap ((set s t s.heap none).var t)
          ((set s t s.heap none).var f) = some (h', p') := k1
      rw [k1']
      rfl
    · have e : (effect v (.copy t f)).1 = fun j => if j = t then v f else if j = t then [] else v j := by
        funext j
        show (if j = t then v f else v j) = _
        by_cases e : j = t <;> simp [e]
      rw [e]
      exact k2

/-- C43: any sequence of calls on any number of lists, starting with no lists, acts on them as on finite sequences: no
undefined behaviour, the same results, and afterwards every list holds what the sequence operations say.  A list is not
copied onto itself. -/
theorem lists_are_sequences (hal : Fresh alloc) (ops : List (Op D)) (hops : NoSelf ops) :
    ∃ s, run alloc ⟨[], fun _ => none⟩ ops = some (s, (effects (fun _ => []) ops).2) ∧
      ∀ i, walk s.heap s.heap.length (s.var i) = some ((effects (fun _ => []) ops).1 i) := by
  have key : ∀ (ops : List (Op D)) (s : State D) (v : Nat → List D) (A : Nat → List Nat), NoSelf ops → Holds s v A →
      ∃ s' A', run alloc s ops = some (s', (effects v ops).2) ∧ Holds s' (effects v ops).1 A' := by
    intro ops
    induction ops with
    | nil => intro s v A _ h; exact ⟨s, A, rfl, h⟩
    | cons op ops ih =>
      intro s v A hn h
      have h1 : NoSelf [op] ∧ NoSelf ops := by
        cases op with
        | copy t f => exact ⟨⟨hn.1, trivial⟩, hn.2⟩
        | _ => exact ⟨trivial, hn⟩
      obtain ⟨s1, A1, e1, k1⟩ := step_ok hal h op h1.1
      obtain ⟨s2, A2, e2, k2⟩ := ih s1 _ A1 h1.2 k1
      refine ⟨s2, A2, ?_, k2⟩
      unfold run
      rw [e1]
      simp only
      rw [e2]
      rfl
  obtain ⟨s, A, e, h⟩ := key ops ⟨[], fun _ => none⟩ (fun _ => []) (fun _ => []) hops
    ⟨by simp, fun _ => rfl, fun _ => by simp, by simp⟩
  exact ⟨s, e, fun i => listAt_walk (A i) _ _ _ (h.lists i) (listAt_len (h.lists i) (h.nodup i))⟩

/-- Refutation: copying a list onto itself leaves an empty list. -/
theorem self_copy_empties (s : State D) (t : Nat) : ∃ s', copy alloc s t t = some s' ∧ s'.var t = none := by
  refine ⟨set (set s t s.heap none) t s.heap none, ?_, by simp [set]⟩
  unfold copy
  simp [set, recur]

/-- A simple allocator. -/
def nextAddr (h : Heap Nat) : Nat := (h.map Node.addr).foldr max 0 + 1

theorem nextAddr_fresh : Fresh nextAddr := by
  intro h hm
  have key : ∀ l : List Nat, ∀ a ∈ l, a ≤ l.foldr max 0 := by
    intro l
    induction l with
    | nil => intro a ha; cases ha
    | cons b l ih =>
      intro a ha
      rw [List.foldr_cons]
      rcases List.mem_cons.1 ha with e | ha
      · rw [e]; exact Nat.le_max_left _ _
      · exact Nat.le_trans (ih a ha) (Nat.le_max_right _ _)
  have := key _ _ hm
  unfold nextAddr at this
  omega

example : NoSelf ([.tail 0 5, .front 0 4, .copy 1 0, .first 0, .tail 1 6] : List (Op Nat)) := by simp [NoSelf]
example : (run nextAddr ⟨[], fun _ => none⟩ [.tail 0 5, .front 0 4, .copy 1 0, .first 0, .tail 1 6]).map
    (fun r => (r.2, walk r.1.heap 10 (r.1.var 0), walk r.1.heap 10 (r.1.var 1))) =
    some ([none, none, none, some 4, none], some [5], some [4, 5, 6]) := by decide

end Verif.LList
