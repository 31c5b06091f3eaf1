import Verif.Uem.Spec
/-!
# Lemmas on the removal of segments
-/
set_option autoImplicit false
namespace Verif.Uem
open Segmentor

theorem upd_same (f : Nat → List Nat) (a : Nat) (v : List Nat) : upd f a v a = v := by simp [upd]

theorem upd_other (f : Nat → List Nat) (a x : Nat) (v : List Nat) (h : x ≠ a) : upd f a v x = f x := by simp [upd, h]

theorem unlink_spec : ∀ (L : List (Nat × Nat)) (f : Nat → List Nat), (∀ a b, L.count (a, b) ≤ (f a).count b) →
    ∃ f', unlink L f = some f' ∧ ∀ a b, (f' a).count b = (f a).count b - L.count (a, b) := by
  intro L
  induction L with
  | nil => intro f _; exact ⟨f, rfl, by simp⟩
  | cons q L ih =>
    obtain ⟨a, b⟩ := q
    intro f h
    have hab := h a b
    rw [List.count_cons_self] at hab
    have hm : b ∈ f a := List.count_pos_iff.1 (by omega)
    have hu : ∀ x y, (upd f a ((f a).erase b) x).count y = (f x).count y - if (a, b) = (x, y) then 1 else 0 := by
      intro x y
      by_cases hx : x = a
      · subst hx
        rw [upd_same, List.count_erase]
        by_cases hy : y = b
        · subst hy; simp
        · have : ¬ (x, b) = (x, y) := by intro e; exact hy (Prod.mk.inj e).2.symm
          rw [if_neg this]
          have : (b == y) = false := by simp; exact fun e => hy e.symm
          simp [this]
      · rw [upd_other _ _ _ _ hx]
        have : ¬ (a, b) = (x, y) := by intro e; exact hx (Prod.mk.inj e).1.symm
        rw [if_neg this]; rfl
    have hc : ∀ x y, List.count (x, y) ((a, b) :: L) = L.count (x, y) + if (a, b) = (x, y) then 1 else 0 := by
      intro x y
      rw [List.count_cons]
      by_cases e : (a, b) = (x, y)
      · simp [e]
      · have : ((a, b) == (x, y)) = false := by rw [beq_eq_false_iff_ne]; exact e
        rw [this, if_neg e]; simp
    obtain ⟨f', r1, r2⟩ := ih (upd f a ((f a).erase b)) (by
      intro x y
      have := h x y
      rw [hc] at this
      rw [hu]; omega)
    refine ⟨f', by unfold unlink; rw [if_pos hm]; exact r1, ?_⟩
    intro x y
    rw [r2, hu, hc]; omega

theorem attach_spec (p : Nat) : ∀ (ns : List Nat) (prec next : Nat → List Nat),
    (∀ a b, ((attach p ns (prec, next)).1 a).count b = (prec a).count b + if b = p then ns.count a else 0) ∧
    (∀ a b, ((attach p ns (prec, next)).2 a).count b = (next a).count b + if a = p then ns.count b else 0) := by
  intro ns
  induction ns with
  | nil => intro prec next; simp [attach]
  | cons n ns ih =>
    intro prec next
    unfold attach
    obtain ⟨h1, h2⟩ := ih (upd prec n (prec n ++ [p])) (upd next p (next p ++ [n]))
    constructor
    · intro a b
      rw [h1]
      by_cases ha : a = n
      · subst ha
        rw [upd_same, List.count_append]
        by_cases hb : b = p
        · subst hb; simp; omega
        · have : (p == b) = false := by simp; exact fun e => hb e.symm
          simp [hb, List.count_cons, this]
      · rw [upd_other _ _ _ _ ha]
        have : (n == a) = false := by simp; exact fun e => ha e.symm
        simp [List.count_cons, this]
    · intro a b
      rw [h2]
      by_cases ha : a = p
      · subst ha
        rw [upd_same, List.count_append]
        simp only [if_pos, List.count_cons, List.count_nil]
        omega
      · rw [upd_other _ _ _ _ ha]; simp [ha]

/-- The links of the tokens fit each other.  `owner` is the segment of a token and `pos` orders the segments. -/
structure Fits (owner : Nat → Seg) (pos : Seg → Nat) (w : World) : Prop where
  nodup : w.segs.Nodup
  sym : ∀ s t, owner s ∈ w.segs → owner t ∈ w.segs → (w.next s).count t = (w.prec t).count s
  nextIn : ∀ s t, owner s ∈ w.segs → t ∈ w.next s → owner t ∈ w.segs
  precIn : ∀ s t, owner t ∈ w.segs → s ∈ w.prec t → owner s ∈ w.segs
  cross : ∀ s t, owner s ∈ w.segs → t ∈ w.next s → owner s ≠ owner t →
    s ∈ w.lasts (owner s) ∧ t ∈ w.firsts (owner t) ∧ pos (owner s) < pos (owner t)
  firsts : ∀ g ∈ w.segs, (w.firsts g).Nodup ∧ ∀ f ∈ w.firsts g, owner f = g ∧ ∀ p ∈ w.prec f, owner p ≠ g
  lasts : ∀ g ∈ w.segs, (w.lasts g).Nodup ∧ ∀ l ∈ w.lasts g, owner l = g ∧ ∀ n ∈ w.next l, owner n ≠ g

theorem count_pairs (v : Nat → List Nat) (x y : Nat) : ∀ (l : List Nat), l.Nodup →
    (l.flatMap fun f => (v f).map fun p => (p, f)).count (x, y) = if y ∈ l then (v y).count x else 0 := by
  have hmap : ∀ (f : Nat) (u : List Nat), (u.map fun p => (p, f)).count (x, y) = if f = y then u.count x else 0 := by
    intro f u
    induction u with
    | nil => simp
    | cons a u ih =>
      rw [List.map_cons, List.count_cons, ih, List.count_cons]
      by_cases hf : f = y
      · subst hf; simp
      · have : ((a, f) == (x, y)) = false := by
          rw [beq_eq_false_iff_ne]; intro e; exact hf (Prod.mk.inj e).2
        simp [this, hf]
  intro l
  induction l with
  | nil => intro _; simp
  | cons f l ih =>
    intro hn
    rw [List.nodup_cons] at hn
    rw [List.flatMap_cons, List.count_append, ih hn.2, hmap]
    by_cases hf : f = y
    · subst hf; simp [hn.1]
    · have : ¬ y = f := fun e => hf e.symm
      simp [hf, this]

theorem removeSegment_fits (owner : Nat → Seg) (pos : Seg → Nat) (w : World) (h : Fits owner pos w) (g : Seg)
    (hg : g ∈ w.segs) : ∃ w', removeSegment w g = some w' ∧ w'.segs = w.segs.erase g ∧ Fits owner pos w' := by
  -- counts of the links cut
  have cb : ∀ x y, (before w g).count (x, y) = if y ∈ w.firsts g then (w.prec y).count x else 0 :=
    fun x y => count_pairs w.prec x y _ (h.firsts g hg).1
  have ca : ∀ x y, (after w g).count (x, y) = if y ∈ w.lasts g then (w.next y).count x else 0 :=
    fun x y => count_pairs w.next x y _ (h.lasts g hg).1
  have of : ∀ f ∈ w.firsts g, owner f = g := fun f hf => ((h.firsts g hg).2 f hf).1
  have ol : ∀ l ∈ w.lasts g, owner l = g := fun l hl => ((h.lasts g hg).2 l hl).1
  have hb : ∀ x y, (before w g).count (x, y) ≤ (w.next x).count y := by
    intro x y
    rw [cb]
    split
    · rename_i hy
      by_cases hx : x ∈ w.prec y
      · have hoy : owner y ∈ w.segs := by rw [of y hy]; exact hg
        rw [h.sym x y (h.precIn x y hoy hx) hoy]; exact Nat.le_refl _
      · rw [List.count_eq_zero_of_not_mem hx]; exact Nat.zero_le _
    · exact Nat.zero_le _
  have ha : ∀ x y, (after w g).count (x, y) ≤ (w.prec x).count y := by
    intro x y
    rw [ca]
    split
    · rename_i hy
      by_cases hx : x ∈ w.next y
      · have hoy : owner y ∈ w.segs := by rw [ol y hy]; exact hg
        rw [h.sym y x hoy (h.nextIn y x hoy hx)]; exact Nat.le_refl _
      · rw [List.count_eq_zero_of_not_mem hx]; exact Nat.zero_le _
    · exact Nat.zero_le _
  obtain ⟨nx, n1, n2⟩ := unlink_spec _ _ hb
  obtain ⟨pr, p1, p2⟩ := unlink_spec _ _ ha
  -- the tokens before and after
  have mb : ∀ p ∈ (before w g).map Prod.fst, ∃ f ∈ w.firsts g, p ∈ w.prec f := by
    intro p hp
    obtain ⟨⟨p', f⟩, hm, e⟩ := List.mem_map.1 hp
    simp only at e
    subst e
    have := List.count_pos_iff.2 hm
    rw [cb] at this
    split at this
    · rename_i hf; exact ⟨f, hf, List.count_pos_iff.1 this⟩
    · omega
  have ma : ∀ n ∈ (after w g).map Prod.fst, ∃ l ∈ w.lasts g, n ∈ w.next l := by
    intro n hn
    obtain ⟨⟨n', l⟩, hm, e⟩ := List.mem_map.1 hn
    simp only at e
    subst e
    have := List.count_pos_iff.2 hm
    rw [ca] at this
    split at this
    · rename_i hf; exact ⟨l, hf, List.count_pos_iff.1 this⟩
    · omega
  have mb' : ∀ p ∈ (before w g).map Prod.fst, owner p ∈ w.segs ∧ owner p ≠ g ∧ p ∈ w.lasts (owner p) ∧
      pos (owner p) < pos g := by
    intro p hp
    obtain ⟨f, hf, hpf⟩ := mb p hp
    have hof := of f hf
    have hog : owner f ∈ w.segs := by rw [hof]; exact hg
    have hop := h.precIn p f hog hpf
    have hne := ((h.firsts g hg).2 f hf).2 p hpf
    have hnx : f ∈ w.next p := List.count_pos_iff.1 (by
      rw [h.sym p f hop hog]; exact List.count_pos_iff.2 hpf)
    obtain ⟨c1, c2, c3⟩ := h.cross p f hop hnx (by rw [hof]; exact hne)
    rw [hof] at c3
    exact ⟨hop, hne, c1, c3⟩
  have ma' : ∀ n ∈ (after w g).map Prod.fst, owner n ∈ w.segs ∧ owner n ≠ g ∧ n ∈ w.firsts (owner n) ∧
      pos g < pos (owner n) := by
    intro n hn
    obtain ⟨l, hl, hnl⟩ := ma n hn
    have hol := ol l hl
    have hog : owner l ∈ w.segs := by rw [hol]; exact hg
    have hne := ((h.lasts g hg).2 l hl).2 n hnl
    obtain ⟨c1, c2, c3⟩ := h.cross l n hog hnl (by rw [hol]; exact fun e => hne e.symm)
    rw [hol] at c3
    exact ⟨h.nextIn l n hog hnl, hne, c2, c3⟩
  -- the result
  let bs := (before w g).map Prod.fst
  let as := (after w g).map Prod.fst
  have hre : ∃ P N, reattach bs as (pr, nx) = (P, N) ∧ ∃ extra : Nat → Nat → Nat,
      (∀ a b, (N a).count b = (nx a).count b + extra a b) ∧ (∀ a b, (P b).count a = (pr b).count a + extra a b) ∧
      ∀ a b, 0 < extra a b → a ∈ bs ∧ b ∈ as := by
    cases hbs : bs with
    | nil => exact ⟨pr, nx, rfl, fun _ _ => 0, by simp, by simp, by simp⟩
    | cons p ps =>
      obtain ⟨r1, r2⟩ := attach_spec p as pr nx
      refine ⟨_, _, rfl, fun a b => if a = p then as.count b else 0, r2, fun a b => r1 b a, ?_⟩
      intro a b hpos
      simp only at hpos
      split at hpos
      · rename_i e; subst e; exact ⟨by simp, List.count_pos_iff.1 hpos⟩
      · omega
  obtain ⟨P, N, hPN, extra, eN, eP, eX⟩ := hre
  refine ⟨{ w with segs := w.segs.erase g, prec := P, next := N }, ?_, rfl, ?_⟩
  · unfold removeSegment
    rw [n1, p1]
    simp only
    rw [if_pos hg]
    have : reattach ((before w g).map Prod.fst) ((after w g).map Prod.fst) (pr, nx) = (P, N) := hPN
    rw [this]
  have live : ∀ q : Seg, q ∈ w.segs.erase g ↔ q ∈ w.segs ∧ q ≠ g := by
    intro q; rw [h.nodup.mem_erase_iff]; exact and_comm
  have hnotF : ∀ y, owner y ≠ g → y ∉ w.firsts g := fun y hy hf => hy (of y hf)
  have hnotL : ∀ y, owner y ≠ g → y ∉ w.lasts g := fun y hy hl => hy (ol y hl)
  have hN : ∀ s t, t ∈ N s → (t ∈ w.next s ∧ ¬ (t ∈ w.firsts g ∧ owner s ∈ w.segs)) ∨ (s ∈ bs ∧ t ∈ as) := by
    intro s t ht
    have := List.count_pos_iff.2 ht
    rw [eN, n2] at this
    by_cases hx : 0 < extra s t
    · exact Or.inr (eX s t hx)
    · left
      refine ⟨List.count_pos_iff.1 (by omega), ?_⟩
      rintro ⟨hf, hos⟩
      rw [cb, if_pos hf] at this
      have hot : owner t ∈ w.segs := by rw [of t hf]; exact hg
      have := h.sym s t hos hot
      omega
  have hP : ∀ s t, s ∈ P t → (s ∈ w.prec t ∧ ¬ (s ∈ w.lasts g ∧ owner t ∈ w.segs)) ∨ (s ∈ bs ∧ t ∈ as) := by
    intro s t ht
    have := List.count_pos_iff.2 ht
    rw [eP, p2] at this
    by_cases hx : 0 < extra s t
    · exact Or.inr (eX s t hx)
    · left
      refine ⟨List.count_pos_iff.1 (by omega), ?_⟩
      rintro ⟨hf, hot⟩
      rw [ca, if_pos hf] at this
      have hos : owner s ∈ w.segs := by rw [ol s hf]; exact hg
      have := h.sym s t hos hot
      omega
  refine ⟨h.nodup.erase g, ?_, ?_, ?_, ?_, ?_, ?_⟩
  · intro s t hs ht
    have hs := (live _).1 hs
    have ht := (live _).1 ht
    show (N s).count t = (P t).count s
    rw [eN, eP, n2, p2, cb, ca, if_neg (hnotF t ht.2), if_neg (hnotL s hs.2), h.sym s t hs.1 ht.1]
  · intro s t hs ht
    have hs := (live _).1 hs
    rcases hN s t ht with ⟨h1, h2⟩ | ⟨h1, h2⟩
    · refine (live _).2 ⟨h.nextIn s t hs.1 h1, ?_⟩
      intro e
      have := h.cross s t hs.1 h1 (by rw [e]; exact hs.2)
      rw [e] at this
      exact h2 ⟨this.2.1, hs.1⟩
    · have := ma' t h2; exact (live _).2 ⟨this.1, this.2.1⟩
  · intro s t ht hs
    have ht := (live _).1 ht
    rcases hP s t hs with ⟨h1, h2⟩ | ⟨h1, h2⟩
    · have hos := h.precIn s t ht.1 h1
      refine (live _).2 ⟨hos, ?_⟩
      intro e
      have hnx : t ∈ w.next s := List.count_pos_iff.1 (by
        rw [h.sym s t hos ht.1]; exact List.count_pos_iff.2 h1)
      have := h.cross s t hos hnx (by rw [e]; exact fun e' => ht.2 e'.symm)
      rw [e] at this
      exact h2 ⟨this.1, ht.1⟩
    · have := mb' s h1; exact (live _).2 ⟨this.1, this.2.1⟩
  · intro s t hs ht hne
    have hs := (live _).1 hs
    rcases hN s t ht with ⟨h1, h2⟩ | ⟨h1, h2⟩
    · exact h.cross s t hs.1 h1 hne
    · have q1 := mb' s h1
      have q2 := ma' t h2
      exact ⟨q1.2.2.1, q2.2.2.1, by omega⟩
  · intro q hq
    have hq := (live _).1 hq
    obtain ⟨f1, f2⟩ := h.firsts q hq.1
    refine ⟨f1, ?_⟩
    intro f hf
    obtain ⟨f3, f4⟩ := f2 f hf
    refine ⟨f3, ?_⟩
    intro p hp
    rcases hP p f hp with ⟨h1, h2⟩ | ⟨h1, h2⟩
    · exact f4 p h1
    · have q1 := mb' p h1
      have q2 := ma' f h2
      intro e
      rw [f3, ← e] at q2
      omega
  · intro q hq
    have hq := (live _).1 hq
    obtain ⟨f1, f2⟩ := h.lasts q hq.1
    refine ⟨f1, ?_⟩
    intro f hf
    obtain ⟨f3, f4⟩ := f2 f hf
    refine ⟨f3, ?_⟩
    intro p hp
    rcases hN f p hp with ⟨h1, h2⟩ | ⟨h1, h2⟩
    · exact f4 p h1
    · have q1 := mb' f h1
      have q2 := ma' p h2
      intro e
      rw [e, ← f3] at q2
      omega

/-- Removing some of the segments, one after the other, leaves the others in their order. -/
theorem removeAll_fits (owner : Nat → Seg) (pos : Seg → Nat) : ∀ (rs : List Seg) (w : World), Fits owner pos w →
    rs.Nodup → (∀ g ∈ rs, g ∈ w.segs) → ∃ w', removeAll rs w = some w' ∧
      w'.segs = w.segs.filter (fun g => decide (g ∉ rs)) ∧ Fits owner pos w' := by
  intro rs
  induction rs with
  | nil =>
    intro w h _ _
    refine ⟨w, rfl, ?_, h⟩
    rw [List.filter_eq_self.2]; simp
  | cons g rs ih =>
    intro w h hn hs
    rw [List.nodup_cons] at hn
    obtain ⟨w1, r1, r2, r3⟩ := removeSegment_fits owner pos w h g (hs g (by simp))
    obtain ⟨w2, q1, q2, q3⟩ := ih w1 r3 hn.2 (by
      intro x hx
      rw [r2, h.nodup.mem_erase_iff]
      exact ⟨fun e => hn.1 (e ▸ hx), hs x (by simp [hx])⟩)
    refine ⟨w2, by unfold removeAll; rw [r1]; exact q1, ?_, q3⟩
    rw [q2, r2, h.nodup.erase_eq_filter, List.filter_filter]
    apply List.filter_congr
    intro x _
    by_cases e : x = g <;> simp [e]

end Verif.Uem
