import Verif.Net.Bridge
/-!
# The alignment as a whole
-/
set_option autoImplicit false
namespace Verif.Net
variable {W : Type}

/-- The step a move stands for. -/
def stepOf (A B : View W) : Move → Option (Step W)
  | .ins b => (B.word b).map .ins
  | .del a => (A.word a).map .del
  | .sub a b => (A.word a).bind fun x => (B.word b).map fun y => .sub x y

theorem steps_to_moves (A B : View W) : ∀ (s : List (Step W)) (idsA idsB : List Nat),
    Spells A idsA (lefts s) → Spells B idsB (rights s) →
    ∃ ms, aIds ms = idsA ∧ bIds ms = idsB ∧ ms.map (stepOf A B) = s.map some := by
  intro s
  induction s with
  | nil =>
    intro idsA idsB h1 h2
    have e1 : idsA = [] := by simpa [Spells, lefts] using h1
    have e2 : idsB = [] := by simpa [Spells, rights] using h2
    subst e1; subst e2
    exact ⟨[], rfl, rfl, rfl⟩
  | cons e s ih =>
    intro idsA idsB h1 h2
    cases e with
    | sub x y =>
      have e1 : lefts (Step.sub x y :: s) = x :: lefts s := rfl
      have e2 : rights (Step.sub x y :: s) = y :: rights s := rfl
      rw [e1] at h1; rw [e2] at h2
      unfold Spells at h1 h2
      cases idsA with
      | nil => simp at h1
      | cons a idsA =>
        cases idsB with
        | nil => simp at h2
        | cons b idsB =>
          simp only [List.map_cons, List.cons.injEq] at h1 h2
          obtain ⟨ms, g1, g2, g3⟩ := ih idsA idsB h1.2 h2.2
          refine ⟨.sub a b :: ms, ?_, ?_, ?_⟩
          · show a :: aIds ms = _; rw [g1]
          · show b :: bIds ms = _; rw [g2]
          · rw [List.map_cons, g3, List.map_cons]
            simp [stepOf, h1.1, h2.1]
    | del x =>
      have e1 : lefts (Step.del x :: s) = x :: lefts s := rfl
      have e2 : rights (Step.del x :: s) = rights s := rfl
      rw [e1] at h1; rw [e2] at h2
      unfold Spells at h1
      cases idsA with
      | nil => simp at h1
      | cons a idsA =>
        simp only [List.map_cons, List.cons.injEq] at h1
        obtain ⟨ms, g1, g2, g3⟩ := ih idsA idsB h1.2 h2
        refine ⟨.del a :: ms, ?_, ?_, ?_⟩
        · show a :: aIds ms = _; rw [g1]
        · show bIds ms = _; rw [g2]
        · rw [List.map_cons, g3, List.map_cons]
          simp [stepOf, h1.1]
    | ins y =>
      have e1 : lefts (Step.ins y :: s) = lefts s := rfl
      have e2 : rights (Step.ins y :: s) = y :: rights s := rfl
      rw [e1] at h1; rw [e2] at h2
      unfold Spells at h2
      cases idsB with
      | nil => simp at h2
      | cons b idsB =>
        simp only [List.map_cons, List.cons.injEq] at h2
        obtain ⟨ms, g1, g2, g3⟩ := ih idsA idsB h1 h2.2
        refine ⟨.ins b :: ms, ?_, ?_, ?_⟩
        · show aIds ms = _; rw [g1]
        · show b :: bIds ms = _; rw [g2]
        · rw [List.map_cons, g3, List.map_cons]
          simp [stepOf, h2.1]

theorem moves_to_steps (A B : View W) : ∀ (ms : List Move) (wa wb : List W),
    Spells A (aIds ms) wa → Spells B (bIds ms) wb →
    ∃ s, ms.map (stepOf A B) = s.map some ∧ lefts s = wa ∧ rights s = wb := by
  intro ms
  induction ms with
  | nil =>
    intro wa wb h1 h2
    have e1 : wa = [] := by simpa [Spells, aIds] using h1
    have e2 : wb = [] := by simpa [Spells, bIds] using h2
    subst e1; subst e2
    exact ⟨[], rfl, rfl, rfl⟩
  | cons m ms ih =>
    intro wa wb h1 h2
    cases m with
    | sub a b =>
      have e1 : aIds (Move.sub a b :: ms) = a :: aIds ms := rfl
      have e2 : bIds (Move.sub a b :: ms) = b :: bIds ms := rfl
      rw [e1] at h1; rw [e2] at h2
      unfold Spells at h1 h2
      cases wa with
      | nil => simp at h1
      | cons x wa =>
        cases wb with
        | nil => simp at h2
        | cons y wb =>
          simp only [List.map_cons, List.cons.injEq] at h1 h2
          obtain ⟨s, g1, g2, g3⟩ := ih wa wb h1.2 h2.2
          refine ⟨.sub x y :: s, ?_, ?_, ?_⟩
          · rw [List.map_cons, g1, List.map_cons]
            simp [stepOf, h1.1, h2.1]
          · show x :: lefts s = _; rw [g2]
          · show y :: rights s = _; rw [g3]
    | del a =>
      have e1 : aIds (Move.del a :: ms) = a :: aIds ms := rfl
      have e2 : bIds (Move.del a :: ms) = bIds ms := rfl
      rw [e1] at h1; rw [e2] at h2
      unfold Spells at h1
      cases wa with
      | nil => simp at h1
      | cons x wa =>
        simp only [List.map_cons, List.cons.injEq] at h1
        obtain ⟨s, g1, g2, g3⟩ := ih wa wb h1.2 h2
        refine ⟨.del x :: s, ?_, ?_, ?_⟩
        · rw [List.map_cons, g1, List.map_cons]
          simp [stepOf, h1.1]
        · show x :: lefts s = _; rw [g2]
        · show rights s = _; rw [g3]
    | ins b =>
      have e1 : aIds (Move.ins b :: ms) = aIds ms := rfl
      have e2 : bIds (Move.ins b :: ms) = b :: bIds ms := rfl
      rw [e1] at h1; rw [e2] at h2
      unfold Spells at h2
      cases wb with
      | nil => simp at h2
      | cons y wb =>
        simp only [List.map_cons, List.cons.injEq] at h2
        obtain ⟨s, g1, g2, g3⟩ := ih wa wb h1 h2.2
        refine ⟨.ins y :: s, ?_, ?_, ?_⟩
        · rw [List.map_cons, g1, List.map_cons]
          simp [stepOf, h2.1]
        · show lefts s = _; rw [g2]
        · show y :: rights s = _; rw [g3]

theorem stepOf_words {A B : View W} {m : Move} {e : Step W} (h : stepOf A B m = some e) :
    (∃ a b x y, m = .sub a b ∧ e = .sub x y ∧ A.word a = some x ∧ B.word b = some y) ∨
    (∃ a x, m = .del a ∧ e = .del x ∧ A.word a = some x) ∨
    (∃ b y, m = .ins b ∧ e = .ins y ∧ B.word b = some y) := by
  cases m with
  | sub a b =>
    unfold stepOf at h
    simp only at h
    cases hx : A.word a with
    | none => rw [hx] at h; simp at h
    | some x =>
      cases hy : B.word b with
      | none => rw [hx, hy] at h; simp at h
      | some y =>
        rw [hx, hy] at h
        simp at h
        exact Or.inl ⟨a, b, x, y, rfl, h.symm, hx, hy⟩
  | del a =>
    unfold stepOf at h
    simp only at h
    cases hx : A.word a with
    | none => rw [hx] at h; simp at h
    | some x =>
      rw [hx] at h
      simp at h
      exact Or.inr (Or.inl ⟨a, x, rfl, h.symm, hx⟩)
  | ins b =>
    unfold stepOf at h
    simp only at h
    cases hy : B.word b with
    | none => rw [hy] at h; simp at h
    | some y =>
      rw [hy] at h
      simp at h
      exact Or.inr (Or.inr ⟨b, y, rfl, h.symm, hy⟩)

theorem cost_eq (F : Funcs W) (A B : View W) : ∀ (ms : List Move) (s : List (Step W)),
    ms.map (stepOf A B) = s.map some → movesCost F A B ms = costOf F s := by
  intro ms
  induction ms with
  | nil => intro s h; cases s with | nil => rfl | cons e s => simp at h
  | cons m ms ih =>
    intro s h
    cases s with
    | nil => simp at h
    | cons e s =>
      simp only [List.map_cons, List.cons.injEq] at h
      have := ih s h.2
      unfold movesCost costOf at *
      rw [List.map_cons, List.sum_cons, List.map_cons, List.sum_cons, this]
      congr 1
      rcases stepOf_words h.1 with ⟨a, b, x, y, e1, e2, h1, h2⟩ | ⟨a, x, e1, e2, h1⟩ | ⟨b, y, e1, e2, h1⟩
      · subst e1; subst e2; simp [moveCost, Step.cost, h1, h2]
      · subst e1; subst e2; simp [moveCost, Step.cost, h1]
      · subst e1; subst e2; simp [moveCost, Step.cost, h1]

theorem record_step (F : Funcs W) (incl : Bool) (A B : View W) (m : Move) (e : Step W)
    (h : stepOf A B m = some e) : record F incl A.word B.word m = some (reported F incl e) := by
  rcases stepOf_words h with ⟨a, b, x, y, e1, e2, h1, h2⟩ | ⟨a, x, e1, e2, h1⟩ | ⟨b, y, e1, e2, h1⟩
  · subst e1; subst e2
    unfold record reported
    simp only [h1, h2]
    cases incl <;> cases hn : F.isNull x <;> cases hm : F.isNull y <;> simp
  · subst e1; subst e2
    unfold record reported
    simp only [h1]
    cases incl <;> cases hn : F.isNull x <;> cases hm : F.optDel x <;> simp
  · subst e1; subst e2
    unfold record reported
    simp only [h1]
    cases incl <;> cases hn : F.isNull y <;> cases hm : F.optDel y <;> simp

theorem records (F : Funcs W) (incl : Bool) (A B : View W) : ∀ (ms : List Move) (s : List (Step W)),
    ms.map (stepOf A B) = s.map some →
    ms.mapM (record F incl A.word B.word) = some (s.map (reported F incl)) := by
  intro ms
  induction ms with
  | nil => intro s h; cases s with | nil => rfl | cons e s => simp at h
  | cons m ms ih =>
    intro s h
    cases s with
    | nil => simp at h
    | cons e s =>
      simp only [List.map_cons, List.cons.injEq] at h
      rw [List.mapM_cons, record_step F incl A B m e h.1, ih s h.2]
      rfl

/-- Pairs of ends. -/
theorem mem_endPairs {ea eb : List Nat} {p : Nat × Nat} :
    (p ∈ ea.flatMap fun i => eb.map fun j => (i, j)) ↔ p.1 ∈ ea ∧ p.2 ∈ eb := by
  simp only [List.mem_flatMap, List.mem_map]
  constructor
  · rintro ⟨i, hi, j, hj, e⟩; rw [← e]; exact ⟨hi, hj⟩
  · rintro ⟨h1, h2⟩; exact ⟨p.1, h1, p.2, h2, rfl⟩

theorem ends_found {n : Net W} {rank : Nat → Nat} {l : List Nat} {s : Nat} (hw : n.WF rank) (hn : Numbering n l)
    (hs : n.stop = some s) :
    ((n.inn s).mapM fun p => findId l p l.length) = some (endIds n l) ∧ endIds n l ≠ [] ∧
      ∀ i ∈ endIds n l, i < l.length := by
  have he : endIds n l = (n.inn s).map l.idxOf := by unfold endIds; rw [hs]
  have hm : ∀ p ∈ n.inn s, p ∈ l := fun p hp => (hn.live p).2 (hw.inn_live hp)
  refine ⟨?_, ?_, ?_⟩
  · rw [he]
    apply mapM_some_map
    intro p hp
    have := List.idxOf_lt_length_of_mem (hm p hp)
    exact findId_ok hn.nodup (hm p hp) l.length (by omega) (Nat.le_refl _)
  · rw [he]
    have := (hw.stop_ok s hs).2
    simpa using this
  · intro i hi
    rw [he] at hi
    obtain ⟨p, hp, e⟩ := List.mem_map.1 hi
    rw [← e]
    exact List.idxOf_lt_length_of_mem (hm p hp)

theorem dpalign_spec (F : Funcs W) (na nb : Net W) (ra rb : Nat → Nat) (fa fb : Flags) (t0 : Table) (incl : Bool)
    (m : Int) (hwa : na.WF ra) (hwb : nb.WF rb) (hda : na.Words) (hdb : nb.Words) (hua : fa.Uniform na)
    (hub : fb.Uniform nb) (hsa : na.nArcs < 65534) (hsb : nb.nArcs < 65534) (hm : F.Below m (na.nArcs + nb.nArcs)) :
    ∃ la lb r, dpalign F na nb fa fb t0 incl = some (la, lb, r) ∧ ∃ s, Aligns na nb s ∧ costOf F s = r.cost ∧
      (∀ s', Aligns na nb s' → r.cost ≤ costOf F s') ∧ r.path = s.flatMap (reported F incl) ∧
      r.alloc = r.path.length := by
  have hwa' := head_wf none hwa
  have hwb' := head_wf none hwb
  obtain ⟨sa, ea, hna⟩ := inorder_numbering hwa' (fa.grow na) (grow_uniform fa none hua hwa)
  obtain ⟨sb, eb, hnb⟩ := inorder_numbering hwb' (fb.grow nb) (grow_uniform fb none hub hwb)
  have la1 : sa.arcs.length ≤ na.nArcs + 1 := numbering_len hwa' hna
  have lb1 : sb.arcs.length ≤ nb.nArcs + 1 := numbering_len hwb' hnb
  have hha := head_out_start (n := na) none hwa
  have hhb := head_out_start (n := nb) none hwb
  have okA := view_ok hwa' hna hha
  have okB := view_ok hwb' hnb hhb
  obtain ⟨t, et, hf⟩ := fill_ok F (na.addHead none) (nb.addHead none) sa.arcs sb.arcs t0 okA.pos okB.pos
    (fun b hb => ⟨_, predIds_ok hwa' hna (arcAt_some hb)⟩) (preds_lt hwa' hna)
    (fun b hb => ⟨_, predIds_ok hwb' hnb (arcAt_some hb)⟩) (preds_lt hwb' hnb)
  have hlen : (viewOf (na.addHead none) sa.arcs).len = sa.arcs.length := rfl
  have hlen2 : (viewOf (nb.addHead none) sb.arcs).len = sb.arcs.length := rfl
  have hl : ∀ a b, a < (viewOf (na.addHead none) sa.arcs).len → b < (viewOf (nb.addHead none) sb.arcs).len →
      Local F _ _ t m a b := fun a b ha hb =>
    local_all F _ _ t m okA okB hf (by omega) (by omega) (na.nArcs + nb.nArcs) hm (by omega) (a + b + 1) a b
      (by omega) ha hb
  have hsta := head_stop (n := na) (none : Option W)
  have hstb := head_stop (n := nb) (none : Option W)
  obtain ⟨fa1, fa2, fa3⟩ := ends_found hwa' hna hsta
  obtain ⟨fb1, fb2, fb3⟩ := ends_found hwb' hnb hstb
  have hpne : ((endIds (na.addHead none) sa.arcs).flatMap fun i => (endIds (nb.addHead none) sb.arcs).map
      fun j => (i, j)) ≠ [] := by
    obtain ⟨i, hi⟩ := List.exists_mem_of_ne_nil _ fa2
    obtain ⟨j, hj⟩ := List.exists_mem_of_ne_nil _ fb2
    exact List.ne_nil_of_mem (mem_endPairs.2 (⟨hi, hj⟩ : (i, j).1 ∈ _ ∧ (i, j).2 ∈ _))
  obtain ⟨⟨a, b⟩, hab, hmin, hle⟩ := minOver_spec (fun p : Nat × Nat => (t p.1 p.2).d) bigEnd _ hpne (by
    intro p hp
    obtain ⟨h1, h2⟩ := mem_endPairs.1 hp
    have k1 := fa3 _ h1
    have k2 := fb3 _ h2
    have hb := (hl p.1 p.2 k1 k2).bound
    have hmono : m * ((p.1 + p.2 : Nat) : Int) ≤ m * ((na.nArcs + nb.nArcs : Nat) : Int) :=
      Int.mul_le_mul_of_nonneg_left (by have : p.1 + p.2 ≤ na.nArcs + nb.nArcs := by omega
                                        exact_mod_cast this) hm.1
    have := hm.2.2
    show (t p.1 p.2).d < bigEnd
    omega)
  obtain ⟨hia, hib⟩ := mem_endPairs.1 hab
  simp only at hia hib
  have haL := fa3 _ hia
  have hbL := fb3 _ hib
  obtain ⟨ms, etr, halm, hcost⟩ := trace_ok F _ _ t m okA okB hf.origin hl (a + b) a b (Nat.le_refl _) haL hbL
  obtain ⟨wa, hwsa⟩ := words_of_chain hwa hda hna halm.1
  obtain ⟨wb, hwsb⟩ := words_of_chain hwb hdb hnb halm.2
  obtain ⟨s, es, els, ers⟩ := moves_to_steps _ _ ms.reverse wa wb hwsa hwsb
  have hrec := records F incl _ _ ms.reverse s es
  have hhops := hops_ok F _ _ t m incl (viewOf (na.addHead none) sa.arcs).word (viewOf (nb.addHead none) sb.arcs).word
    okA okB hl (a + b) a b ms _ haL hbL etr hrec
  refine ⟨sa.arcs, sb.arcs, ⟨(t a b).d, ms.reverse, (s.map (reported F incl)).flatten, _⟩, ?_, s, ?_, ?_, ?_, ?_, hhops⟩
  · unfold dpalign
    simp only [ea, eb]
    rw [if_neg (by omega), et]
    have hex : extract F (na.addHead none) (nb.addHead none) sa.arcs sb.arcs incl t =
        some ⟨(t a b).d, ms.reverse, (s.map (reported F incl)).flatten,
          countHops F incl (viewOf (na.addHead none) sa.arcs).word (viewOf (nb.addHead none) sb.arcs).word t
            (a + b) a b⟩ := by
      unfold extract
      rw [hsta, hstb]
      simp only
      rw [fa1, fb1]
      simp only [hmin, etr]
      have : ms.reverse.mapM (record F incl (fun i => (sa.arcs[i]?).bind (na.addHead none).data)
          (fun i => (sb.arcs[i]?).bind (nb.addHead none).data)) = some (s.map (reported F incl)) := hrec
      rw [this]
      rfl
    simp only [hex]
  · refine ⟨?_, ?_⟩
    · rw [els]
      exact (produces_iff hwa hna wa).2 ⟨a, hia, _, halm.1, hwsa⟩
    · rw [ers]
      exact (produces_iff hwb hnb wb).2 ⟨b, hib, _, halm.2, hwsb⟩
  · rw [← cost_eq F _ _ ms.reverse s es]; exact hcost
  · intro s' hs'
    obtain ⟨a', ha', ids, hc, hsp⟩ := (produces_iff hwa hna _).1 hs'.1
    obtain ⟨b', hb', ids2, hc2, hsp2⟩ := (produces_iff hwb hnb _).1 hs'.2
    obtain ⟨ms', g1, g2, g3⟩ := steps_to_moves _ _ s' ids ids2 hsp hsp2
    have := opt_le F _ _ t m okA okB hf.origin hl _ ms' a' b' (Nat.le_refl _) ⟨by rw [g1]; exact hc, by rw [g2]; exact hc2⟩
    rw [cost_eq F _ _ ms' s' g3] at this
    have h2 := hle (a', b') (mem_endPairs.2 ⟨ha', hb'⟩)
    simp only at h2
    show (t a b).d ≤ _
    omega
  · show (s.map (reported F incl)).flatten = _
    rw [List.flatMap_def]

end Verif.Net
