import Verif.Expand.Loop
/-!
# The loop over the segments
-/
set_option autoImplicit false
namespace Verif.Expand
open Verif.LineStyle

theorem visit_row (s : Topo.Seg) : ∀ (l : List Nat) (t f : Nat) (done : List Nat), Linked s.next (t :: l) → (t :: l).Nodup →
    (∀ x, s.last x = true ↔ (t :: l).getLast? = some x) → (∀ x ∈ l, x ∉ done) → l.length < f → Topo.visit s f t done = some (done ++ l) := by
  intro l
  induction l with
  | nil =>
    intro t f done _ _ hl _ hf
    match f, hf with
    | f + 1, _ =>
      unfold Topo.visit
      rw [if_pos ((hl t).2 (by simp))]
      simp
  | cons y l ih =>
    intro t f done hc hn hl hd hf
    match f, hf with
    | f + 1, hf =>
      have hlast : ¬ s.last t = true := by
        intro h
        have h1 := (hl t).1 h
        rw [List.getLast?_cons_cons] at h1
        exact (List.nodup_cons.1 hn).1 (List.mem_of_getLast? h1)
      unfold Topo.visit
      rw [if_neg hlast, hc.1]
      unfold Topo.over
      rw [if_neg (hd y List.mem_cons_self)]
      have hn' := (List.nodup_cons.1 hn).2
      rw [ih y f (done ++ [y]) hc.2 hn' (fun x => by rw [hl x, List.getLast?_cons_cons]) ?_ (by simp at hf; omega)]
      · simp [Topo.over]
      · intro x hx hm
        rcases List.mem_append.1 hm with h | h
        · exact hd x (List.mem_cons_of_mem _ hx) h
        · have hxy : x = y := by simpa using h
          exact (List.nodup_cons.1 hn').1 (hxy ▸ hx)

theorem listing_row {f : Nat} {s : Store} {sg : Seg} {l : List Nat} (h : Row s sg l) (hn : l.Nodup) (hf : l.length < f) :
    Topo.listing (view s sg) f = some l := by
  unfold Topo.listing view
  show Topo.roots _ f sg.first [] = _
  rw [h.first]
  cases l with
  | nil => rfl
  | cons t l =>
    show Topo.roots _ f [t] [] = _
    unfold Topo.roots
    rw [visit_row _ l t f ([] ++ [t]) h.chain hn ?_ ?_ (by simp at hf; omega)]
    · simp [Topo.roots]
    · intro x
      rw [decide_eq_true_eq, h.last]
      cases (t :: l).getLast? with
      | none => simp
      | some y => simp [eq_comm]
    · intro x hx hm
      have hxt : x = t := by simpa using hm
      exact (List.nodup_cons.1 hn).1 (hxt ▸ hx)

theorem row_first {s : Store} {sg : Seg} {l : List Nat} (h : Row s sg l) {x : Nat} (hx : x ∈ sg.first) : x ∈ l := by
  rw [h.first] at hx
  exact List.mem_of_mem_take hx

theorem row_last {s : Store} {sg : Seg} {l : List Nat} (h : Row s sg l) {x : Nat} (hx : x ∈ sg.last) : x ∈ l := by
  rw [h.last] at hx
  cases e : l.getLast? with
  | none => rw [e] at hx; simp at hx
  | some y =>
    rw [e] at hx
    have : x = y := by simpa using hx
    exact this ▸ List.mem_of_getLast? e

theorem chain_same {next next' : Nat → List Nat} : ∀ l : List Nat, Linked next l → (∀ x y, x ∈ l → y ∈ l → next x = [y] → next' x = [y]) → Linked next' l := by
  intro l
  induction l with
  | nil => intro _ _; trivial
  | cons x l ih =>
    cases l with
    | nil => intro _ _; trivial
    | cons y l =>
      intro h hs
      refine ⟨hs x y (by simp) (by simp) h.1, ih h.2 fun a b ha hb => hs a b (List.mem_cons_of_mem _ ha) (List.mem_cons_of_mem _ hb)⟩

/-- The texts to be taken apart can be parsed, and the segment listed, within the depth `f`. -/
structure Parsed (f : Nat) (v : Env) (s : Store) (l : List Nat) : Prop where
  parses : ∀ r ∈ l, Marked (textOf v s r) → ∀ c, ∃ p c', parse f (lex [] (blanked (textOf v s r))) c = some (p, c')
  deep : l.length < f

theorem fit_next {f : Nat} {v : Env} {R l : List Nat} {s s1 : Store} {sg sg1 sg' : Seg} (h1 : Ran f v R s s1 sg sg1) (h : Fit v s sg' l)
    (hdis : ∀ r ∈ l, r ∉ R) : Fit v s1 sg' l := by
  refine ⟨⟨h.row.first, h.row.last, ?_, fun x hx => Nat.lt_of_lt_of_le (h.row.below x hx) h1.grows⟩, ?_⟩
  · refine chain_same _ h.row.chain fun x y hx hy e => ?_
    rw [h1.same x (h.row.below x hx) (hdis x hx) ?_, e]
    intro r hr hm
    rw [e] at hm
    have : r = y := by simpa using hm
    exact hdis y hy (this ▸ hr)
  · intro r hr hm
    have e := h1.old r (h.row.below r hr)
    rw [textOf_eq e] at hm
    have ht := h.timed r hr hm
    exact ⟨by rw [e]; exact ht.pos, by rw [e]; exact ht.order, by rw [e]; exact ht.first, by rw [e]; exact ht.last⟩

theorem parsed_next {f : Nat} {v : Env} {R l : List Nat} {s s1 : Store} {sg sg1 sg' : Seg} (h1 : Ran f v R s s1 sg sg1) (h : Fit v s sg' l)
    (hp : Parsed f v s l) : Parsed f v s1 l := by
  refine ⟨?_, hp.deep⟩
  intro r hr hm
  have e := h1.old r (h.row.below r hr)
  rw [textOf_eq e] at hm ⊢
  exact hp.parses r hr hm

/-- The ports of the run. -/
def Ports (n : Nat) (ps : List (Seg × List Nat)) (sgs' : List Seg) (pick : Seg → List Nat) (F F' : Nat → Prop) : Prop :=
  (∃ (i : Nat) (q : Seg × List Nat) (sg' : Seg), ps[i]? = some q ∧ sgs'[i]? = some sg' ∧ F = (· ∈ pick q.1) ∧ F' = (· ∈ pick sg')) ∨
  (F' = F ∧ (∀ q ∈ ps, ∀ r ∈ q.2, ¬ F r) ∧ ∀ x, F x → x < n)

structure Runs (f : Nat) (v : Env) (ps : List (Seg × List Nat)) (s s' : Store) (sgs' : List Seg) : Prop where
  wf : WF s'
  grows : s.fresh ≤ s'.fresh
  size : sgs'.length = ps.length
  old : ∀ k, k < s.fresh → s'.tok k = s.tok k
  bare : ∀ k, k < s.fresh → Bare s k → Bare s' k
  ports : ∀ (i : Nat) (q : Seg × List Nat) (sg' : Seg), ps[i]? = some q → sgs'[i]? = some sg' →
    (∀ y ∈ sg'.first, y < s'.fresh ∧ (y < s.fresh → y ∈ q.1.first)) ∧ (∀ y ∈ sg'.last, y < s'.fresh ∧ (y < s.fresh → y ∈ q.1.last)) ∧
    sg'.start = q.1.start ∧ sg'.stop = q.1.stop
  gone : ∀ q ∈ ps, ∀ r ∈ q.2, Marked (textOf v s r) → Bare s' r ∧ ∀ sg' ∈ sgs', r ∉ sg'.first ∧ r ∉ sg'.last
  new : ∀ x, s.fresh ≤ x → (∃ sg' ∈ sgs', x ∈ sg'.first ∨ x ∈ sg'.last) ∨ ¬ Bare s' x → ∃ q ∈ ps, ∃ r ∈ q.2, MadeFor f v s r (s'.tok x)
  lang : ∀ M : Nat → List Word → Prop, (∀ q ∈ ps, ∀ r ∈ q.2, Marked (textOf v s r) → Parses f v s M r) → ∀ Q : List Nat, (∀ x ∈ Q, x < s.fresh) →
    ∀ F F' L L' : Nat → Prop, Ports s.fresh ps sgs' Seg.first F F' → Ports s.fresh ps sgs' Seg.last L L' → ∀ u,
      Lang (fun x y => y ∈ s'.next x) F' L' (Val v s' M Q) u ↔
      Lang (fun x y => y ∈ s.next x) F L (Val v s M ((ps.map Prod.snd).flatten ++ Q)) u

theorem ports_split {n n1 : Nat} (hn : n ≤ n1) {pick : Seg → List Nat} {q : Seg × List Nat} {ps : List (Seg × List Nat)} {sg1 : Seg} {sgs' : List Seg}
    (h1 : ∀ y ∈ pick sg1, y < n1 ∧ (y < n → y ∈ pick q.1)) (hq : ∀ y ∈ pick q.1, y ∈ q.2)
    (hps : ∀ p ∈ ps, ∀ y ∈ pick p.1, y ∈ p.2) (hlt : ∀ p ∈ ps, ∀ r ∈ p.2, r < n) (hdis : ∀ p ∈ ps, ∀ r ∈ p.2, r ∉ q.2)
    {F F' : Nat → Prop} (h : Ports n (q :: ps) (sg1 :: sgs') pick F F') :
    ∃ F1, Port n q.2 (pick q.1) (pick sg1) F F1 ∧ Ports n1 ps sgs' pick F1 F' := by
  rcases h with ⟨i, q', sg', hi, hi', rfl, rfl⟩ | ⟨rfl, a, b⟩
  · cases i with
    | zero =>
      rw [List.getElem?_cons_zero] at hi hi'
      have e1 := Option.some.inj hi
      have e2 := Option.some.inj hi'
      subst e1; subst e2
      refine ⟨_, Or.inl ⟨rfl, rfl⟩, Or.inr ⟨rfl, ?_, fun x hx => (h1 x hx).1⟩⟩
      intro p hp r hr hx
      exact hdis p hp r hr (hq r ((h1 r hx).2 (hlt p hp r hr)))
    | succ i =>
      rw [List.getElem?_cons_succ] at hi hi'
      have hm := List.mem_of_getElem? hi
      refine ⟨(· ∈ pick q'.1), Or.inr ⟨rfl, ?_, fun x hx => hlt q' hm x (hps q' hm x hx)⟩, Or.inl ⟨i, q', sg', hi, hi', rfl, rfl⟩⟩
      intro r hr hx
      exact hdis q' hm r (hps q' hm r hx) hr
  · exact ⟨F', Or.inr ⟨rfl, a q List.mem_cons_self, b⟩, Or.inr ⟨rfl, fun p hp => a p (List.mem_cons_of_mem _ hp), fun x hx => Nat.lt_of_lt_of_le (b x hx) hn⟩⟩

theorem expand_runs {f : Nat} {v : Env} : ∀ (ps : List (Seg × List Nat)) (s : Store), WF s → (∀ q ∈ ps, Fit v s q.1 q.2) →
    ((ps.map Prod.snd).flatten).Nodup → (∀ q ∈ ps, Parsed f v s q.2) → ∃ s' sgs', expand f v (ps.map Prod.fst) s = .ok (s', sgs') ∧ Runs f v ps s s' sgs' := by
  intro ps
  induction ps with
  | nil =>
    intro s hw _ _ _
    refine ⟨s, [], rfl, ⟨hw, Nat.le_refl _, rfl, fun _ _ => rfl, fun _ _ h => h, by simp, by simp, ?_, ?_⟩⟩
    · rintro x hx (⟨_, h, _⟩ | h)
      · simp at h
      · exact absurd (bare_beyond hw hx) h
    · intro M _ Q _ F F' L L' hF hL u
      have e : ∀ {pick : Seg → List Nat} {F F' : Nat → Prop}, Ports s.fresh [] [] pick F F' → F' = F := by
        rintro pick F F' (⟨i, _, _, h, _⟩ | ⟨h, _⟩)
        · simp at h
        · exact h
      rw [e hF, e hL]
      exact Iff.rfl
  | cons q ps ih =>
    intro s hw hfit hn hpar
    have hfq := hfit q List.mem_cons_self
    have hpq := hpar q List.mem_cons_self
    have hpp : ∀ p ∈ ps, Parsed f v s p.2 := fun p hp => hpar p (List.mem_cons_of_mem _ hp)
    have hfp : ∀ p ∈ ps, Fit v s p.1 p.2 := fun p hp => hfit p (List.mem_cons_of_mem _ hp)
    rw [List.map_cons, List.flatten_cons, List.nodup_append] at hn
    obtain ⟨hnq, hnps, hdis0⟩ := hn
    have hdis : ∀ p ∈ ps, ∀ r ∈ p.2, r ∉ q.2 := by
      intro p hp r hr hq
      exact hdis0 r hq r (List.mem_flatten.2 ⟨p.2, List.mem_map.2 ⟨p, hp, rfl⟩, hr⟩) rfl
    have hcount : ∀ (l : List Nat) (r : Nat), l.Nodup → l.count r ≤ 1 := fun l r h => List.nodup_iff_count.1 h r
    obtain ⟨s1, sg1, e1, h1⟩ := expandToks_ran q.2 s q.1 ⟨hw, hnq, hfq.row.below, hfq.timed,
      fun r _ => hcount _ r (by rw [hfq.row.first]; exact (List.take_sublist _ _).nodup hnq),
      fun r _ => hcount _ r (by rw [hfq.row.last]; cases q.2.getLast? <;> simp),
      fun x hx => hfq.row.below x (row_first hfq.row hx), fun x hx => hfq.row.below x (row_last hfq.row hx), hpq.parses⟩
    have hlt : ∀ p ∈ ps, ∀ r ∈ p.2, r < s.fresh := fun p hp r hr => (hfp p hp).row.below r hr
    have htext : ∀ r, r < s.fresh → textOf v s1 r = textOf v s r := fun r hr => textOf_eq (h1.old r hr)
    have hfp1 : ∀ p ∈ ps, Fit v s1 p.1 p.2 := fun p hp => fit_next h1 (hfp p hp) (hdis p hp)
    have hpp1 : ∀ p ∈ ps, Parsed f v s1 p.2 := fun p hp => parsed_next h1 (hfp p hp) (hpp p hp)
    obtain ⟨s2, sgs2, e2, h2⟩ := ih s1 h1.wf hfp1 hnps hpp1
    refine ⟨s2, sg1 :: sgs2, ?_, ⟨h2.wf, Nat.le_trans h1.grows h2.grows, by simp [h2.size], ?_, ?_, ?_, ?_, ?_, ?_⟩⟩
    · show expand f v (q.1 :: ps.map Prod.fst) s = _
      unfold expand
      rw [listing_row hfq.row hnq hpq.deep]
      dsimp only
      rw [e1]
      dsimp only
      rw [e2]
    · intro k hk
      rw [h2.old k (Nat.lt_of_lt_of_le hk h1.grows), h1.old k hk]
    · exact fun k hk hb => h2.bare k (Nat.lt_of_lt_of_le hk h1.grows) (h1.bare k hk hb)
    · intro i q' sg' hi hi'
      cases i with
      | zero =>
        rw [List.getElem?_cons_zero] at hi hi'
        have e1 := Option.some.inj hi
        have e2 := Option.some.inj hi'
        subst e1; subst e2
        exact ⟨fun y hy => ⟨Nat.lt_of_lt_of_le (h1.first y hy).1 h2.grows, (h1.first y hy).2⟩,
          fun y hy => ⟨Nat.lt_of_lt_of_le (h1.last y hy).1 h2.grows, (h1.last y hy).2⟩, h1.time⟩
      | succ i =>
        rw [List.getElem?_cons_succ] at hi hi'
        obtain ⟨a, b, c⟩ := h2.ports i q' sg' hi hi'
        exact ⟨fun y hy => ⟨(a y hy).1, fun h => (a y hy).2 (Nat.lt_of_lt_of_le h h1.grows)⟩,
          fun y hy => ⟨(b y hy).1, fun h => (b y hy).2 (Nat.lt_of_lt_of_le h h1.grows)⟩, c⟩
    · intro p hp r hr hm
      rcases List.mem_cons.1 hp with rfl | hp'
      · obtain ⟨a, b, c⟩ := h1.gone r hr hm
        have hr' := hfq.row.below r hr
        refine ⟨h2.bare r (Nat.lt_of_lt_of_le hr' h1.grows) c, ?_⟩
        intro sg' hsg
        rcases List.mem_cons.1 hsg with rfl | hsg
        · exact ⟨a, b⟩
        · obtain ⟨i, hi'⟩ := List.mem_iff_getElem?.1 hsg
          have hlen : i < ps.length := by
            have := (List.getElem?_eq_some_iff.1 hi').1
            rw [h2.size] at this
            exact this
          have hi := List.getElem?_eq_getElem hlen
          obtain ⟨a, b, _⟩ := h2.ports i _ sg' hi hi'
          have hm := List.mem_of_getElem? hi
          have hlt1 := Nat.lt_of_lt_of_le hr' h1.grows
          exact ⟨fun hx => hdis _ hm r (row_first (hfp1 _ hm).row ((a r hx).2 hlt1)) hr,
            fun hx => hdis _ hm r (row_last (hfp1 _ hm).row ((b r hx).2 hlt1)) hr⟩
      · have hr' := hlt p hp' r hr
        obtain ⟨a, b⟩ := h2.gone p hp' r hr (by rw [htext r hr']; exact hm)
        refine ⟨a, ?_⟩
        intro sg' hsg
        rcases List.mem_cons.1 hsg with rfl | hsg
        · exact ⟨fun hx => hdis p hp' r hr (row_first hfq.row ((h1.first r hx).2 hr')),
            fun hx => hdis p hp' r hr (row_last hfq.row ((h1.last r hx).2 hr'))⟩
        · exact b sg' hsg
    · intro x hx ha
      by_cases hx1 : x < s1.fresh
      · have hold : x ∈ sg1.first ∨ x ∈ sg1.last ∨ ¬ Bare s1 x := by
          rcases ha with ⟨sg', hsg, ha⟩ | ha
          · rcases List.mem_cons.1 hsg with rfl | hsg
            · rcases ha with ha | ha
              · exact Or.inl ha
              · exact Or.inr (Or.inl ha)
            · exfalso
              obtain ⟨i, hi'⟩ := List.mem_iff_getElem?.1 hsg
              have hlen : i < ps.length := by
                have := (List.getElem?_eq_some_iff.1 hi').1
                rw [h2.size] at this
                exact this
              have hi := List.getElem?_eq_getElem hlen
              obtain ⟨a, b, _⟩ := h2.ports i _ sg' hi hi'
              have hm := List.mem_of_getElem? hi
              rcases ha with ha | ha
              · have := hlt _ hm x (row_first (hfp1 _ hm).row ((a x ha).2 hx1)); omega
              · have := hlt _ hm x (row_last (hfp1 _ hm).row ((b x ha).2 hx1)); omega
          · exact Or.inr (Or.inr fun hb => ha (h2.bare x hx1 hb))
        obtain ⟨r, hr, e⟩ := h1.new x hx hold
        rw [h2.old x hx1]
        exact ⟨q, List.mem_cons_self, r, hr, e⟩
      · have hold : (∃ sg' ∈ sgs2, x ∈ sg'.first ∨ x ∈ sg'.last) ∨ ¬ Bare s2 x := by
          rcases ha with ⟨sg', hsg, ha⟩ | ha
          · rcases List.mem_cons.1 hsg with rfl | hsg
            · rcases ha with ha | ha
              · have := (h1.first x ha).1; omega
              · have := (h1.last x ha).1; omega
            · exact Or.inl ⟨sg', hsg, ha⟩
          · exact Or.inr ha
        obtain ⟨p, hp, r, hr, hm, c, pc, c', e, n, hn', e'⟩ := h2.new x (by omega) hold
        have hr' := hlt p hp r hr
        rw [htext r hr'] at hm e
        rw [h1.old r hr'] at e'
        exact ⟨p, List.mem_cons_of_mem _ hp, r, hr, hm, c, pc, c', e, n, hn', e'⟩
    · intro M hM Q hQ F F' L L' hF hL u
      obtain ⟨F1, f1, f2⟩ := ports_split h1.grows h1.first (fun y hy => row_first hfq.row hy) (fun p hp y hy => row_first (hfp p hp).row hy) hlt hdis hF
      obtain ⟨L1, l1, l2⟩ := ports_split h1.grows h1.last (fun y hy => row_last hfq.row hy) (fun p hp y hy => row_last (hfp p hp).row hy) hlt hdis hL
      rw [h2.lang M ?_ Q (fun x hx => Nat.lt_of_lt_of_le (hQ x hx) h1.grows) F1 F' L1 L' f2 l2 u]
      · rw [List.map_cons, List.flatten_cons, List.append_assoc]
        refine h1.lang M (hM q List.mem_cons_self) _ ?_ F F1 L L1 f1 l1 u
        intro x hx
        rcases List.mem_append.1 hx with a | a
        · obtain ⟨l, hl, hx⟩ := List.mem_flatten.1 a
          obtain ⟨p, hp, rfl⟩ := List.mem_map.1 hl
          exact hlt p hp x hx
        · exact hQ x a
      · intro p hp r hr hm
        have hr' := hlt p hp r hr
        unfold Parses
        rw [htext r hr'] at hm ⊢
        rw [h1.old r hr']
        exact hM p (List.mem_cons_of_mem _ hp) r hr hm

end Verif.Expand
