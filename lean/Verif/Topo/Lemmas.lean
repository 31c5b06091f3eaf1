import Verif.Topo.Model
/-!
# Lemmas about the listing of tokens
-/
set_option autoImplicit false
namespace Verif.Topo

/-- Number of tokens not yet listed. -/
def missing (U done : List Nat) : Nat := U.countP (fun t => decide (t ∉ done))

theorem countP_le_of_imp {A : Type} (p q : A → Bool) (h : ∀ a, p a = true → q a = true) : ∀ l : List A, l.countP p ≤ l.countP q := by
  intro l
  induction l with
  | nil => simp
  | cons a l ih =>
    rw [List.countP_cons, List.countP_cons]
    by_cases hp : p a = true
    · rw [if_pos hp, if_pos (h a hp)]; omega
    · rw [if_neg hp]; omega

theorem missing_mono (U done done' : List Nat) (h : ∀ t ∈ done, t ∈ done') : missing U done' ≤ missing U done := by
  apply countP_le_of_imp
  intro a ha
  simp only [decide_eq_true_eq] at ha ⊢
  exact fun hm => ha (h a hm)

theorem missing_lt (U done : List Nat) (t : Nat) (ht : t ∈ U) (hn : t ∉ done) : missing U (done ++ [t]) < missing U done := by
  unfold missing
  induction U with
  | nil => simp at ht
  | cons a U ih =>
    rw [List.countP_cons, List.countP_cons]
    have hle := countP_le_of_imp (fun x => decide (x ∉ done ++ [t])) (fun x => decide (x ∉ done)) (by
      intro x hx; simp only [decide_eq_true_eq, List.mem_append] at hx ⊢; exact fun hm => hx (Or.inl hm)) U
    by_cases hat : a = t
    · subst hat
      rw [if_neg (by simp), if_pos (by simpa using hn)]
      omega
    · have := ih (by rcases List.mem_cons.mp ht with h | h; exact absurd h.symm hat; exact h)
      by_cases ha : a ∈ done
      · rw [if_neg (by simp [ha]), if_neg (by simp [ha])]; omega
      · rw [if_pos (by simp [ha, hat]), if_pos (by simp [ha])]; omega

/-- What one visit (or one loop) does: it lists new tokens behind the old ones, each once, and all successors of what it lists. -/
structure Ext (s : Seg) (targets done res : List Nat) : Prop where
  ext : ∃ added : List Nat, res = done ++ added ∧ added.Nodup ∧ (∀ t ∈ added, t ∉ done) ∧
    (∀ t ∈ added, s.last t = false → ∀ u ∈ s.next t, u ∈ res) ∧
    (∀ P : Nat → Prop, (∀ x, P x → s.last x = false → ∀ y ∈ s.next x, P y) → (∀ t ∈ targets, P t) → ∀ t ∈ added, P t) ∧
    (∀ (l1 : List Nat) (u : Nat) (l2 : List Nat), added = l1 ++ u :: l2 → u ∈ targets ∨ ∃ p, p ∈ l1 ∧ s.last p = false ∧ u ∈ s.next p)
  targets : ∀ t ∈ targets, t ∈ res

theorem split_cases {x y l1 l2 : List Nat} {u : Nat} (h : x ++ y = l1 ++ u :: l2) :
    (∃ r, x = l1 ++ u :: r) ∨ (∃ r, l1 = x ++ r ∧ y = r ++ u :: l2) := by
  rcases List.append_eq_append_iff.mp h with ⟨a, h1, h2⟩ | ⟨a, h1, h2⟩
  · exact Or.inr ⟨a, h1, h2⟩
  · cases a with
    | nil => exact Or.inr ⟨[], by simpa using h1.symm, by simpa using h2.symm⟩
    | cons v a =>
      simp only [List.cons_append, List.cons.injEq] at h2
      exact Or.inl ⟨a, by rw [h1, h2.1]⟩

theorem Ext.trans {s : Seg} {t1 t2 a b c : List Nat} (h1 : Ext s t1 a b) (h2 : Ext s t2 b c) : Ext s (t1 ++ t2) a c := by
  obtain ⟨x, rfl, n1, d1, c1, o1, q1⟩ := h1.ext
  obtain ⟨y, rfl, n2, d2, c2, o2, q2⟩ := h2.ext
  refine ⟨⟨x ++ y, by simp, ?_, ?_, ?_, ?_, ?_⟩, ?_⟩
  · rw [List.nodup_append]
    refine ⟨n1, n2, ?_⟩
    intro p hp q hq he
    subst he
    exact d2 p hq (by simp [hp])
  · intro t ht
    rcases List.mem_append.mp ht with ht | ht
    · exact d1 t ht
    · exact fun hm => d2 t ht (by simp [hm])
  · intro t ht hl u hu
    rcases List.mem_append.mp ht with ht | ht
    · exact List.mem_append.mpr (Or.inl (c1 t ht hl u hu))
    · exact c2 t ht hl u hu
  · intro P hc hP t ht
    rcases List.mem_append.mp ht with ht | ht
    · exact o1 P hc (fun u hu => hP u (by simp [hu])) t ht
    · exact o2 P hc (fun u hu => hP u (by simp [hu])) t ht
  · intro l1 u l2 he
    rcases split_cases he with ⟨r, hr⟩ | ⟨r, hr, hy⟩
    · rcases q1 l1 u r hr with h | h
      · exact Or.inl (by simp [h])
      · exact Or.inr h
    · rcases q2 r u l2 hy with h | ⟨p, hp, h⟩
      · exact Or.inl (by simp [h])
      · exact Or.inr ⟨p, by simp [hr, hp], h⟩
  · intro t ht
    rcases List.mem_append.mp ht with ht | ht
    · exact List.mem_append.mpr (Or.inl (h1.targets t ht))
    · exact h2.targets t ht

theorem over_spec (s : Seg) (U : List Nat) (f : Nat)
    (ih : ∀ t done, t ∈ U → t ∈ done → missing U done < f → ∃ res, visit s f t done = some res ∧
      Ext s (if s.last t then [] else s.next t) done res) :
    ∀ (ts done : List Nat), (∀ t ∈ ts, t ∈ U) → missing U done < f + 1 → ∃ res, over (visit s f) ts done = some res ∧ Ext s ts done res
  | [], done, _, _ => ⟨done, rfl, ⟨[], by simp, by simp, by simp, by simp, by simp, by simp⟩, by simp⟩
  | t :: ts, done, hts, hm => by
    unfold over
    by_cases ht : t ∈ done
    · rw [if_pos ht]
      obtain ⟨res, h1, h2⟩ := over_spec s U f ih ts done (fun x hx => hts x (by simp [hx])) hm
      refine ⟨res, h1, ?_, ?_⟩
      · obtain ⟨x, e, n, d, c, o, q⟩ := h2.ext
        refine ⟨x, e, n, d, c, ?_, ?_⟩
        rotate_left
        · intro l1 u l2 he
          rcases q l1 u l2 he with h | h
          · exact Or.inl (by simp [h])
          · exact Or.inr h
        intro P hc hP u hu
        exact o P hc (fun v hv => hP v (by simp [hv])) u hu
      · intro u hu
        rcases List.mem_cons.mp hu with rfl | hu
        · obtain ⟨x, e, _⟩ := h2.ext
          rw [e]; simp [ht]
        · exact h2.targets u hu
    · rw [if_neg ht]
      have hlt := missing_lt U done t (hts t (by simp)) ht
      obtain ⟨res, h1, h2⟩ := ih t (done ++ [t]) (hts t (by simp)) (by simp) (by omega)
      rw [h1]
      simp only
      obtain ⟨x, e, n, d, c, o, q⟩ := h2.ext
      have hmono : missing U res ≤ missing U done := missing_mono U done res (by intro u hu; rw [e]; simp [hu])
      obtain ⟨res', g1, g2⟩ := over_spec s U f ih ts res (fun x hx => hts x (by simp [hx])) (by omega)
      refine ⟨res', g1, ?_⟩
      have first : Ext s [t] done res := by
        refine ⟨⟨t :: x, by rw [e]; simp, ?_, ?_, ?_, ?_, ?_⟩, ?_⟩
        · rw [List.nodup_cons]
          exact ⟨fun hx => d t hx (by simp), n⟩
        · intro u hu
          rcases List.mem_cons.mp hu with rfl | hu
          · exact ht
          · exact fun hh => d u hu (by simp [hh])
        · intro u hu hl v hv
          rcases List.mem_cons.mp hu with rfl | hu
          · exact h2.targets v (by rw [if_neg (by simp [hl])]; exact hv)
          · exact c u hu hl v hv
        · intro P hc hP u hu
          have hPt : P t := hP t (by simp)
          rcases List.mem_cons.mp hu with rfl | hu
          · exact hPt
          · refine o P hc ?_ u hu
            intro v hv
            by_cases hl : s.last t = true
            · rw [if_pos hl] at hv; simp at hv
            · rw [if_neg hl] at hv
              exact hc t hPt (by simpa using hl) v hv
        · intro l1 u l2 he
          cases l1 with
          | nil => simp only [List.nil_append, List.cons.injEq] at he; exact Or.inl (by simp [he.1])
          | cons v l1 =>
            simp only [List.cons_append, List.cons.injEq] at he
            right
            rcases q l1 u l2 he.2 with h | ⟨p, hp, h⟩
            · by_cases hl : s.last t = true
              · rw [if_pos hl] at h; simp at h
              · rw [if_neg hl] at h
                exact ⟨t, by simp [he.1], by simpa using hl, h⟩
            · exact ⟨p, by simp [hp], h⟩
        · intro u hu
          simp only [List.mem_singleton] at hu
          subst hu
          rw [e]; simp
      exact first.trans g2

theorem visit_spec (s : Seg) (U : List Nat) (hU : ∀ t ∈ U, ∀ u ∈ s.next t, u ∈ U) : ∀ (f t : Nat) (done : List Nat), t ∈ U → t ∈ done →
    missing U done < f → ∃ res, visit s f t done = some res ∧ Ext s (if s.last t then [] else s.next t) done res
  | 0, t, done, _, _, h => by omega
  | f + 1, t, done, hu, hd, h => by
    unfold visit
    by_cases hl : s.last t = true
    · rw [if_pos hl, if_pos hl]
      exact ⟨done, rfl, ⟨[], by simp, by simp, by simp, by simp, by simp, by simp⟩, by simp⟩
    · rw [if_neg hl, if_neg hl]
      exact over_spec s U f (fun t' done' => visit_spec s U hU f t' done') (s.next t) done (hU t hu) h

/-- The loop over the first tokens: for each the token itself, then new tokens only. -/
inductive Runs (s : Seg) : List Nat → List Nat → List Nat → Prop where
  | nil {done : List Nat} : Runs s [] done done
  | cons {t : Nat} {ts done res res' : List Nat} : Ext s (if s.last t then [] else s.next t) (done ++ [t]) res → Runs s ts res res' →
      Runs s (t :: ts) done res'

theorem roots_spec (s : Seg) (U : List Nat) (hU : ∀ t ∈ U, ∀ u ∈ s.next t, u ∈ U) (f : Nat) (hf : U.length < f) :
    ∀ (ts done : List Nat), (∀ t ∈ ts, t ∈ U) → ∃ res, roots s f ts done = some res ∧ Runs s ts done res
  | [], done, _ => ⟨done, rfl, .nil⟩
  | t :: ts, done, h => by
    have hm : missing U (done ++ [t]) < f := Nat.lt_of_le_of_lt List.countP_le_length hf
    obtain ⟨res, h1, h2⟩ := visit_spec s U hU f t (done ++ [t]) (h t (by simp)) (by simp) hm
    obtain ⟨res', h3, h4⟩ := roots_spec s U hU f hf ts res (fun x hx => h x (by simp [hx]))
    refine ⟨res', ?_, .cons h2 h4⟩
    unfold roots
    rw [h1]
    exact h3

theorem runs_props {s : Seg} {ts done res : List Nat} (h : Runs s ts done res) :
    (∃ added, res = done ++ added ∧ (∀ t ∈ ts, t ∈ res) ∧ (∀ t ∈ added, s.last t = false → ∀ u ∈ s.next t, u ∈ res)) := by
  induction h with
  | nil => exact ⟨[], by simp, by simp, by simp⟩
  | @cons t ts done res res' h1 h2 ih =>
    obtain ⟨x, e, n, d, c, o, q⟩ := h1.ext
    obtain ⟨y, e', m, c'⟩ := ih
    refine ⟨t :: (x ++ y), by rw [e', e]; simp, ?_, ?_⟩
    · intro u hu
      rcases List.mem_cons.mp hu with rfl | hu
      · rw [e', e]; simp
      · exact m u hu
    · intro u hu hl v hv
      rcases List.mem_cons.mp hu with rfl | hu
      · have := h1.targets v (by rw [if_neg (by simp [hl])]; exact hv)
        rw [e']; simp [this]
      · rcases List.mem_append.mp hu with hu | hu
        · have := c u hu hl v hv
          rw [e']; simp [this]
        · exact c' u hu hl v hv

theorem ext_sound {s : Seg} {t : Nat} {done res : List Nat} (h : Ext s (if s.last t then [] else s.next t) (done ++ [t]) res)
    (P : Nat → Prop) (ht : P t) (hc : ∀ x, P x → s.last x = false → ∀ y ∈ s.next x, P y) (hd : ∀ x ∈ done, P x) : ∀ x ∈ res, P x := by
  obtain ⟨x, e, n, d, c, o, q⟩ := h.ext
  have this : ∀ u ∈ x, P u := by
    refine o P hc ?_
    intro v hv
    by_cases hl : s.last t = true
    · rw [if_pos hl] at hv; simp at hv
    · rw [if_neg hl] at hv
      exact hc t ht (by simpa using hl) v hv
  intro u hu
  rw [e] at hu
  simp only [List.append_assoc, List.mem_append, List.mem_singleton] at hu
  rcases hu with h | h | h
  · exact hd u h
  · rw [h]; exact ht
  · exact this u h

theorem runs_sound {s : Seg} {ts done res : List Nat} (h : Runs s ts done res) (P : Nat → Prop)
    (hc : ∀ x, P x → s.last x = false → ∀ y ∈ s.next x, P y) (hd : ∀ x ∈ done, P x) (ht : ∀ x ∈ ts, P x) : ∀ x ∈ res, P x := by
  induction h with
  | nil => exact hd
  | @cons t ts done res res' h1 h2 ih =>
    apply ih
    · exact ext_sound h1 P (ht t (by simp)) hc hd
    · exact fun x hx => ht x (by simp [hx])

/-- The number of times a token is listed beyond its first listing is bounded by its listings as a first token. -/
theorem runs_count {s : Seg} {ts done res : List Nat} (h : Runs s ts done res) (u : Nat) :
    res.count u ≤ max (done.count u) 1 + ts.count u ∧ (done.count u ≤ res.count u) ∧ (u ∉ ts → res.count u ≤ max (done.count u) 1) ∧
      done.count u + ts.count u ≤ res.count u := by
  induction h with
  | nil => simp; omega
  | @cons t ts done res res' h1 h2 ih =>
    obtain ⟨x, e, n, d, c, o, q⟩ := h1.ext
    have hx : x.count u ≤ 1 := List.nodup_iff_count.mp n u
    have hxd : u ∈ done ++ [t] → x.count u = 0 := fun hm => List.count_eq_zero.mpr (fun hh => d u hh hm)
    have hr : res.count u = done.count u + ([t].count u) + x.count u := by rw [e, List.count_append, List.count_append]
    rw [List.count_cons]
    by_cases htu : t = u
    · subst htu
      have : x.count t = 0 := hxd (by simp)
      simp only [List.count_singleton, beq_self_eq_true, if_true] at *
      refine ⟨by omega, by omega, by simp, by omega⟩
    · have h0 : [t].count u = 0 := by simp [List.count_singleton, htu]
      have hdc : 0 < done.count u → x.count u = 0 := by
        intro hh
        exact hxd (by simp [List.count_pos_iff.mp hh])
      simp only [beq_iff_eq, htu, if_false]
      refine ⟨by omega, by omega, ?_, by omega⟩
      intro hn
      have := ih.2.2.1 (fun hh => hn (by simp [hh]))
      omega

/-- Every listed token that is not a first token has a predecessor listed before it. -/
theorem runs_pred {s : Seg} {ts done res : List Nat} (h : Runs s ts done res)
    (hts : ∀ t ∈ ts, t ∈ s.first)
    (hd : ∀ (l1 : List Nat) (u : Nat) (l2 : List Nat), done = l1 ++ u :: l2 → u ∈ s.first ∨ ∃ p, p ∈ l1 ∧ s.last p = false ∧ u ∈ s.next p) :
    ∀ (l1 : List Nat) (u : Nat) (l2 : List Nat), res = l1 ++ u :: l2 → u ∈ s.first ∨ ∃ p, p ∈ l1 ∧ s.last p = false ∧ u ∈ s.next p := by
  induction h with
  | nil => exact hd
  | @cons t ts done res res' h1 h2 ih =>
    obtain ⟨x, e, n, d, c, o, q⟩ := h1.ext
    refine ih (fun y hy => hts y (by simp [hy])) ?_
    intro l1 u l2 he
    rw [e] at he
    rcases split_cases he with ⟨r, hr⟩ | ⟨r, hr, hy⟩
    · rcases split_cases hr with ⟨r', hr'⟩ | ⟨r', hr', hy'⟩
      · exact hd l1 u r' hr'
      · have : r' = [] := by
          cases r' with
          | nil => rfl
          | cons a r' => simp at hy'
        subst this
        simp only [List.nil_append, List.cons.injEq] at hy'
        exact Or.inl (hy'.1 ▸ hts t (by simp))
    · rcases q r u l2 hy with h | ⟨p, hp, h⟩
      · right
        by_cases hl : s.last t = true
        · rw [if_pos hl] at h; simp at h
        · rw [if_neg hl] at h
          exact ⟨t, by simp [hr], by simpa using hl, h⟩
      · exact Or.inr ⟨p, by simp [hr, hp], h⟩

/-- If no token leads to a first token, first tokens are listed as often as they are first tokens. -/
theorem runs_first {s : Seg} (hp : ∀ t, ∀ u ∈ s.next t, u ∉ s.first) {ts done res : List Nat} (h : Runs s ts done res) (u : Nat)
    (hu : u ∈ s.first) : res.count u = done.count u + ts.count u := by
  induction h with
  | nil => simp
  | @cons t ts done res res' h1 h2 ih =>
    obtain ⟨x, e, n, d, c, o, q⟩ := h1.ext
    have : ∀ v ∈ x, v ∉ s.first := by
      refine o (fun v => v ∉ s.first) (fun y _ _ z hz => hp y z hz) ?_
      intro v hv
      by_cases hl : s.last t = true
      · rw [if_pos hl] at hv; simp at hv
      · rw [if_neg hl] at hv; exact hp t v hv
    have h0 : x.count u = 0 := List.count_eq_zero.mpr (fun hh => this u hh hu)
    have hr : res.count u = done.count u + ([t].count u) + x.count u := by rw [e, List.count_append, List.count_append]
    have ht : (t :: ts).count u = [t].count u + ts.count u := by rw [← List.count_append]; rfl
    omega

theorem deleteAll_none (l : List Nat) : ∀ gone : List Nat, gone.Nodup → (deleteAll l gone = none ↔ ¬ (l.Nodup ∧ ∀ t ∈ l, t ∉ gone)) := by
  induction l with
  | nil => simp [deleteAll]
  | cons t ts ih =>
    intro gone hg
    unfold deleteAll
    by_cases ht : t ∈ gone
    · rw [if_pos ht]; simp [ht]
    · rw [if_neg ht, ih (t :: gone) (List.nodup_cons.mpr ⟨ht, hg⟩)]
      simp only [List.nodup_cons, List.mem_cons, not_or, forall_eq_or_imp, ht, not_false_eq_true, true_and]
      constructor
      · intro h hh; exact h ⟨hh.1.2, fun x hx => ⟨fun e => hh.1.1 (e ▸ hx), hh.2 x hx⟩⟩
      · intro h hh; exact h ⟨⟨fun hm => (hh.2 t hm).1 rfl, hh.1⟩, fun x hx => (hh.2 x hx).2⟩

/-- A chain of tokens is listed in order. -/
theorem visit_chain (s : Seg) : ∀ (l : List Nat) (t : Nat) (f : Nat) (done : List Nat), (t :: l).Nodup → (∀ x ∈ l, x ∉ done) → t ∈ done →
    l.length < f → (∀ (i : Nat) (x : Nat), (t :: l)[i]? = some x → s.next x = (match (t :: l)[i + 1]? with | some y => [y] | none => [])) →
    (∀ (i : Nat) (x : Nat), (t :: l)[i]? = some x → i < l.length → s.last x = false) → visit s f t done = some (done ++ l) := by
  intro l
  induction l with
  | nil =>
    intro t f done hn hd ht hf hnx hl
    obtain ⟨f, rfl⟩ : ∃ k, f = k + 1 := ⟨f - 1, by simp at hf; omega⟩
    unfold visit
    have := hnx 0 t (by simp)
    simp only [List.getElem?_cons_succ, List.getElem?_nil] at this
    rw [this]
    simp [over]
  | cons y l ih =>
    intro t f done hn hd ht hf hnx hl
    obtain ⟨f, rfl⟩ : ∃ k, f = k + 1 := ⟨f - 1, by simp at hf; omega⟩
    unfold visit
    have h0 := hnx 0 t (by simp)
    simp only [List.getElem?_cons_succ, List.getElem?_cons_zero] at h0
    rw [h0, if_neg (by rw [hl 0 t (by simp) (by simp)]; simp)]
    unfold over
    rw [if_neg (hd y (by simp))]
    have := ih y f (done ++ [y]) (List.nodup_cons.mp hn).2 (by
      intro x hx
      simp only [List.mem_append, List.mem_singleton, not_or]
      refine ⟨hd x (by simp [hx]), ?_⟩
      intro e; subst e
      exact (List.nodup_cons.mp (List.nodup_cons.mp hn).2).1 hx) (by simp) (by simp at hf; omega)
      (fun i x hx => by
        have := hnx (i + 1) x (by simpa using hx)
        simpa using this)
      (fun i x hx hi => hl (i + 1) x (by simpa using hx) (by simp; omega))
    rw [this]
    simp [over]

end Verif.Topo
