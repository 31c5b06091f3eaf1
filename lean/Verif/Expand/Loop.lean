import Verif.Expand.Run
/-!
# The loop over the tokens of a segment
-/
set_option autoImplicit false
namespace Verif.Expand
open Verif.LineStyle

/-- No link goes to or from the token. -/
def Bare (s : Store) (k : Nat) : Prop := ∀ x, k ∉ s.next x ∧ x ∉ s.next k

/-- The ports `F` before and `F'` after: those of the segment itself, or ports out of reach of the tokens `R`. -/
def Port (n : Nat) (R A A' : List Nat) (F F' : Nat → Prop) : Prop :=
  (F = (· ∈ A) ∧ F' = (· ∈ A')) ∨ (F' = F ∧ (∀ r ∈ R, ¬ F r) ∧ ∀ x, F x → x < n)

/-- A token made for the token `r`. -/
def MadeFor (f : Nat) (v : Env) (s : Store) (r : Nat) (k : Tok) : Prop :=
  Marked (textOf v s r) ∧ ∃ c p c', parse f (lex [] (blanked (textOf v s r))) c = some (p, c') ∧ ∃ n ∈ nodes p, k = mkTok v (s.tok r) n

structure Ready (f : Nat) (v : Env) (R : List Nat) (s : Store) (sg : Seg) : Prop where
  wf : WF s
  nodup : R.Nodup
  below : ∀ r ∈ R, r < s.fresh
  timed : ∀ r ∈ R, Marked (textOf v s r) → Timed s sg r
  firstOnce : ∀ r ∈ R, sg.first.count r ≤ 1
  lastOnce : ∀ r ∈ R, sg.last.count r ≤ 1
  firstBelow : ∀ x ∈ sg.first, x < s.fresh
  lastBelow : ∀ x ∈ sg.last, x < s.fresh
  parses : ∀ r ∈ R, Marked (textOf v s r) → ∀ c, ∃ p c', parse f (lex [] (blanked (textOf v s r))) c = some (p, c')

structure Ran (f : Nat) (v : Env) (R : List Nat) (s s' : Store) (sg sg' : Seg) : Prop where
  wf : WF s'
  grows : s.fresh ≤ s'.fresh
  old : ∀ k, k < s.fresh → s'.tok k = s.tok k
  same : ∀ x, x < s.fresh → x ∉ R → (∀ r ∈ R, r ∉ s.next x) → s'.next x = s.next x
  bare : ∀ k, k < s.fresh → Bare s k → Bare s' k
  first : ∀ y ∈ sg'.first, y < s'.fresh ∧ (y < s.fresh → y ∈ sg.first)
  last : ∀ y ∈ sg'.last, y < s'.fresh ∧ (y < s.fresh → y ∈ sg.last)
  gone : ∀ r ∈ R, Marked (textOf v s r) → r ∉ sg'.first ∧ r ∉ sg'.last ∧ Bare s' r
  new : ∀ x, s.fresh ≤ x → x ∈ sg'.first ∨ x ∈ sg'.last ∨ ¬ Bare s' x → ∃ r ∈ R, MadeFor f v s r (s'.tok x)
  time : sg'.start = sg.start ∧ sg'.stop = sg.stop
  lang : ∀ M : Nat → List Word → Prop, (∀ r ∈ R, Marked (textOf v s r) → Parses f v s M r) → ∀ Q : List Nat, (∀ x ∈ Q, x < s.fresh) →
    ∀ F F' L L' : Nat → Prop, Port s.fresh R sg.first sg'.first F F' → Port s.fresh R sg.last sg'.last L L' → ∀ u,
      Lang (fun x y => y ∈ s'.next x) F' L' (Val v s' M Q) u ↔ Lang (fun x y => y ∈ s.next x) F L (Val v s M (R ++ Q)) u

theorem textOf_eq {v : Env} {s s' : Store} {k : Nat} (h : s'.tok k = s.tok k) : textOf v s' k = textOf v s k := by unfold textOf; rw [h]

theorem bare_iff {s : Store} {k : Nat} : ¬ Bare s k ↔ ∃ x, k ∈ s.next x ∨ x ∈ s.next k := by
  unfold Bare
  constructor
  · intro h
    refine Classical.byContradiction fun hn => h fun x => ⟨fun h1 => hn ⟨x, Or.inl h1⟩, fun h1 => hn ⟨x, Or.inr h1⟩⟩
  · rintro ⟨x, h | h⟩ hb
    · exact (hb x).1 h
    · exact (hb x).2 h

theorem bare_beyond {s : Store} (hw : WF s) {k : Nat} (h : s.fresh ≤ k) : Bare s k := by
  intro x
  constructor
  · intro hx; have := hw.inside _ _ hx; omega
  · intro hx; have := hw.inside _ _ hx; omega

theorem turned_bare {v : Env} {t : Nat} {s s' : Store} {sg sg' : Seg} {p : Piece} (h : Turned v t s s' sg sg' p)
    {lo hi : Nat} (hf : Fwd p lo hi) (hlo : s.fresh ≤ lo) {k : Nat} (hk : k < s.fresh) (hb : Bare s k) : Bare s' k := by
  intro x
  constructor
  · intro hx
    rcases ((h.links x k).1 hx).2.2 with h1 | ⟨e, he, _, e2⟩ | ⟨_, z, hz, e2⟩ | ⟨_, h1⟩
    · exact (hb x).1 h1
    · have := (hf.inside.edges e he).2; omega
    · have := hf.inside.starts z hz; omega
    · exact (hb t).1 h1
  · intro hx
    rcases ((h.links k x).1 hx).2.2 with h1 | ⟨e, he, e1, _⟩ | ⟨h1, _⟩ | ⟨⟨z, hz, e1⟩, _⟩
    · exact (hb x).2 h1
    · have := (hf.inside.edges e he).1; omega
    · exact (hb t).2 h1
    · have := hf.inside.ends z hz; omega

/-- What can be reached of a new token. -/
theorem turned_new {v : Env} {t : Nat} {s s' : Store} {sg sg' : Seg} {p : Piece} (h : Turned v t s s' sg sg' p) (hw : WF s) (ht : t < s.fresh)
    (hF : ∀ x ∈ sg.first, x < s.fresh) (hL : ∀ x ∈ sg.last, x < s.fresh) {x : Nat} (hx : s.fresh ≤ x)
    (ha : x ∈ sg'.first ∨ x ∈ sg'.last ∨ ¬ Bare s' x) : ∃ n ∈ nodes p, n.id = x := by
  rcases ha with ha | ha | ha
  · rcases (h.first x).1 ha with ⟨h1, _⟩ | ⟨_, z, hz, e⟩
    · have := hF x h1; omega
    · exact ⟨z, mem_nodes.2 (Or.inl hz), e⟩
  · rcases (h.last x).1 ha with ⟨h1, _⟩ | ⟨_, z, hz, e⟩
    · have := hL x h1; omega
    · exact ⟨z, mem_nodes.2 (Or.inr (Or.inl hz)), e⟩
  · obtain ⟨y, hy | hy⟩ := bare_iff.1 ha
    · rcases ((h.links y x).1 hy).2.2 with h1 | ⟨e, he, _, e2⟩ | ⟨_, z, hz, e2⟩ | ⟨_, h1⟩
      · have := hw.inside _ _ h1; omega
      · exact ⟨e.2, mem_nodes.2 (Or.inr (Or.inr ⟨e, he, Or.inr rfl⟩)), e2⟩
      · exact ⟨z, mem_nodes.2 (Or.inl hz), e2⟩
      · have := hw.inside _ _ h1; omega
    · rcases ((h.links x y).1 hy).2.2 with h1 | ⟨e, he, e1, _⟩ | ⟨h1, _⟩ | ⟨⟨z, hz, e1⟩, _⟩
      · have := hw.inside _ _ h1; omega
      · exact ⟨e.1, mem_nodes.2 (Or.inr (Or.inr ⟨e, he, Or.inl rfl⟩)), e1⟩
      · have := hw.inside _ _ h1; omega
      · exact ⟨z, mem_nodes.2 (Or.inr (Or.inl hz)), e1⟩

theorem val_old {v : Env} {s : Store} (M : Nat → List Word → Prop) {t : Nat} {Q : List Nat} (hm : ¬ Marked (textOf v s t)) (E : Nat → Nat → Prop)
    (F L : Nat → Prop) (u : List Word) : Lang E F L (Val v s M Q) u ↔ Lang E F L (Val v s M (t :: Q)) u :=
  lang_congr (fun _ _ => Iff.rfl) (fun _ => Iff.rfl) (fun _ => Iff.rfl) (fun x u => val_plain hm x u) u

theorem expandToks_ran {f : Nat} {v : Env} : ∀ (R : List Nat) (s : Store) (sg : Seg), Ready f v R s sg →
    ∃ s' sg', expandToks f v R s sg = .ok (s', sg') ∧ Ran f v R s s' sg sg' := by
  intro R
  induction R with
  | nil =>
    intro s sg h
    refine ⟨s, sg, rfl, ⟨h.wf, Nat.le_refl _, fun _ _ => rfl, fun _ _ _ _ => rfl, fun _ _ h => h, fun y hy => ⟨h.firstBelow y hy, fun _ => hy⟩,
      fun y hy => ⟨h.lastBelow y hy, fun _ => hy⟩, by simp, ?_, ⟨rfl, rfl⟩, ?_⟩⟩
    · intro x hx ha
      exfalso
      rcases ha with ha | ha | ha
      · have := h.firstBelow x ha; omega
      · have := h.lastBelow x ha; omega
      · exact ha (bare_beyond h.wf hx)
    · intro M _ Q _ F F' L L' hF hL u
      have e1 : F' = F := by rcases hF with ⟨h1, h2⟩ | h1; · rw [h1, h2]
                             · exact h1.1
      have e2 : L' = L := by rcases hL with ⟨h1, h2⟩ | h1; · rw [h1, h2]
                             · exact h1.1
      rw [e1, e2]; exact Iff.rfl
  | cons t R ih =>
    intro s sg h
    have ht := h.below t List.mem_cons_self
    have htR : t ∉ R := (List.nodup_cons.1 h.nodup).1
    by_cases hm : Marked (textOf v s t)
    · obtain ⟨p, c, hp⟩ := h.parses t List.mem_cons_self hm s.fresh
      obtain ⟨s1, sg1, e1, h1⟩ := expandTok_turned h.wf ht hm (h.timed t List.mem_cons_self hm) (h.firstOnce t List.mem_cons_self) (h.lastOnce t List.mem_cons_self) hp
      have hf := fwd_parse _ _ _ _ _ hp
      have htext : ∀ r, r < s.fresh → textOf v s1 r = textOf v s r := fun r hr => textOf_eq (h1.old r hr)
      have hb : ∀ r ∈ R, r < s.fresh := fun r hr => h.below r (List.mem_cons_of_mem _ hr)
      have hfirst : ∀ y ∈ sg1.first, y < s1.fresh ∧ (y < s.fresh → y ∈ sg.first) := by
        intro y hy
        have hg := h1.grows
        rcases (h1.first y).1 hy with ⟨a, _⟩ | ⟨_, z, hz, e⟩
        · exact ⟨by have := h.firstBelow y a; omega, fun _ => a⟩
        · have := h1.ids z (mem_nodes.2 (Or.inl hz))
          exact ⟨by omega, fun _ => by omega⟩
      have hlast : ∀ y ∈ sg1.last, y < s1.fresh ∧ (y < s.fresh → y ∈ sg.last) := by
        intro y hy
        have hg := h1.grows
        rcases (h1.last y).1 hy with ⟨a, _⟩ | ⟨_, z, hz, e⟩
        · exact ⟨by have := h.lastBelow y a; omega, fun _ => a⟩
        · have := h1.ids z (mem_nodes.2 (Or.inr (Or.inl hz)))
          exact ⟨by omega, fun _ => by omega⟩
      have hready : Ready f v R s1 sg1 := by
        refine ⟨h1.wf, (List.nodup_cons.1 h.nodup).2, fun r hr => Nat.lt_of_lt_of_le (hb r hr) h1.grows, ?_, ?_, ?_, fun y hy => (hfirst y hy).1,
          fun y hy => (hlast y hy).1, ?_⟩
        · intro r hr hmr
          rw [htext r (hb r hr)] at hmr
          have ht := h.timed r (List.mem_cons_of_mem _ hr) hmr
          refine ⟨?_, ?_, ?_, ?_⟩
          · rw [h1.old r (hb r hr)]; exact ht.pos
          · rw [h1.old r (hb r hr)]; exact ht.order
          · rw [h1.old r (hb r hr), h1.time.1]
            exact fun hx => ht.first ((hfirst r hx).2 (hb r hr))
          · rw [h1.old r (hb r hr), h1.time.2]
            exact fun hx => ht.last ((hlast r hx).2 (hb r hr))
        · exact fun r hr => Nat.le_trans (h1.firstOnce r (hb r hr)) (h.firstOnce r (List.mem_cons_of_mem _ hr))
        · exact fun r hr => Nat.le_trans (h1.lastOnce r (hb r hr)) (h.lastOnce r (List.mem_cons_of_mem _ hr))
        · intro r hr hmr
          rw [htext r (hb r hr)] at hmr ⊢
          exact h.parses r (List.mem_cons_of_mem _ hr) hmr
      obtain ⟨s2, sg2, e2, h2⟩ := ih s1 sg1 hready
      refine ⟨s2, sg2, ?_, ⟨h2.wf, Nat.le_trans h1.grows h2.grows, ?_, ?_, ?_, ?_, ?_, ?_, ?_, ?_, ?_⟩⟩
      · unfold expandToks
        rw [e1]
        exact e2
      · intro k hk
        rw [h2.old k (Nat.lt_of_lt_of_le hk h1.grows), h1.old k hk]
      · intro x hx hxR hn
        have e := h1.same x hx (fun e => hxR (e ▸ List.mem_cons_self)) (hn t List.mem_cons_self)
        rw [h2.same x (Nat.lt_of_lt_of_le hx h1.grows) (fun hr => hxR (List.mem_cons_of_mem _ hr)) ?_, e]
        intro r hr
        rw [e]
        exact hn r (List.mem_cons_of_mem _ hr)
      · intro k hk hbk
        exact h2.bare k (Nat.lt_of_lt_of_le hk h1.grows) (turned_bare h1 hf (Nat.le_refl _) hk hbk)
      · intro y hy
        refine ⟨(h2.first y hy).1, fun hlt => ?_⟩
        exact (hfirst y ((h2.first y hy).2 (Nat.lt_of_lt_of_le hlt h1.grows))).2 hlt
      · intro y hy
        refine ⟨(h2.last y hy).1, fun hlt => ?_⟩
        exact (hlast y ((h2.last y hy).2 (Nat.lt_of_lt_of_le hlt h1.grows))).2 hlt
      · intro r hr hmr
        rcases List.mem_cons.1 hr with rfl | hr
        · have hlt := Nat.lt_of_lt_of_le ht h1.grows
          refine ⟨fun hx => ?_, fun hx => ?_, h2.bare r hlt h1.gone⟩
          · rcases (h1.first r).1 ((h2.first r hx).2 hlt) with ⟨_, a⟩ | ⟨_, z, hz, e⟩
            · exact a rfl
            · have := h1.ids z (mem_nodes.2 (Or.inl hz)); omega
          · rcases (h1.last r).1 ((h2.last r hx).2 hlt) with ⟨_, a⟩ | ⟨_, z, hz, e⟩
            · exact a rfl
            · have := h1.ids z (mem_nodes.2 (Or.inr (Or.inl hz))); omega
        · exact h2.gone r hr (by rw [htext r (hb r hr)]; exact hmr)
      · intro x hx ha
        by_cases hlt : x < s1.fresh
        · have hx1 : x ∈ sg1.first ∨ x ∈ sg1.last ∨ ¬ Bare s1 x := by
            rcases ha with a | a | a
            · exact Or.inl ((h2.first x a).2 hlt)
            · exact Or.inr (Or.inl ((h2.last x a).2 hlt))
            · exact Or.inr (Or.inr (fun hb => a (h2.bare x hlt hb)))
          obtain ⟨n, hn, e⟩ := turned_new h1 h.wf ht h.firstBelow h.lastBelow hx hx1
          refine ⟨t, List.mem_cons_self, hm, s.fresh, p, c, hp, n, hn, ?_⟩
          rw [h2.old x hlt, ← e, h1.new n hn]
        · obtain ⟨r, hr, hmr, c', p', c'', hp', n, hn, e⟩ := h2.new x (by omega) ha
          rw [htext r (hb r hr)] at hmr hp'
          rw [h1.old r (hb r hr)] at e
          exact ⟨r, List.mem_cons_of_mem _ hr, hmr, c', p', c'', hp', n, hn, e⟩
      · rw [h2.time.1, h2.time.2]; exact h1.time
      · intro M hM Q hQ F F' L L' hF hL u
        have hmid : ∃ F1, (∀ y, F1 y ↔ (F y ∧ y ≠ t) ∨ (F t ∧ ∃ z ∈ p.starts, z.id = y)) ∧ (∀ y, F y → y < s.fresh) ∧ Port s1.fresh R sg1.first sg2.first F1 F' := by
          rcases hF with ⟨rfl, rfl⟩ | ⟨rfl, a, b⟩
          · exact ⟨(· ∈ sg1.first), h1.first, h.firstBelow, Or.inl ⟨rfl, rfl⟩⟩
          · refine ⟨F', ?_, b, Or.inr ⟨rfl, fun r hr => a r (List.mem_cons_of_mem _ hr), fun x hx => Nat.lt_of_lt_of_le (b x hx) h1.grows⟩⟩
            intro y
            have := a t List.mem_cons_self
            constructor
            · exact fun hy => Or.inl ⟨hy, fun e => this (e ▸ hy)⟩
            · rintro (⟨hy, _⟩ | ⟨hy, _⟩)
              · exact hy
              · exact absurd hy this
        have hmid' : ∃ L1, (∀ y, L1 y ↔ (L y ∧ y ≠ t) ∨ (L t ∧ ∃ z ∈ p.ends, z.id = y)) ∧ (∀ y, L y → y < s.fresh) ∧ Port s1.fresh R sg1.last sg2.last L1 L' := by
          rcases hL with ⟨rfl, rfl⟩ | ⟨rfl, a, b⟩
          · exact ⟨(· ∈ sg1.last), h1.last, h.lastBelow, Or.inl ⟨rfl, rfl⟩⟩
          · refine ⟨L', ?_, b, Or.inr ⟨rfl, fun r hr => a r (List.mem_cons_of_mem _ hr), fun x hx => Nat.lt_of_lt_of_le (b x hx) h1.grows⟩⟩
            intro y
            have := a t List.mem_cons_self
            constructor
            · exact fun hy => Or.inl ⟨hy, fun e => this (e ▸ hy)⟩
            · rintro (⟨hy, _⟩ | ⟨hy, _⟩)
              · exact hy
              · exact absurd hy this
        obtain ⟨F1, f1, f2, f3⟩ := hmid
        obtain ⟨L1, l1, l2, l3⟩ := hmid'
        rw [h2.lang M ?_ Q (fun x hx => Nat.lt_of_lt_of_le (hQ x hx) h1.grows) F1 F' L1 L' f3 l3 u]
        · exact turned_lang h1 h.wf ht hm hp M (hM t List.mem_cons_self hm) (R ++ Q)
            (fun x hx => (List.mem_append.1 hx).elim (hb x) (hQ x)) F F1 L L1 f1 l1 f2 l2 u
        · intro r hr hmr
          unfold Parses
          rw [htext r (hb r hr)] at hmr ⊢
          rw [h1.old r (hb r hr)]
          exact hM r (List.mem_cons_of_mem _ hr) hmr
    · have e1 := expandTok_plain (f := f) (sg := sg) hm
      obtain ⟨s2, sg2, e2, h2⟩ := ih s sg ⟨h.wf, (List.nodup_cons.1 h.nodup).2, fun r hr => h.below r (List.mem_cons_of_mem _ hr),
        fun r hr => h.timed r (List.mem_cons_of_mem _ hr), fun r hr => h.firstOnce r (List.mem_cons_of_mem _ hr),
        fun r hr => h.lastOnce r (List.mem_cons_of_mem _ hr), h.firstBelow, h.lastBelow, fun r hr => h.parses r (List.mem_cons_of_mem _ hr)⟩
      refine ⟨s2, sg2, ?_, ⟨h2.wf, h2.grows, h2.old, ?_, h2.bare, h2.first, h2.last, ?_, ?_, h2.time, ?_⟩⟩
      · unfold expandToks
        rw [e1]
        exact e2
      · exact fun x hx hxR hn => h2.same x hx (fun hr => hxR (List.mem_cons_of_mem _ hr)) (fun r hr => hn r (List.mem_cons_of_mem _ hr))
      · intro r hr hmr
        rcases List.mem_cons.1 hr with rfl | hr
        · exact absurd hmr hm
        · exact h2.gone r hr hmr
      · intro x hx ha
        obtain ⟨r, hr, e⟩ := h2.new x hx ha
        exact ⟨r, List.mem_cons_of_mem _ hr, e⟩
      · intro M hM Q hQ F F' L L' hF hL u
        have weaken : ∀ {A A' : List Nat} {F F' : Nat → Prop}, Port s.fresh (t :: R) A A' F F' → Port s.fresh R A A' F F' := by
          rintro A A' F F' (a | ⟨a, b, c⟩)
          · exact Or.inl a
          · exact Or.inr ⟨a, fun r hr => b r (List.mem_cons_of_mem _ hr), c⟩
        rw [h2.lang M (fun r hr => hM r (List.mem_cons_of_mem _ hr)) Q hQ F F' L L' (weaken hF) (weaken hL) u, List.cons_append]
        exact val_old M hm _ _ _ u

end Verif.Expand
