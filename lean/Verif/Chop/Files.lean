import Verif.Chop.Loop
/-!
# Lemmas about labels and about whole files
-/
set_option autoImplicit false
namespace Verif.Chop
open Verif.Chan (Tok Word)

theorem bind_ok {A B : Type} {x : Out A} {f : A → Out B} {b : B} : x.bind f = .ok b ↔ ∃ a, x = .ok a ∧ f a = .ok b := by
  cases x with
  | undef => simp [Out.bind]
  | hang => simp [Out.bind]
  | fail => simp [Out.bind]
  | ok a => simp [Out.bind]

section
variable {K : Type} {ref hyp : List (Tok K)}

theorem labels_ok : ∀ {cs : List Chunk} {ls : List (K × Chunk)}, labels ref cs = .ok ls →
    ls.map (·.2) = cs ∧ ∀ p ∈ ls, ∃ w, IsAt ref p.2.rb w ∧ w.w.key = p.1
  | [], ls, h => by
    simp only [labels, Out.ok.injEq] at h
    subst h; exact ⟨rfl, fun p hp => by cases hp⟩
  | c :: cs, ls, h => by
    simp only [labels, bind_ok, get_ok, Out.ok.injEq] at h
    obtain ⟨w, hw, ls', hl, rfl⟩ := h
    obtain ⟨h1, h2⟩ := labels_ok hl
    refine ⟨by rw [List.map_cons, h1], fun p hp => ?_⟩
    rcases List.mem_cons.1 hp with rfl | hp
    · exact ⟨w, hw, rfl⟩
    · exact h2 p hp

/-- Labels are undefined or found. -/
theorem labels_sat {U : Prop} (hU : U) : ∀ (cs : List Chunk), Sat U (fun _ => True) (labels ref cs)
  | [] => trivial
  | c :: cs => by
    unfold labels
    refine Sat.bind (P := fun _ => True) ?_ fun w _ => Sat.bind (labels_sat hU cs) fun _ _ => trivial
    unfold get
    split
    · split
      · trivial
      · exact hU
    · exact hU

theorem scored_ok {Rs Re Hs He : Int} {ls : List (K × Chunk)} (hr : Range ref Rs Re) (hh : Range hyp Hs He)
    (h : scored ref hyp Rs Re Hs He = .ok ls) :
    Cuts ref hyp Re He Rs Hs (ls.map (·.2)) ∧ ∀ p ∈ ls, ∃ w, IsAt ref p.2.rb w ∧ w.w.key = p.1 := by
  unfold scored at h
  obtain ⟨cs, hc, hl⟩ := bind_ok.1 h
  obtain ⟨h1, h2⟩ := labels_ok hl
  have := channel_sat hr hh
  rw [hc] at this
  rw [h1]
  exact ⟨this, h2⟩

theorem scored_sat {Rs Re Hs He : Int} (hr : Range ref Rs Re) (hh : Range hyp Hs He) :
    Sat True (fun _ => True) (scored ref hyp Rs Re Hs He) :=
  Sat.bind (Sat.mono (channel_sat hr hh) fun _ => trivial) fun cs _ => labels_sat trivial cs

theorem get_sat' (l : List (Tok K)) (i : Int) : Sat True (fun w => IsAt l i w) (get l i) := by
  cases h : get l i with
  | undef => trivial
  | ok w => exact get_ok.1 h
  | hang =>
    unfold get at h
    split at h
    · split at h <;> cases h
    · cases h
  | fail =>
    unfold get at h
    split at h
    · split at h <;> cases h
    · cases h

theorem locate_bounds {X : Type} [DecidableEq X] (key : K → X) {l : List (Tok K)} {s : Int} {w : Tok K} (h : IsAt l s w) :
    s ≤ locate key l s ∧ locate key l s ≤ l.length := by
  obtain ⟨h1, h2⟩ := h
  obtain ⟨h3, h4⟩ := List.getElem?_eq_some_iff.1 h2
  have e : l.drop (s - 1).toNat = w :: l.drop ((s - 1).toNat + 1) := by rw [List.drop_eq_getElem_cons h3, h4]
  unfold locate
  rw [e]
  dsimp only
  have := (List.takeWhile_sublist (l := l.drop ((s - 1).toNat + 1)) (fun v => decide (key v.w.key = key w.w.key))).length_le
  rw [List.length_drop] at this
  omega

end

section
variable {F C : Type} [DecidableEq F] [DecidableEq C] {ref hyp : List (Tok (F × C))}

/-- Undefined, an error, or a result with `P`. -/
def Ends {A : Type} (P : A → Prop) : Out A → Prop
  | .undef => True
  | .hang => False
  | .fail => True
  | .ok a => P a

theorem Ends.bind {A B : Type} {P : A → Prop} {Q : B → Prop} {x : Out A} {f : A → Out B}
    (h : Ends P x) (hf : ∀ a, P a → Ends Q (f a)) : Ends Q (x.bind f) := by
  cases x with
  | undef => exact h
  | hang => exact h
  | fail => exact h
  | ok a => exact hf a h

theorem Sat.ends {A : Type} {U : Prop} {P : A → Prop} {x : Out A} (h : Sat U P x) : Ends P x := by
  cases x with
  | undef => trivial
  | hang => exact h
  | fail => trivial
  | ok a => exact h

theorem second_ends {l : List (Tok (F × C))} (s e : Int) (he : 1 ≤ e) :
    Ends (fun o => ∀ e2, o = some e2 → e + 1 ≤ e2 ∧ e2 ≤ l.length) (second l s e) := by
  unfold second
  by_cases h : e + 1 < l.length
  · rw [if_pos h]
    refine Ends.bind (get_sat' l s).ends fun a _ => Ends.bind (get_sat' l (e + 1)).ends fun b hb => ?_
    by_cases hk : a.w.key.1 = b.w.key.1
    · rw [if_pos hk]
      intro e2 h2
      obtain rfl := Option.some.inj h2
      exact locate_bounds _ hb
    · rw [if_neg hk]; intro e2 h2; cases h2
  · rw [if_neg h]; intro e2 h2; cases h2

theorem files_ends : ∀ (f : Nat) (rs hs : Int), 1 ≤ rs → 1 ≤ hs → (ref.length + 1 - rs).toNat + 1 ≤ f →
    Ends (fun _ => True) (files ref hyp f rs hs)
  | 0, rs, hs, _, _, h => by omega
  | f + 1, rs, hs, h1, h2, h => by
    unfold files
    split
    · trivial
    · refine Ends.bind (get_sat' ref rs).ends fun r hr => Ends.bind (get_sat' hyp hs).ends fun hw hhw => ?_
      split
      · trivial
      · obtain ⟨a1, a2⟩ := locate_bounds (fun (k : F × C) => k) hr
        obtain ⟨b1, b2⟩ := locate_bounds (fun (k : F × C) => k) hhw
        obtain ⟨c1, c2⟩ := locate_bounds Prod.fst hr
        obtain ⟨d1, d2⟩ := locate_bounds Prod.fst hhw
        generalize locate (fun (k : F × C) => k) ref rs = r1 at *
        generalize locate (fun (k : F × C) => k) hyp hs = e1 at *
        refine Ends.bind (second_ends rs r1 (by omega)) fun r2 hr2 => Ends.bind (second_ends hs e1 (by omega)) fun e2 he2 => ?_
        refine Ends.bind (P := fun _ => True) ?_ fun a _ => ?_
        · cases r2 with
          | none =>
            cases e2 with
            | none => exact (scored_sat ⟨by omega, by omega, by omega, a2⟩ ⟨by omega, by omega, by omega, b2⟩).ends
            | some e2 => trivial
          | some r2 =>
            cases e2 with
            | none => trivial
            | some e2 =>
              obtain ⟨r3, r4⟩ := hr2 r2 rfl
              obtain ⟨e3, e4⟩ := he2 e2 rfl
              unfold channels
              refine Ends.bind (scored_sat ⟨by omega, by omega, by omega, a2⟩ ⟨by omega, by omega, by omega, b2⟩).ends fun a _ => ?_
              refine Ends.bind (scored_sat ⟨by omega, by omega, by omega, r4⟩ ⟨by omega, by omega, by omega, e4⟩).ends fun b _ => ?_
              trivial
        · split
          · exact Ends.bind (files_ends f _ _ (by omega) (by omega) (by omega)) fun _ _ => trivial
          · trivial

/-- The run of equal keys at `s` is the block that begins there. -/
theorem locate_run {K X : Type} [DecidableEq X] (key : K → X) {l pre blk post : List (Tok K)} {k : X} (hl : l = pre ++ (blk ++ post))
    (hb : blk ≠ []) (hk : ∀ t ∈ blk, key t.w.key = k) (hp : ∀ t, post.head? = some t → key t.w.key ≠ k) :
    locate key l (pre.length + 1) = pre.length + blk.length := by
  unfold locate
  rw [hl, show ((pre.length : Int) + 1 - 1).toNat = pre.length by omega, List.drop_left]
  cases blk with
  | nil => exact absurd rfl hb
  | cons w ws =>
    rw [List.cons_append]
    dsimp only
    have e : (ws ++ post).takeWhile (fun v => decide (key v.w.key = key w.w.key)) = ws := by
      rw [hk w List.mem_cons_self]
      rw [List.takeWhile_append_of_pos (fun t ht => by rw [decide_eq_true_eq]; exact hk t (List.mem_cons_of_mem _ ht))]
      cases post with
      | nil => simp
      | cons p post =>
        rw [List.takeWhile_cons_of_neg (by rw [decide_eq_true_eq]; exact hp p rfl), List.append_nil]
    rw [e, List.length_cons]
    omega

theorem isAt_head {K : Type} {l pre post : List (Tok K)} {w : Tok K} (h : l = pre ++ w :: post) : IsAt l (pre.length + 1) w := by
  subst h
  refine ⟨by omega, ?_⟩
  rw [show ((pre.length : Int) + 1 - 1).toNat = pre.length by omega, List.getElem?_append_right (Nat.le_refl _), Nat.sub_self]
  rfl

theorem isAt_unique {K : Type} {l : List (Tok K)} {i : Int} {v w : Tok K} (h : IsAt l i v) (h' : IsAt l i w) : v = w :=
  Option.some.inj (h.2.symm.trans h'.2)

/-- The second channel: none in the table, another file, or another channel of the same file with at least two words or more
words after it. -/
theorem second_spec {l pre blk blk2 post : List (Tok (F × C))} {f : F} {a : C} (hl : l = pre ++ (blk ++ (blk2 ++ post)))
    (hb : OneChannel f a blk) (h2 : blk2 = [] ∧ (∀ t, post.head? = some t → t.w.key.1 ≠ f) ∨
      (∃ a', OneChannel f a' blk2) ∧ 2 ≤ (blk2 ++ post).length ∧ (∀ t, post.head? = some t → t.w.key.1 ≠ f)) :
    second l (pre.length + 1) (pre.length + blk.length) = .ok (if blk2 = [] then none else some (pre.length + blk.length + blk2.length)) := by
  obtain ⟨hb0, hbk⟩ := hb
  have hs : ∃ w, IsAt l (pre.length + 1) w ∧ w.w.key.1 = f := by
    cases blk with
    | nil => exact absurd rfl hb0
    | cons w ws => exact ⟨w, isAt_head (by rw [hl, List.cons_append]), by rw [hbk w List.mem_cons_self]⟩
  obtain ⟨w, hw, hwk⟩ := hs
  have hgw := get_ok.2 hw
  unfold second
  have hlen : (l.length : Int) = pre.length + blk.length + blk2.length + post.length := by
    rw [hl]; simp only [List.length_append]; omega
  have hcast : ((pre ++ blk).length : Int) = pre.length + blk.length := by rw [List.length_append]; omega
  rcases h2 with ⟨e, hp⟩ | ⟨⟨a', hb2, hbk2⟩, hlen2, hp⟩
  · rw [if_pos e]
    by_cases hc : (pre.length : Int) + blk.length + 1 < l.length
    · rw [if_pos hc, hgw]
      cases post with
      | nil => rw [e] at hlen; simp only [List.length_nil] at hlen; omega
      | cons p post =>
        have hp' : IsAt l (pre.length + blk.length + 1) p := by
          have : IsAt l ((pre ++ blk).length + 1) p := isAt_head (post := post) (by rw [hl, e]; simp)
          rwa [hcast] at this
        rw [get_ok.2 hp']
        simp only [Out.bind]
        rw [if_neg (by rw [hwk]; exact fun h => hp p rfl h.symm)]
    · rw [if_neg hc]
  · rw [if_neg hb2]
    rw [if_pos (by rw [List.length_append] at hlen2; omega), hgw]
    cases hb2e : blk2 with
    | nil => exact absurd hb2e hb2
    | cons p ps =>
      have hp' : IsAt l (pre.length + blk.length + 1) p := by
        have : IsAt l ((pre ++ blk).length + 1) p := isAt_head (post := ps ++ post) (by rw [hl, hb2e]; simp)
        rwa [hcast] at this
      rw [get_ok.2 hp']
      simp only [Out.bind]
      rw [if_pos (by rw [hwk, hbk2 p (by rw [hb2e]; exact List.mem_cons_self)])]
      have := locate_run (fun (k : F × C) => k) (l := l) (pre := pre ++ blk) (blk := blk2) (post := post) (k := (f, a'))
        (by rw [hl]; simp) hb2 hbk2 (fun t ht h => hp t ht (by rw [h]))
      rw [hcast] at this
      rw [this, hb2e]

theorem slice_mid {X : Type} {l pre blk post : List X} (hl : l = pre ++ (blk ++ post)) :
    slice l (pre.length + 1) (pre.length + blk.length) = blk := by
  unfold slice
  rw [hl, show ((pre.length : Int) + 1 - 1).toNat = pre.length by omega,
    show ((pre.length : Int) + blk.length + 1 - (pre.length + 1)).toNat = blk.length by omega, List.drop_left, List.take_left]

/-- A block of words as a range. -/
theorem range_mid {K : Type} {l pre blk post : List (Tok K)} (hl : l = pre ++ (blk ++ post)) (hb : blk ≠ []) :
    Range l (pre.length + 1) (pre.length + blk.length) := by
  have := List.length_pos_iff.2 hb
  refine ⟨by omega, by omega, by omega, ?_⟩
  rw [hl]; simp only [List.length_append]; omega

/-- The words of the chunks. -/
def refOf (ref : List (Tok (F × C))) (ls : List ((F × C) × Chunk)) : List (Tok (F × C)) := ls.flatMap (fun p => slice ref p.2.rb p.2.re)

/-- The words of the chunks. -/
def hypOf (hyp : List (Tok (F × C))) (ls : List ((F × C) × Chunk)) : List (Tok (F × C)) := ls.flatMap (fun p => slice hyp p.2.hb p.2.he)

theorem scored_mid {pr br qr ph bh qh : List (Tok (F × C))} (hr : ref = pr ++ (br ++ qr)) (hh : hyp = ph ++ (bh ++ qh))
    (hbr : br ≠ []) (hbh : bh ≠ []) :
    Sat True (fun ls => refOf ref ls = br ∧ hypOf hyp ls = bh)
      (scored ref hyp (pr.length + 1) (pr.length + br.length) (ph.length + 1) (ph.length + bh.length)) := by
  have h1 := range_mid hr hbr
  have h2 := range_mid hh hbh
  have h3 := scored_sat h1 h2
  cases h : scored ref hyp (pr.length + 1) (pr.length + br.length) (ph.length + 1) (ph.length + bh.length) with
  | undef => trivial
  | hang => rw [h] at h3; exact h3
  | fail => rw [h] at h3; exact h3
  | ok ls =>
    obtain ⟨hc, -⟩ := scored_ok h1 h2 h
    have a := hc.ref_words (by omega)
    have b := hc.hyp_words (by omega)
    rw [slice_mid hr, List.flatMap_map] at a
    rw [slice_mid hh, List.flatMap_map] at b
    exact ⟨a, b⟩

/-- The words of the second channel of the reference. -/
def ref2 (c : Conv F C) : List (Tok (F × C)) := match c.second with | some p => p.1 | none => []

/-- The words of the second channel of the hypothesis. -/
def hyp2 (c : Conv F C) : List (Tok (F × C)) := match c.second with | some p => p.2 | none => []

theorem channels_mid {c : Conv F C} (hc : c.Ok) {pr qr ph qh : List (Tok (F × C))} (hr : ref = pr ++ (c.ref1 ++ (ref2 c ++ qr)))
    (hh : hyp = ph ++ (c.hyp1 ++ (hyp2 c ++ qh))) :
    Sat True (fun ls => refOf ref ls = c.ref ∧ hypOf hyp ls = c.hyp)
      (channels ref hyp (pr.length + 1) (pr.length + c.ref1.length) (ph.length + 1) (ph.length + c.hyp1.length)
        (if ref2 c = [] then none else some (pr.length + c.ref1.length + (ref2 c).length))
        (if hyp2 c = [] then none else some (ph.length + c.hyp1.length + (hyp2 c).length))) := by
  obtain ⟨a, b, ha, hb, h2⟩ := hc
  cases hs : c.second with
  | none =>
    have e1 : ref2 c = [] := by unfold ref2; rw [hs]
    have e2 : hyp2 c = [] := by unfold hyp2; rw [hs]
    rw [if_pos e1, if_pos e2]
    refine Sat.imp (scored_mid hr hh ha.1 hb.1) fun ls hls => ?_
    refine ⟨hls.1.trans ?_, hls.2.trans ?_⟩
    · unfold Conv.ref; rw [hs, List.append_nil]
    · unfold Conv.hyp; rw [hs, List.append_nil]
  | some p =>
    have e1 : ref2 c = p.1 := by unfold ref2; rw [hs]
    have e2 : hyp2 c = p.2 := by unfold hyp2; rw [hs]
    obtain ⟨a', b', _, _, h3, h4⟩ := h2 p hs
    rw [e1] at hr ⊢
    rw [e2] at hh ⊢
    rw [if_neg h3.1, if_neg h4.1]
    unfold channels
    refine Sat.bind (scored_mid hr hh ha.1 hb.1) fun x hx => ?_
    have hr' : ref = (pr ++ c.ref1) ++ (p.1 ++ qr) := by rw [hr, List.append_assoc]
    have hh' : hyp = (ph ++ c.hyp1) ++ (p.2 ++ qh) := by rw [hh, List.append_assoc]
    have := scored_mid hr' hh' h3.1 h4.1
    rw [show (((pr ++ c.ref1).length : Nat) : Int) = pr.length + c.ref1.length by rw [List.length_append]; omega,
      show (((ph ++ c.hyp1).length : Nat) : Int) = ph.length + c.hyp1.length by rw [List.length_append]; omega] at this
    refine Sat.bind this fun y hy => ?_
    refine ⟨?_, ?_⟩
    · unfold Conv.ref
      rw [hs]
      dsimp only
      rw [← hx.1, ← hy.1]
      exact List.flatMap_append
    · unfold Conv.hyp
      rw [hs]
      dsimp only
      rw [← hx.2, ← hy.2]
      exact List.flatMap_append

theorem Conv.ref_eq (c : Conv F C) : c.ref = c.ref1 ++ ref2 c := rfl
theorem Conv.hyp_eq (c : Conv F C) : c.hyp = c.hyp1 ++ hyp2 c := rfl

theorem ref_key {c : Conv F C} (hc : c.Ok) : ∀ t ∈ c.ref, t.w.key.1 = c.name := by
  obtain ⟨a, b, ha, hb, h2⟩ := hc
  intro t ht
  rw [Conv.ref_eq] at ht
  rcases List.mem_append.1 ht with ht | ht
  · rw [ha.2 t ht]
  · unfold ref2 at ht
    cases hs : c.second with
    | none => rw [hs] at ht; cases ht
    | some p =>
      rw [hs] at ht
      obtain ⟨a', b', _, _, h3, h4⟩ := h2 p hs
      rw [h3.2 t ht]

theorem hyp_key {c : Conv F C} (hc : c.Ok) : ∀ t ∈ c.hyp, t.w.key.1 = c.name := by
  obtain ⟨a, b, ha, hb, h2⟩ := hc
  intro t ht
  rw [Conv.hyp_eq] at ht
  rcases List.mem_append.1 ht with ht | ht
  · rw [hb.2 t ht]
  · unfold hyp2 at ht
    cases hs : c.second with
    | none => rw [hs] at ht; cases ht
    | some p =>
      rw [hs] at ht
      obtain ⟨a', b', _, _, h3, h4⟩ := h2 p hs
      rw [h4.2 t ht]

theorem ref_ne {c : Conv F C} (hc : c.Ok) : c.ref ≠ [] := by
  obtain ⟨a, b, ha, hb, h2⟩ := hc
  rw [Conv.ref_eq]
  exact fun h => ha.1 (List.append_eq_nil_iff.1 h).1

theorem hyp_ne {c : Conv F C} (hc : c.Ok) : c.hyp ≠ [] := by
  obtain ⟨a, b, ha, hb, h2⟩ := hc
  rw [Conv.hyp_eq]
  exact fun h => hb.1 (List.append_eq_nil_iff.1 h).1

/-- The next word after the words of a file is of another file. -/
theorem next_file {g : Conv F C → List (Tok (F × C))} {c : Conv F C} {cs : List (Conv F C)} (hd : Distinct (c :: cs))
    (hne : ∀ d ∈ cs, g d ≠ []) (hk : ∀ d ∈ cs, ∀ t ∈ g d, t.w.key.1 = d.name) :
    ∀ t, (cs.flatMap g).head? = some t → t.w.key.1 ≠ c.name := by
  cases cs with
  | nil => intro t ht; cases ht
  | cons d cs =>
    intro t ht
    rw [List.flatMap_cons] at ht
    have hm : t ∈ g d := by
      cases hg : g d with
      | nil => exact absurd hg (hne d List.mem_cons_self)
      | cons x xs =>
        rw [hg] at ht
        simp only [List.cons_append, List.head?_cons, Option.some.injEq] at ht
        rw [ht]; exact List.mem_cons_self
    rw [hk d List.mem_cons_self t hm]
    exact hd.1 d rfl

theorem files_cover : ∀ (cs : List (Conv F C)) (pr ph : List (Tok (F × C))) (f : Nat), cs ≠ [] → (∀ c ∈ cs, c.Ok) → Distinct cs →
    (∀ c p, cs.getLast? = some c → c.second = some p → 2 ≤ p.1.length ∧ 2 ≤ p.2.length) →
    ref = pr ++ cs.flatMap Conv.ref → hyp = ph ++ cs.flatMap Conv.hyp → cs.length ≤ f →
    Sat True (fun ls => refOf ref ls = cs.flatMap Conv.ref ∧ hypOf hyp ls = cs.flatMap Conv.hyp)
      (files ref hyp f (pr.length + 1) (ph.length + 1))
  | [], _, _, _, h, _, _, _, _, _, _ => absurd rfl h
  | c :: cs, pr, ph, 0, _, _, _, _, _, _, h => by simp at h
  | c :: cs, pr, ph, f + 1, _, hok, hd, hlast, hr, hh, hf => by
    have hc := hok c List.mem_cons_self
    have hok' : ∀ d ∈ cs, d.Ok := fun d h => hok d (List.mem_cons_of_mem _ h)
    rw [List.flatMap_cons] at hr hh
    have hr1 : ref = pr ++ (c.ref1 ++ (ref2 c ++ cs.flatMap Conv.ref)) := by rw [hr, Conv.ref_eq, List.append_assoc]
    have hh1 : hyp = ph ++ (c.hyp1 ++ (hyp2 c ++ cs.flatMap Conv.hyp)) := by rw [hh, Conv.hyp_eq, List.append_assoc]
    have hnr := next_file hd (fun d h => ref_ne (hok' d h)) (fun d h => ref_key (hok' d h))
    have hnh := next_file hd (fun d h => hyp_ne (hok' d h)) (fun d h => hyp_key (hok' d h))
    have hc' := hc
    obtain ⟨a, b, ha, hb, h2⟩ := hc'
    obtain ⟨rw', rws, hre⟩ := List.exists_cons_of_ne_nil ha.1
    obtain ⟨hw', hws, hhe⟩ := List.exists_cons_of_ne_nil hb.1
    have gr : IsAt ref (pr.length + 1) rw' := isAt_head (post := rws ++ (ref2 c ++ cs.flatMap Conv.ref)) (by rw [hr1, hre]; rfl)
    have gh : IsAt hyp (ph.length + 1) hw' := isAt_head (post := hws ++ (hyp2 c ++ cs.flatMap Conv.hyp)) (by rw [hh1, hhe]; rfl)
    have kr : rw'.w.key.1 = c.name := by rw [ha.2 rw' (by rw [hre]; exact List.mem_cons_self)]
    have kh : hw'.w.key.1 = c.name := by rw [hb.2 hw' (by rw [hhe]; exact List.mem_cons_self)]
    have rng1 := range_mid hr (ref_ne hc)
    have rng2 := range_mid hh (hyp_ne hc)
    -- the length of what follows a second channel
    have hl2 : ∀ p, c.second = some p → 2 ≤ (p.1 ++ cs.flatMap Conv.ref).length ∧ 2 ≤ (p.2 ++ cs.flatMap Conv.hyp).length := by
      intro p hp
      obtain ⟨a', b', _, _, h3, h4⟩ := h2 p hp
      have l1 := List.length_pos_iff.2 h3.1
      have l2 := List.length_pos_iff.2 h4.1
      rw [List.length_append, List.length_append]
      cases hcs : cs with
      | nil =>
        have := hlast c p (by rw [hcs]; rfl) hp
        simp only [List.flatMap_nil, List.length_nil]
        omega
      | cons d ds =>
        have m1 := List.length_pos_iff.2 (ref_ne (hok' d (by rw [hcs]; exact List.mem_cons_self)))
        have m2 := List.length_pos_iff.2 (hyp_ne (hok' d (by rw [hcs]; exact List.mem_cons_self)))
        rw [List.flatMap_cons, List.flatMap_cons, List.length_append, List.length_append]
        omega
    have hr2key : ∀ t, (ref2 c ++ cs.flatMap Conv.ref).head? = some t → t.w.key ≠ (c.name, a) := by
      intro t ht
      unfold ref2 at ht
      cases hs : c.second with
      | none => rw [hs] at ht; exact fun h => hnr t ht (by rw [h])
      | some p =>
        rw [hs] at ht
        obtain ⟨a', b', n1, n2, h3, h4⟩ := h2 p hs
        obtain ⟨x, xs, hx⟩ := List.exists_cons_of_ne_nil h3.1
        dsimp only at ht
        rw [hx] at ht
        simp only [List.cons_append, List.head?_cons, Option.some.injEq] at ht
        rw [← ht, h3.2 x (by rw [hx]; exact List.mem_cons_self)]
        exact fun h => n1 (Prod.ext_iff.1 h).2
    have hh2key : ∀ t, (hyp2 c ++ cs.flatMap Conv.hyp).head? = some t → t.w.key ≠ (c.name, b) := by
      intro t ht
      unfold hyp2 at ht
      cases hs : c.second with
      | none => rw [hs] at ht; exact fun h => hnh t ht (by rw [h])
      | some p =>
        rw [hs] at ht
        obtain ⟨a', b', n1, n2, h3, h4⟩ := h2 p hs
        obtain ⟨x, xs, hx⟩ := List.exists_cons_of_ne_nil h4.1
        dsimp only at ht
        rw [hx] at ht
        simp only [List.cons_append, List.head?_cons, Option.some.injEq] at ht
        rw [← ht, h4.2 x (by rw [hx]; exact List.mem_cons_self)]
        exact fun h => n2 (Prod.ext_iff.1 h).2
    have el1 := locate_run (fun (k : F × C) => k) hr1 ha.1 ha.2 hr2key
    have el2 := locate_run (fun (k : F × C) => k) hh1 hb.1 hb.2 hh2key
    have el3 := locate_run Prod.fst hr (ref_ne hc) (ref_key hc) hnr
    have el4 := locate_run Prod.fst hh (hyp_ne hc) (hyp_key hc) hnh
    have es1 := second_spec hr1 ha (by
      unfold ref2
      cases hs : c.second with
      | none => exact Or.inl ⟨rfl, hnr⟩
      | some p =>
        obtain ⟨a', b', _, _, h3, h4⟩ := h2 p hs
        exact Or.inr ⟨⟨a', h3⟩, (hl2 p hs).1, hnr⟩)
    have es2 := second_spec hh1 hb (by
      unfold hyp2
      cases hs : c.second with
      | none => exact Or.inl ⟨rfl, hnh⟩
      | some p =>
        obtain ⟨a', b', _, _, h3, h4⟩ := h2 p hs
        exact Or.inr ⟨⟨b', h4⟩, (hl2 p hs).2, hnh⟩)
    unfold files
    have := rng1.high
    have := rng2.high
    have := List.length_pos_iff.2 (ref_ne hc)
    have := List.length_pos_iff.2 (hyp_ne hc)
    rw [if_neg (by omega), get_ok.2 gr, get_ok.2 gh]
    simp only [Out.bind]
    rw [if_neg (by rw [kr, kh]; exact fun h => h rfl), el1, el2, el3, el4, es1, es2]
    simp only [Out.bind]
    refine Sat.bind (channels_mid hc hr1 hh1) fun ls hls => ?_
    cases hcs : cs with
    | nil =>
      rw [hcs] at hr hh
      have z1 : (ref.length : Int) = pr.length + c.ref.length := by rw [hr]; simp
      have z2 : (hyp.length : Int) = ph.length + c.hyp.length := by rw [hh]; simp
      rw [if_neg (by omega)]
      refine ⟨hls.1.trans ?_, hls.2.trans ?_⟩ <;> simp
    | cons d ds =>
      rw [hcs] at hr hh
      have m1 := List.length_pos_iff.2 (ref_ne (hok' d (by rw [hcs]; exact List.mem_cons_self)))
      have z1 : (ref.length : Int) = pr.length + c.ref.length + ((d :: ds).flatMap Conv.ref).length := by
        rw [hr]; simp only [List.length_append]; omega
      rw [List.flatMap_cons, List.length_append] at z1
      rw [if_pos (by omega)]
      have ih := files_cover (d :: ds) (pr ++ c.ref) (ph ++ c.hyp) f (by simp) (hcs ▸ hok') (hcs ▸ hd.2)
        (fun x p hx hp => hlast x p (by rw [hcs, List.getLast?_cons_cons]; exact hx) hp) (by rw [hr, List.append_assoc])
        (by rw [hh, List.append_assoc]) (by rw [hcs] at hf; simp only [List.length_cons] at hf ⊢; omega)
      rw [show (((pr ++ c.ref).length : Nat) : Int) = pr.length + c.ref.length by rw [List.length_append]; omega,
        show (((ph ++ c.hyp).length : Nat) : Int) = ph.length + c.hyp.length by rw [List.length_append]; omega] at ih
      refine Sat.bind ih fun ls2 hls2 => ?_
      refine ⟨?_, ?_⟩
      · rw [List.flatMap_cons, ← hls.1, ← hls2.1]; exact List.flatMap_append
      · rw [List.flatMap_cons, ← hls.2, ← hls2.2]; exact List.flatMap_append

end

end Verif.Chop
