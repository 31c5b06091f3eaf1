import Verif.Segmentor.Spec
/-!
# Helper lemmas for the segmentor
-/
set_option autoImplicit false
namespace Verif.Segmentor

/-- The segment belongs to the source and channel. -/
def keyed (src ch : String) (g : Seg) : Bool := decide (g.source = src) && decide (g.channel = ch)

theorem keyed_iff (src ch : String) (g : Seg) : keyed src ch g = true ↔ g.source = src ∧ g.channel = ch := by
  simp [keyed]

theorem nextLoop_eq (t : Int) (src ch : String) (sp : Speech) : ∀ (last : Int), last ≤ t →
    nextLoop t src ch last sp = (sp.filter (keyed src ch)).find? fun g => decide (g.stop > t) := by
  induction sp with
  | nil => intro last _; rfl
  | cons g gs ih =>
    intro last h
    by_cases hk : g.source = src ∧ g.channel = ch
    · have hk' : keyed src ch g = true := (keyed_iff _ _ _).2 hk
      rw [List.filter_cons_of_pos hk', List.find?_cons]
      unfold nextLoop
      rw [if_pos hk]
      by_cases hs : g.stop > t
      · rw [if_pos ⟨hs, h⟩]; simp [hs]
      · rw [if_neg (fun c => hs c.1), ih _ (by omega)]; simp [hs]
    · have hk' : ¬ keyed src ch g = true := fun c => hk ((keyed_iff _ _ _).1 c)
      rw [List.filter_cons_of_neg hk']
      unfold nextLoop
      rw [if_neg hk]
      exact ih last h

theorem nextSegment_none (sp : Speech) (t : Int) (src ch : String) (ht : 0 ≤ t)
    (h : nextSegment sp t src ch = none) : ∀ x ∈ sp, keyed src ch x = true → x.stop ≤ t := by
  intro x hx hk
  unfold nextSegment at h
  rw [nextLoop_eq t src ch sp 0 ht, List.find?_eq_none] at h
  have := h x (List.mem_filter.2 ⟨hx, hk⟩)
  simp at this
  omega

theorem nextSegment_some (sp : Speech) (t : Int) (src ch : String) (ht : 0 ≤ t) (g : Seg)
    (hp : ∀ x ∈ sp, Proper x) (ho : InOrder sp) (h : nextSegment sp t src ch = some g) :
    g ∈ sp ∧ keyed src ch g = true ∧ g.stop > t ∧
      ∀ x ∈ sp, keyed src ch x = true → x.stop > t → g.start ≤ x.start := by
  unfold nextSegment at h
  rw [nextLoop_eq t src ch sp 0 ht] at h
  have hm := List.mem_filter.1 (List.mem_of_find?_eq_some h)
  refine ⟨hm.1, hm.2, by simpa using List.find?_some h, ?_⟩
  rw [List.find?_eq_some_iff_append] at h
  obtain ⟨_, as, bs, e, hno⟩ := h
  intro x hx hk hs
  have hx' : x ∈ as ++ g :: bs := e ▸ List.mem_filter.2 ⟨hx, hk⟩
  have hpw : (as ++ g :: bs).Pairwise (fun x y => SameKey x y → x.stop ≤ y.start) := by
    rw [← e]; exact List.Pairwise.filter _ ho
  rw [List.mem_append, List.mem_cons] at hx'
  rcases hx' with hx' | hx' | hx'
  · have := hno x hx'; simp at this; omega
  · rw [hx']; exact Int.le_refl _
  · have h1 := (List.pairwise_cons.1 (List.pairwise_append.1 hpw).2.1).1 x hx'
    have k1 := (keyed_iff _ _ _).1 hk
    have k2 := (keyed_iff _ _ _).1 hm.2
    have h2 := h1 ⟨by rw [k1.1, k2.1], by rw [k1.2, k2.2]⟩
    have := (hp g hm.1).2.1
    omega

/-- References as the theorems assume them. -/
def Good (ss : SpeechSet) : Prop := ∀ sp ∈ ss, (∀ x ∈ sp, Proper x) ∧ InOrder sp

theorem Good.tail {sp : Speech} {ss : SpeechSet} (h : Good (sp :: ss)) : Good ss :=
  fun s hs => h s (List.mem_cons_of_mem _ hs)

theorem Good.proper {ss : SpeechSet} (h : Good ss) {x : Seg} (hx : x ∈ ss.flatten) : Proper x := by
  obtain ⟨sp, h1, h2⟩ := List.mem_flatten.1 hx
  exact (h sp h1).1 x h2

theorem firstLoop_spec (t : Int) (src ch : String) (ht : 0 ≤ t) : ∀ (ss : SpeechSet), Good ss →
    ∀ (m : Int) (r : Option Seg),
    (firstLoop t src ch ss m r = r ∧
      ∀ x ∈ ss.flatten, keyed src ch x = true → x.stop > t → m ≤ x.start) ∨
    (∃ g, firstLoop t src ch ss m r = some g ∧ g ∈ ss.flatten ∧ keyed src ch g = true ∧ g.stop > t ∧
      g.start < m ∧ ∀ x ∈ ss.flatten, keyed src ch x = true → x.stop > t → g.start ≤ x.start) := by
  intro ss
  induction ss with
  | nil => intro _ m r; left; exact ⟨rfl, by simp⟩
  | cons sp sps ih =>
    intro hg m r
    unfold firstLoop
    cases hn : nextSegment sp t src ch with
    | none =>
      simp only
      have hno := nextSegment_none sp t src ch ht hn
      rcases ih hg.tail m r with ⟨e, h⟩ | ⟨g, e, g1, g2, g3, g4, g5⟩
      · left
        refine ⟨e, ?_⟩
        intro x hx hk hs
        rw [List.flatten_cons, List.mem_append] at hx
        rcases hx with hx | hx
        · have := hno x hx hk; omega
        · exact h x hx hk hs
      · right
        refine ⟨g, e, by simp [g1], g2, g3, g4, ?_⟩
        intro x hx hk hs
        rw [List.flatten_cons, List.mem_append] at hx
        rcases hx with hx | hx
        · have := hno x hx hk; omega
        · exact g5 x hx hk hs
    | some g =>
      simp only
      obtain ⟨a1, a2, a3, a4⟩ := nextSegment_some sp t src ch ht g (hg sp (by simp)).1 (hg sp (by simp)).2 hn
      by_cases hm : g.start < m
      · rw [if_pos hm]
        right
        rcases ih hg.tail g.start (some g) with ⟨e, h⟩ | ⟨g', e, g1, g2, g3, g4, g5⟩
        · refine ⟨g, e, by simp [a1], a2, a3, hm, ?_⟩
          intro x hx hk hs
          rw [List.flatten_cons, List.mem_append] at hx
          rcases hx with hx | hx
          · exact a4 x hx hk hs
          · exact h x hx hk hs
        · refine ⟨g', e, by simp [g1], g2, g3, by omega, ?_⟩
          intro x hx hk hs
          rw [List.flatten_cons, List.mem_append] at hx
          rcases hx with hx | hx
          · have := a4 x hx hk hs; omega
          · exact g5 x hx hk hs
      · rw [if_neg hm]
        rcases ih hg.tail m r with ⟨e, h⟩ | ⟨g', e, g1, g2, g3, g4, g5⟩
        · left
          refine ⟨e, ?_⟩
          intro x hx hk hs
          rw [List.flatten_cons, List.mem_append] at hx
          rcases hx with hx | hx
          · have := a4 x hx hk hs; omega
          · exact h x hx hk hs
        · right
          refine ⟨g', e, by simp [g1], g2, g3, g4, ?_⟩
          intro x hx hk hs
          rw [List.flatten_cons, List.mem_append] at hx
          rcases hx with hx | hx
          · have := a4 x hx hk hs; omega
          · exact g5 x hx hk hs

theorem getFirst_none (ss : SpeechSet) (hg : Good ss) (t : Int) (src ch : String) (ht : 0 ≤ t)
    (h : getFirst ss t src ch = none) : ∀ x ∈ ss.flatten, keyed src ch x = true → x.stop ≤ t := by
  intro x hx hk
  rcases firstLoop_spec t src ch ht ss hg intMax none with ⟨_, h2⟩ | ⟨g, e, _⟩
  · apply Int.not_lt.1
    intro hs
    have h3 := h2 x hx hk hs
    have h4 := hg.proper hx
    unfold intMax at h3
    have := h4.2
    omega
  · unfold getFirst at h; rw [h] at e; cases e

theorem getFirst_some (ss : SpeechSet) (hg : Good ss) (t : Int) (src ch : String) (ht : 0 ≤ t) (g : Seg)
    (h : getFirst ss t src ch = some g) : g ∈ ss.flatten ∧ keyed src ch g = true ∧ g.stop > t ∧
      ∀ x ∈ ss.flatten, keyed src ch x = true → x.stop > t → g.start ≤ x.start := by
  rcases firstLoop_spec t src ch ht ss hg intMax none with ⟨e, _⟩ | ⟨g', e, g1, g2, g3, _, g5⟩
  · unfold getFirst at h; rw [h] at e; cases e
  · unfold getFirst at h; rw [h] at e; injection e with e; subst e; exact ⟨g1, g2, g3, g5⟩

theorem lastPass_spec (src ch : String) : ∀ (ss : SpeechSet), Good ss → ∀ (last : Seg) (again : Bool),
    0 ≤ last.stop →
    ((lastPass src ch ss last again = (last, again)) ∧
      ∀ x ∈ ss.flatten, keyed src ch x = true → x.stop > last.stop → last.stop ≤ x.start) ∨
    (∃ l, lastPass src ch ss last again = (l, true) ∧ last.stop < l.stop ∧ l ∈ ss.flatten ∧
      keyed src ch l = true) := by
  intro ss
  induction ss with
  | nil => intro _ last again _; left; exact ⟨rfl, by simp⟩
  | cons sp sps ih =>
    intro hg last again h0
    unfold lastPass
    cases hn : nextSegment sp last.stop src ch with
    | none =>
      simp only
      have hno := nextSegment_none sp _ src ch h0 hn
      rcases ih hg.tail last again h0 with ⟨e, h⟩ | ⟨l, e, h1, h2, h3⟩
      · left
        refine ⟨e, ?_⟩
        intro x hx hk hs
        rw [List.flatten_cons, List.mem_append] at hx
        rcases hx with hx | hx
        · have := hno x hx hk; omega
        · exact h x hx hk hs
      · right; exact ⟨l, e, h1, by simp [h2], h3⟩
    | some g =>
      simp only
      obtain ⟨a1, a2, a3, a4⟩ :=
        nextSegment_some sp _ src ch h0 g (hg sp (by simp)).1 (hg sp (by simp)).2 hn
      by_cases hs : g.start < last.stop
      · rw [if_pos hs]
        right
        rcases ih hg.tail g true (by omega) with ⟨e, _⟩ | ⟨l, e, h1, h2, h3⟩
        · exact ⟨g, e, a3, by simp [a1], a2⟩
        · exact ⟨l, e, by omega, by simp [h2], h3⟩
      · rw [if_neg hs]
        rcases ih hg.tail last again h0 with ⟨e, h⟩ | ⟨l, e, h1, h2, h3⟩
        · left
          refine ⟨e, ?_⟩
          intro x hx hk hx2
          rw [List.flatten_cons, List.mem_append] at hx
          rcases hx with hx | hx
          · have := a4 x hx hk hx2; omega
          · exact h x hx hk hx2
        · right; exact ⟨l, e, h1, by simp [h2], h3⟩

theorem countP_lt_of {α : Type} (p q : α → Bool) : ∀ (l : List α), (∀ x ∈ l, q x = true → p x = true) →
    (∃ x ∈ l, p x = true ∧ q x = false) → l.countP q < l.countP p := by
  intro l
  induction l with
  | nil => intro _ h; obtain ⟨x, hx, _⟩ := h; cases hx
  | cons a l ih =>
    intro h1 h2
    have hle : l.countP q ≤ l.countP p := List.countP_mono_left fun x hx => h1 x (by simp [hx])
    rw [List.countP_cons, List.countP_cons]
    obtain ⟨x, hx, hpx, hqx⟩ := h2
    rcases List.mem_cons.1 hx with e | hx
    · subst e; simp [hpx, hqx]; omega
    · have := ih (fun y hy => h1 y (by simp [hy])) ⟨x, hx, hpx, hqx⟩
      by_cases hq : q a = true
      · have := h1 a (by simp) hq; simp [hq, this]; omega
      · simp [hq]; split <;> omega

theorem lastLoop_spec (ss : SpeechSet) (hg : Good ss) (src ch : String) : ∀ (fuel : Nat) (last : Seg),
    last ∈ ss.flatten → keyed src ch last = true →
    ss.flatten.countP (fun x => decide (x.stop > last.stop)) < fuel →
    ∃ l, lastLoop ss src ch fuel last = some l ∧ last.stop ≤ l.stop ∧ l ∈ ss.flatten ∧
      keyed src ch l = true ∧
      ∀ x ∈ ss.flatten, keyed src ch x = true → x.stop > l.stop → l.stop ≤ x.start := by
  intro fuel
  induction fuel with
  | zero => intro last _ _ h; omega
  | succ fuel ih =>
    intro last hm hk hf
    have hp := hg.proper hm
    unfold lastLoop
    rcases lastPass_spec src ch ss hg last false (by have := hp.1; have := hp.2.1; omega) with
      ⟨e, h⟩ | ⟨l, e, h1, h2, h3⟩
    · rw [e]; exact ⟨last, rfl, Int.le_refl _, hm, hk, h⟩
    · rw [e]
      simp only
      have hc : ss.flatten.countP (fun x => decide (x.stop > l.stop)) <
          ss.flatten.countP (fun x => decide (x.stop > last.stop)) := by
        apply countP_lt_of
        · intro x _ hx; simp at hx ⊢; omega
        · exact ⟨l, h2, by simpa using h1, by simp⟩
      obtain ⟨l', e', g1, g2, g3, g4⟩ := ih l h2 h3 (by omega)
      exact ⟨l', e', by omega, g2, g3, g4⟩

/-- A moment of the recording and channel at which someone speaks. -/
def Spoken (ss : SpeechSet) (src ch : String) (t : Int) : Prop :=
  ∃ x ∈ ss.flatten, keyed src ch x = true ∧ x.start ≤ t ∧ t < x.stop

theorem nextLoop_mem (t : Int) (src ch : String) (sp : Speech) : ∀ (last : Int) (g : Seg),
    nextLoop t src ch last sp = some g → g ∈ sp ∧ keyed src ch g = true := by
  induction sp with
  | nil => intro last g h; cases h
  | cons x gs ih =>
    intro last g h
    unfold nextLoop at h
    split at h
    · rename_i hk
      split at h
      · cases h; exact ⟨by simp, (keyed_iff _ _ _).2 hk⟩
      · have := ih _ _ h; exact ⟨by simp [this.1], this.2⟩
    · have := ih _ _ h; exact ⟨by simp [this.1], this.2⟩

theorem lastPass_fill (all : SpeechSet) (src ch : String) (a : Int) : ∀ (ss : SpeechSet), (∀ sp ∈ ss, sp ∈ all) →
    ∀ (last : Seg) (again : Bool), (∀ t, a ≤ t → t < last.stop → Spoken all src ch t) →
    ∀ t, a ≤ t → t < (lastPass src ch ss last again).1.stop → Spoken all src ch t := by
  intro ss
  induction ss with
  | nil => intro _ last again h; exact h
  | cons sp sps ih =>
    intro hs last again h
    have ih := ih (fun q hq => hs q (by simp [hq]))
    unfold lastPass
    cases hn : nextSegment sp last.stop src ch with
    | none => exact ih last again h
    | some g =>
      simp only
      have hm := nextLoop_mem _ _ _ _ _ _ hn
      by_cases hgl : g.start < last.stop
      · rw [if_pos hgl]
        refine ih g true ?_
        intro t h1 h2
        rcases Int.lt_or_le t last.stop with h3 | h3
        · exact h t h1 h3
        · exact ⟨g, List.mem_flatten.2 ⟨sp, hs sp (by simp), hm.1⟩, hm.2, by omega, h2⟩
      · rw [if_neg hgl]; exact ih last again h

/-- From the start of the first segment to the end of the last one there is always someone speaking. -/
theorem lastLoop_fill (ss : SpeechSet) (src ch : String) (a : Int) : ∀ (fuel : Nat) (last l : Seg),
    (∀ t, a ≤ t → t < last.stop → Spoken ss src ch t) → lastLoop ss src ch fuel last = some l →
    ∀ t, a ≤ t → t < l.stop → Spoken ss src ch t := by
  intro fuel
  induction fuel with
  | zero => intro last l _ h; cases h
  | succ fuel ih =>
    intro last l h hl
    have hp := lastPass_fill ss src ch a ss (fun _ h => h) last false h
    unfold lastLoop at hl
    cases hq : lastPass src ch ss last false with
    | mk l' b =>
      rw [hq] at hl hp
      cases b with
      | true => exact ih l' l hp hl
      | false => cases hl; exact hp

theorem mem_setInsert (x y : String) : ∀ (l : List String), y ∈ setInsert x l ↔ y = x ∨ y ∈ l := by
  intro l
  induction l with
  | nil => simp [setInsert]
  | cons a l ih =>
    unfold setInsert
    split
    · rename_i h; subst h; simp
    · split
      · simp
      · rw [List.mem_cons, ih, List.mem_cons]
        constructor
        · rintro (h | h | h)
          · exact Or.inr (Or.inl h)
          · exact Or.inl h
          · exact Or.inr (Or.inr h)
        · rintro (h | h | h)
          · exact Or.inr (Or.inl h)
          · exact Or.inl h
          · exact Or.inr (Or.inr h)

/-- Strictly increasing. -/
def Incr (l : List String) : Prop := l.Pairwise (· < ·)

theorem setInsert_incr (x : String) : ∀ (l : List String), Incr l → Incr (setInsert x l) := by
  intro l
  induction l with
  | nil => intro _; simp [setInsert, Incr]
  | cons a l ih =>
    intro h
    unfold setInsert
    have h' := List.pairwise_cons.1 h
    split
    · exact h
    · rename_i hne
      split
      · rename_i hlt
        refine List.pairwise_cons.2 ⟨?_, h⟩
        intro y hy
        rcases List.mem_cons.1 hy with e | hy
        · subst e; exact hlt
        · exact String.lt_trans hlt (h'.1 y hy)
      · rename_i hlt
        refine List.pairwise_cons.2 ⟨?_, ih h'.2⟩
        intro y hy
        rcases (mem_setInsert x y l).1 hy with e | hy
        · subst e
          have h1 : a ≤ y := String.not_lt.1 hlt
          apply String.not_le.1
          intro h2
          exact hne (String.le_antisymm h2 h1)
        · exact h'.1 y hy

theorem Incr.nodup {l : List String} (h : Incr l) : l.Nodup :=
  List.Pairwise.imp (fun {a b} hab e => by subst e; exact String.lt_irrefl _ hab) h

theorem collect_spec : ∀ (gs : List Seg) (ss : List String) (cs : String → List String),
    Incr ss → (∀ s, Incr (cs s)) → (∀ s, s ∈ ss ↔ cs s ≠ []) →
    let r := collect gs (ss, cs)
    Incr r.1 ∧ (∀ s, Incr (r.2 s)) ∧ (∀ s, s ∈ r.1 ↔ r.2 s ≠ []) ∧
      (∀ s c, c ∈ r.2 s ↔ (c ∈ cs s ∨ ∃ g ∈ gs, g.source = s ∧ g.channel = c)) := by
  intro gs
  induction gs with
  | nil => intro ss cs h1 h2 h3; exact ⟨h1, h2, h3, by intro s c; simp [collect]⟩
  | cons g gs ih =>
    intro ss cs h1 h2 h3
    have ne : ∀ l : List String, setInsert g.channel l ≠ [] := by
      intro l e
      have : g.channel ∈ setInsert g.channel l := (mem_setInsert _ _ _).2 (Or.inl rfl)
      rw [e] at this; cases this
    obtain ⟨i1, i2, i3, i4⟩ := ih (setInsert g.source ss)
      (fun s => if s = g.source then setInsert g.channel (cs s) else cs s)
      (setInsert_incr _ _ h1)
      (by intro s; split
          · exact setInsert_incr _ _ (h2 s)
          · exact h2 s)
      (by intro s; rw [mem_setInsert]; split
          · rename_i e; simp [e, ne]
          · rename_i e; rw [← h3]; simp [e])
    refine ⟨i1, i2, i3, ?_⟩
    intro s c
    show c ∈ (collect gs _).2 s ↔ _
    rw [i4 s c]
    by_cases e : s = g.source
    · rw [if_pos e, mem_setInsert]
      subst e
      constructor
      · rintro ((h | h) | ⟨y, h, h'⟩)
        · exact Or.inr ⟨g, by simp, rfl, h.symm⟩
        · exact Or.inl h
        · exact Or.inr ⟨y, by simp [h], h'⟩
      · rintro (h | ⟨y, h, h'⟩)
        · exact Or.inl (Or.inr h)
        · rcases List.mem_cons.1 h with e | h
          · subst e; exact Or.inl (Or.inl h'.2.symm)
          · exact Or.inr ⟨y, h, h'⟩
    · rw [if_neg e]
      constructor
      · rintro (h | ⟨y, h, h'⟩)
        · exact Or.inl h
        · exact Or.inr ⟨y, by simp [h], h'⟩
      · rintro (h | ⟨y, h, h'⟩)
        · exact Or.inl h
        · rcases List.mem_cons.1 h with e' | h
          · subst e'; exact absurd h'.1.symm e
          · exact Or.inr ⟨y, h, h'⟩

end Verif.Segmentor
