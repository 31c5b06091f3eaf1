import Verif.Store.Spec
set_option autoImplicit false
namespace Verif.Store
open Verif.Scorer

/-! ### Columns -/

theorem firstTok_only : ∀ (c : List (Option Token)) (o : Option Token), Only c o → firstTok c = o := by
  intro c
  induction c with
  | nil => intro o h; cases o with
    | none => rfl
    | some t => simp [Only] at h
  | cons x c ih =>
    intro o h
    cases x with
    | none => exact ih o (by simpa [Only] using h)
    | some t =>
      cases o with
      | none => simp [Only] at h
      | some u =>
        have : t = u := by
          have h' : t :: c.filterMap id = [u] := by simpa [Only] using h
          injection h'
        rw [this]; rfl

theorem nextRef_shows {k : Nat} {cs : List Col} {ps : List Pair} (h : Shows k cs ps) :
    (nextRef k cs).map Token.seg = rightOf ps := by
  induction h with
  | nil => rfl
  | cons c r h cs ps hr hh _ ih =>
    unfold nextRef
    have : refOf k c = r := firstTok_only _ _ hr
    rw [this]
    cases r with
    | none =>
      show (nextRef k cs).map Token.seg = _
      rw [ih]; rfl
    | some t => rfl

/-! ### Times -/

theorem overlapWith_meet {s e s' e' : Int} (h : s ≤ e) (h' : s' ≤ e') :
    overlapWith s e s' e' = true ↔ Meet s e s' e' := by
  unfold overlapWith Meet
  by_cases c : s ≤ s'
  · rw [if_pos c, decide_eq_true_iff]
    constructor
    · intro g; exact ⟨s', c, g, Int.le_refl _, h'⟩
    · rintro ⟨t, h1, h2, h3, h4⟩; omega
  · rw [if_neg c, decide_eq_true_iff]
    constructor
    · intro g; exact ⟨s, Int.le_refl _, h, by omega, g⟩
    · rintro ⟨t, h1, h2, h3, h4⟩; omega

theorem byTime_first (h : Token) (hh : h.start ≤ h.stop) : ∀ (group : List Seg),
    (∀ s ∈ group, s.start ≤ s.stop) →
    (∃ s pre post, byTime h group = some s ∧ group = pre ++ s :: post ∧ (∀ x ∈ pre, ¬ Overlaps h x) ∧
      Overlaps h s) ∨
    (byTime h group = none ∧ ∀ s ∈ group, ¬ Overlaps h s) := by
  intro group
  induction group with
  | nil => intro _; exact Or.inr ⟨rfl, by simp⟩
  | cons s ss ih =>
    intro ho
    have hs := ho s (by simp)
    have hm : Meet s.start s.stop h.start h.stop ↔ Overlaps h s := by
      unfold Overlaps Meet
      constructor
      · rintro ⟨t, a, b, c, d⟩; exact ⟨t, c, d, a, b⟩
      · rintro ⟨t, a, b, c, d⟩; exact ⟨t, c, d, a, b⟩
    unfold byTime
    by_cases c : overlapWith s.start s.stop h.start h.stop = true
    · rw [if_pos c]
      exact Or.inl ⟨s, [], ss, rfl, rfl, by simp, hm.1 ((overlapWith_meet hs hh).1 c)⟩
    · rw [if_neg c]
      have hn : ¬ Overlaps h s := fun o => c ((overlapWith_meet hs hh).2 (hm.2 o))
      rcases ih (fun x hx => ho x (by simp [hx])) with ⟨x, pre, post, e1, e2, e3, e4⟩ | ⟨e1, e2⟩
      · refine Or.inl ⟨x, s :: pre, post, e1, by rw [e2]; rfl, ?_, e4⟩
        intro y hy
        rcases List.mem_cons.1 hy with e | hy
        · rw [e]; exact hn
        · exact e3 y hy
      · refine Or.inr ⟨e1, ?_⟩
        intro y hy
        rcases List.mem_cons.1 hy with e | hy
        · rw [e]; exact hn
        · exact e2 y hy

theorem again_iff (h : Token) (hh : h.start ≤ h.stop) (s : Seg) (hs : s.start ≤ s.stop) :
    again h (some s) = true ↔ 0 ≤ h.start ∧ ¬ Overlaps h s := by
  unfold again
  simp only [Bool.and_eq_true, Bool.not_eq_true', decide_eq_true_eq, Overlaps]
  rw [← overlapWith_meet hh hs]
  constructor
  · rintro ⟨⟨a, b⟩, _⟩; exact ⟨b, by rw [a]; decide⟩
  · rintro ⟨a, b⟩
    refine ⟨⟨?_, a⟩, by omega⟩
    cases hb : overlapWith h.start h.stop s.start s.stop
    · rfl
    · exact absurd hb b

/-! ### The search -/

/-- With both sides looked at only the time decides. -/
theorem seek_time (l r : Option Seg) (group : List Seg) (h : Token) (hh : h.start ≤ h.stop)
    (hg : ∀ s ∈ group, s.start ≤ s.stop) (n : Nat) (dl : Bool) (hl : l = none ∨ dl = true) :
    (∃ s pre post, seek l r group h (n + 1) dl true = .found (some s) ∧ group = pre ++ s :: post ∧
      (∀ x ∈ pre, ¬ Overlaps h x) ∧ Overlaps h s) ∨
    (seek l r group h (n + 1) dl true = .exit ∧ ∀ s ∈ group, ¬ Overlaps h s) := by
  have hc : (l.isSome && !dl) = false := by rcases hl with e | e <;> rw [e] <;> cases l <;> simp
  unfold seek turn
  simp only [hc]
  rcases byTime_first h hh group hg with ⟨s, pre, post, e1, e2, e3, e4⟩ | ⟨e1, e2⟩
  · left
    refine ⟨s, pre, post, ?_, e2, e3, e4⟩
    have hs : s.start ≤ s.stop := hg s (by rw [e2]; simp)
    have : again h (some s) = false := by
      cases hb : again h (some s)
      · rfl
      · exact absurd e4 ((again_iff h hh s hs).1 hb).2
    simp [e1, this]
  · right
    exact ⟨by simp [e1], e2⟩

theorem again_false {h : Token} (hh : h.start ≤ h.stop) {s : Seg} (hs : s.start ≤ s.stop)
    (c : 0 ≤ h.start → Overlaps h s) : again h (some s) = false := by
  cases hb : again h (some s)
  · rfl
  · have := (again_iff h hh s hs).1 hb
    exact absurd (c this.1) this.2

/-- The search ends within three turns, at the home of the word, or with `exit` when there is none. -/
theorem seek_home (l r : Option Seg) (group : List Seg) (h : Token) (hh : h.start ≤ h.stop)
    (hl : ∀ s, l = some s → s.start ≤ s.stop) (hr : ∀ s, r = some s → s.start ≤ s.stop)
    (hg : ∀ s ∈ group, s.start ≤ s.stop) (n : Nat) :
    (∃ s, seek l r group h (n + 3) false false = .found (some s) ∧ Home l r group h s) ∨
    (seek l r group h (n + 3) false false = .exit ∧ ∀ s, ¬ Home l r group h s) := by
  -- after the left side
  have right : ∀ (m : Nat) (dl : Bool), (l = none ∨ dl = true) →
      (∀ x, l = some x → 0 ≤ h.start ∧ ¬ Overlaps h x) →
      (∃ s, seek l r group h (m + 2) dl false = .found (some s) ∧ Home l r group h s) ∨
      (seek l r group h (m + 2) dl false = .exit ∧ ∀ s, ¬ Home l r group h s) := by
    intro m dl hd hno
    have hc : (l.isSome && !dl) = false := by rcases hd with e | e <;> rw [e] <;> cases l <;> simp
    cases hre : r with
    | none =>
      have e : seek l none group h (m + 2) dl false = seek l none group h (m + 1 + 1) dl true := by
        unfold seek turn
        simp [hc]
      rw [e]
      rcases seek_time l none group h hh hg (m + 1) dl hd with ⟨s, pre, post, e1, e2, e3, e4⟩ | ⟨e1, e2⟩
      · exact Or.inl ⟨s, e1, .time s pre post hno (fun x hx => by cases hx) e2 e3 e4⟩
      · refine Or.inr ⟨e1, ?_⟩
        intro s hs
        cases hs with
        | left h1 h2 => exact (hno _ h1).2 (h2 (hno _ h1).1)
        | right h1 h2 h3 => cases h2
        | time pre post h1 h2 h3 h4 h5 => exact e2 s (by rw [h3]; simp) h5
    | some x =>
      have hx := hr x hre
      by_cases c : 0 ≤ h.start ∧ ¬ Overlaps h x
      · have hag : again h (some x) = true := (again_iff h hh x hx).2 c
        have e : seek l (some x) group h (m + 2) dl false = seek l (some x) group h (m + 1) dl true := by
          conv => lhs; unfold seek turn
          simp [hc, hag]
        rw [e]
        rcases seek_time l (some x) group h hh hg m dl hd with ⟨s, pre, post, e1, e2, e3, e4⟩ | ⟨e1, e2⟩
        · refine Or.inl ⟨s, e1, .time s pre post hno ?_ e2 e3 e4⟩
          intro y hy; cases hy; exact c
        · refine Or.inr ⟨e1, ?_⟩
          intro s hs
          cases hs with
          | left h1 h2 => exact (hno _ h1).2 (h2 (hno _ h1).1)
          | right h1 h2 h3 => cases h2; exact c.2 (h3 c.1)
          | time pre post h1 h2 h3 h4 h5 => exact e2 s (by rw [h3]; simp) h5
      · have hov : 0 ≤ h.start → Overlaps h x := fun h0 => Classical.byContradiction fun hn => c ⟨h0, hn⟩
        have hag : again h (some x) = false := again_false hh hx hov
        left
        refine ⟨x, ?_, .right x hno rfl hov⟩
        unfold seek turn
        simp [hc, hag]
  cases hle : l with
  | none =>
    have := right (n + 1) false (Or.inl hle) (fun x hx => by rw [hle] at hx; cases hx)
    rw [hle] at this
    exact this
  | some x =>
    have hx := hl x hle
    by_cases c : 0 ≤ h.start ∧ ¬ Overlaps h x
    · have hag : again h (some x) = true := (again_iff h hh x hx).2 c
      have e : seek (some x) r group h (n + 3) false false = seek (some x) r group h (n + 2) true false := by
        conv => lhs; unfold seek turn
        simp [hag]
      rw [e]
      have := right n true (Or.inr rfl) (fun y hy => by rw [hle] at hy; cases hy; exact c)
      rw [hle] at this
      exact this
    · have hov : 0 ≤ h.start → Overlaps h x := fun h0 => Classical.byContradiction fun hn => c ⟨h0, hn⟩
      have hag : again h (some x) = false := again_false hh hx hov
      left
      refine ⟨x, ?_, .left x rfl hov⟩
      unfold seek turn
      simp [hag]

/-- A search that is still running after three turns runs for ever: the fourth turn repeats the third. -/
theorem seek_forever (l r : Option Seg) (group : List Seg) (h : Token)
    (hrun : seek l r group h 4 false false = .running) (n : Nat) : seek l r group h n false false = .running := by
  -- with both flags set each turn is the same
  have both : ∀ (dl : Bool), (l = none ∨ dl = true) → ∀ m, seek l r group h (m + 1) dl true = .running →
      ∀ k, seek l r group h k dl true = .running := by
    intro dl hd m hm k
    have hc : (l.isSome && !dl) = false := by rcases hd with e | e <;> rw [e] <;> cases l <;> simp
    have step : ∀ j, seek l r group h (j + 1) dl true =
        match byTime h group with
        | none => .exit
        | some s => if again h (some s) then seek l r group h j dl true else .found (some s) := by
      intro j
      conv => lhs; unfold seek turn
      simp only [hc]
      cases byTime h group <;> rfl
    have hb : ∃ s, byTime h group = some s ∧ again h (some s) = true := by
      rw [step m] at hm
      cases hbt : byTime h group with
      | none => rw [hbt] at hm; cases hm
      | some s =>
        rw [hbt] at hm
        by_cases ha : again h (some s) = true
        · exact ⟨s, rfl, ha⟩
        · simp only [if_neg ha] at hm; cases hm
    obtain ⟨s, hb1, hb2⟩ := hb
    induction k with
    | zero => rfl
    | succ k ih => rw [step k, hb1]; simp only [if_pos hb2]; exact ih
  -- looking right
  have right : ∀ (dl : Bool), (l = none ∨ dl = true) → ∀ m, seek l r group h (m + 2) dl false = .running →
      ∀ k, seek l r group h k dl false = .running := by
    intro dl hd m hm k
    have hc : (l.isSome && !dl) = false := by rcases hd with e | e <;> rw [e] <;> cases l <;> simp
    cases k with
    | zero => rfl
    | succ k =>
      cases hre : r with
      | none =>
        have e : ∀ j, seek l none group h (j + 1) dl false = seek l none group h (j + 1) dl true := by
          intro j; unfold seek turn; simp [hc]
        rw [e]
        rw [hre, e (m + 1)] at hm
        have := both dl hd (m + 1) (by rw [hre]; exact hm) (k + 1)
        rw [hre] at this; exact this
      | some x =>
        have e : ∀ j, seek l (some x) group h (j + 1) dl false =
            if again h (some x) then seek l (some x) group h j dl true else .found (some x) := by
          intro j; conv => lhs; unfold seek turn
          simp [hc]
        rw [hre, e (m + 1)] at hm
        rw [e]
        by_cases ha : again h (some x) = true
        · rw [if_pos ha] at hm ⊢
          have := both dl hd m (by rw [hre]; exact hm) k
          rw [hre] at this; exact this
        · rw [if_neg ha] at hm; cases hm
  cases hle : l with
  | none =>
    have := right false (Or.inl hle) 2 hrun n
    rw [hle] at this; exact this
  | some x =>
    cases n with
    | zero => rfl
    | succ n =>
      have e : ∀ j, seek (some x) r group h (j + 1) false false =
          if again h (some x) then seek (some x) r group h j true false else .found (some x) := by
        intro j; conv => lhs; unfold seek turn
        simp
      rw [hle, e 3] at hrun
      rw [e]
      by_cases ha : again h (some x) = true
      · rw [if_pos ha] at hrun ⊢
        have := right true (Or.inr rfl) 1 (by rw [hle]; exact hrun) n
        rw [hle] at this; exact this
      · rw [if_neg ha] at hrun; cases hrun

end Verif.Store
