import Verif.Rfilter.Model
import Verif.Rfilter.Spec
/-!
# Comparing texts, and when a rule fires
-/
set_option autoImplicit false
namespace Verif.Rfilter

/-- The rule as the specification knows it. -/
def Rule.spec (r : Rule) : SRule := ⟨r.sin, r.sout, r.lctx, r.rctx⟩

/-- The function on bytes the comparisons use. -/
def foldOf (cs : Bool) : Nat → Nat := if cs then id else lower

theorem sameLetter_iff (a b : Nat) : SameLetter a b ↔ lower a = lower b := by
  unfold SameLetter lower
  split <;> split <;> omega

theorem lower_upper (a b : Nat) (h : lower a = lower b) : upper a = upper b := by
  unfold lower at h
  unfold upper
  split at h <;> split at h <;> split <;> split <;> omega

theorem upper_zero (a : Nat) (h : upper a = 0) : a = 0 := by
  unfold upper at h
  split at h <;> omega

theorem fold_iff (cs : Bool) (a b : Nat) : (if cs = true then a = b else SameLetter a b) ↔ foldOf cs a = foldOf cs b := by
  cases cs
  · simp [foldOf, sameLetter_iff]
  · simp [foldOf]

theorem fold_key {cs : Bool} {a b : Nat} (h : foldOf cs a = foldOf cs b) : keyOf cs a = keyOf cs b := by
  cases cs
  · simp [foldOf] at h
    simp [keyOf, lower_upper a b h]
  · simpa [foldOf, keyOf] using h

theorem key_zero {cs : Bool} {a : Nat} (h : keyOf cs a = 0) : a = 0 := by
  cases cs
  · simp [keyOf] at h
    exact upper_zero a h
  · simpa [keyOf] using h

theorem alike_iff (cs : Bool) (s t : List Nat) : Alike cs s t ↔ s.map (foldOf cs) = t.map (foldOf cs) := by
  constructor
  · intro h
    induction h with
    | nil => rfl
    | cons a b s t hab _ ih => simp only [List.map_cons, ih, (fold_iff cs a b).1 hab]
  · intro h
    induction s generalizing t with
    | nil =>
      cases t with
      | nil => exact .nil
      | cons b t => simp at h
    | cons a s ih =>
      cases t with
      | nil => simp at h
      | cons b t =>
        simp only [List.map_cons, List.cons.injEq] at h
        exact .cons a b s t ((fold_iff cs a b).2 h.1) (ih t h.2)

theorem Alike.length {cs : Bool} {s t : List Nat} (h : Alike cs s t) : s.length = t.length := by
  have := congrArg List.length ((alike_iff cs s t).1 h)
  simpa using this

theorem Alike.refl (cs : Bool) (s : List Nat) : Alike cs s s := (alike_iff cs s s).2 rfl

theorem Alike.symm {cs : Bool} {s t : List Nat} (h : Alike cs s t) : Alike cs t s :=
  (alike_iff cs t s).2 ((alike_iff cs s t).1 h).symm

theorem Alike.trans {cs : Bool} {s t u : List Nat} (h : Alike cs s t) (h2 : Alike cs t u) : Alike cs s u :=
  (alike_iff cs s u).2 (((alike_iff cs s t).1 h).trans ((alike_iff cs t u).1 h2))

theorem cmpn_iff (f : Nat → Nat) (s t : List Nat) :
    cmpn f s t t.length = true ↔ ∃ u rest, s = u ++ rest ∧ u.map f = t.map f := by
  induction t generalizing s with
  | nil =>
    constructor
    · intro _
      exact ⟨[], s, rfl, rfl⟩
    · intro _
      cases s <;> simp [cmpn]
  | cons b t ih =>
    cases s with
    | nil =>
      simp only [List.length_cons, cmpn, Bool.false_eq_true, false_iff]
      rintro ⟨u, rest, h1, h2⟩
      have : u = [] := by
        cases u with
        | nil => rfl
        | cons x u => simp at h1
      rw [this] at h2
      simp at h2
    | cons a s =>
      simp only [List.length_cons, cmpn, Bool.and_eq_true, beq_iff_eq, ih]
      constructor
      · rintro ⟨h1, u, rest, h2, h3⟩
        exact ⟨a :: u, rest, by rw [h2]; rfl, by simp only [List.map_cons, h1, h3]⟩
      · rintro ⟨u, rest, h1, h2⟩
        cases u with
        | nil => simp at h2
        | cons x u =>
          simp only [List.cons_append, List.cons.injEq] at h1
          simp only [List.map_cons, List.cons.injEq] at h2
          rw [← h1.1] at h2
          exact ⟨h2.1, u, rest, h1.2, h2.2⟩

theorem cmp_iff (cs : Bool) (s t : List Nat) : cmp cs s t t.length = true ↔ ∃ u rest, s = u ++ rest ∧ Alike cs u t := by
  have : cmp cs = cmpn (foldOf cs) := rfl
  rw [this, cmpn_iff]
  constructor
  · rintro ⟨u, rest, h1, h2⟩
    exact ⟨u, rest, h1, (alike_iff cs u t).2 h2⟩
  · rintro ⟨u, rest, h1, h2⟩
    exact ⟨u, rest, h1, (alike_iff cs u t).1 h2⟩

/-- The recorded length of a source that is not empty is its length. -/
def Rule.Sound (r : Rule) : Prop := r.sin ≠ [] → r.sinl = r.sin.length

/-- The source of the rule stands at the start of the text. -/
def SourceAt (cs : Bool) (r : SRule) (after : List Nat) : Prop := ∃ s rest, after = s ++ rest ∧ Alike cs s r.source

theorem Applies.source {cs : Bool} {r : SRule} {b a : List Nat} (h : Applies cs r b a) : SourceAt cs r a := by
  obtain ⟨_, _, _, s, rt, rest, _, h2, _, h4, _⟩ := h
  exact ⟨s, rt ++ rest, h2, h4⟩

theorem Applies.left {cs : Bool} {r : SRule} {b a : List Nat} (h : Applies cs r b a) : r.left.length ≤ b.length := by
  obtain ⟨_, f, l, s, rt, rest, h1, _, h3, _, _⟩ := h
  rw [h1, ← h3.length]
  simp

/-- What the firing test comes to. -/
theorem ruleFires_spec (cs : Bool) (pa : List Nat) (pos : Nat) (r : Rule) (hp : pos ≤ pa.length) (hs : r.Sound)
    (hn : r.sin ≠ []) :
    (ruleFires cs pa pos r = .ok true ∧ Applies cs r.spec (pa.take pos) (pa.drop pos)) ∨
    (ruleFires cs pa pos r = .ok false ∧ ¬ Applies cs r.spec (pa.take pos) (pa.drop pos) ∧
      (SourceAt cs r.spec (pa.drop pos) → r.lctx.length ≤ pos)) ∨
    (ruleFires cs pa pos r = .oob ∧ SourceAt cs r.spec (pa.drop pos) ∧ pos < r.lctx.length) := by
  have hl : r.sinl = r.sin.length := hs hn
  have hz : sizeT r.sinl = r.sin.length := by
    rw [hl]
    unfold sizeT
    rw [if_neg (by omega)]
    omega
  have ht : r.sinl.toNat = r.sin.length := by rw [hl]; omega
  unfold ruleFires
  rw [hz, ht]
  by_cases c1 : cmp cs (pa.drop pos) r.sin r.sin.length = true
  · obtain ⟨s, rest, e1, a1⟩ := (cmp_iff _ _ _).1 c1
    rw [if_neg (by rw [c1]; decide)]
    by_cases c2 : pos < r.lctx.length
    · rw [if_pos c2]
      exact .inr (.inr ⟨rfl, ⟨s, rest, e1, a1⟩, c2⟩)
    · rw [if_neg c2]
      have hdr : pa.drop (pos + r.sin.length) = rest := by
        rw [← List.drop_drop, e1, ← a1.length]
        simp
      by_cases c3 : cmp cs (pa.drop (pos - r.lctx.length)) r.lctx r.lctx.length = true
      · rw [if_neg (by rw [c3]; decide), hdr]
        obtain ⟨l, rest2, e2, a2⟩ := (cmp_iff _ _ _).1 c3
        have htk : pa.take pos = pa.take (pos - r.lctx.length) ++ l := by
          have h1 : pa.take pos = pa.take (pos - r.lctx.length + r.lctx.length) := by
            congr 1; omega
          rw [h1, List.take_add, e2, ← a2.length]
          simp
        by_cases c4 : cmp cs rest r.rctx r.rctx.length = true
        · rw [c4]
          obtain ⟨rt, rest3, e3, a3⟩ := (cmp_iff _ _ _).1 c4
          exact .inl ⟨rfl, hn, _, l, s, rt, rest3, htk, by rw [e1, e3], a2, a1, a3⟩
        · have c4' : cmp cs rest r.rctx r.rctx.length = false := by simpa using c4
          rw [c4']
          refine .inr (.inl ⟨rfl, ?_, fun _ => by omega⟩)
          rintro ⟨_, f, l', s', rt, rest3, _, f2, _, b1, b3⟩
          apply c4
          apply (cmp_iff _ _ _).2
          refine ⟨rt, rest3, ?_, b3⟩
          rw [e1] at f2
          exact (List.append_inj f2 (by rw [a1.length, b1.length]; rfl)).2
      · have c3' : cmp cs (pa.drop (pos - r.lctx.length)) r.lctx r.lctx.length = false := by simpa using c3
        rw [if_pos c3']
        refine .inr (.inl ⟨rfl, ?_, fun _ => by omega⟩)
        rintro ⟨_, f, l', s', rt, rest3, f1, f2, b2, _, _⟩
        apply c3
        apply (cmp_iff _ _ _).2
        refine ⟨l', pa.drop pos, ?_, b2⟩
        have hlen : l'.length = r.lctx.length := b2.length
        have hflen : f.length = pos - r.lctx.length := by
          have := congrArg List.length f1
          simp only [List.length_take, List.length_append] at this
          omega
        have hpa : pa = f ++ (l' ++ pa.drop pos) := by
          rw [← List.append_assoc, ← f1, List.take_append_drop]
        have h2 : pa.drop (pos - r.lctx.length) = (f ++ (l' ++ pa.drop pos)).drop f.length := by rw [← hpa, hflen]
        rw [h2]
        simp
  · have c1' : cmp cs (pa.drop pos) r.sin r.sin.length = false := by simpa using c1
    rw [if_pos c1']
    refine .inr (.inl ⟨rfl, ?_, ?_⟩)
    · intro h
      exact c1 ((cmp_iff _ _ _).2 h.source)
    · intro h
      exact absurd ((cmp_iff _ _ _).2 h) c1

end Verif.Rfilter
