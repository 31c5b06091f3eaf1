import Verif.Chop.Model
/-!
# Lemmas about the cutting of channels
-/
set_option autoImplicit false
namespace Verif.Chop
open Verif.Chan (Tok)
open Verif.Mfa (overlap)

/-- No error and no endless loop, undefined behaviour only if `U`, and results with `P`. -/
def Sat {A : Type} (U : Prop) (P : A → Prop) : Out A → Prop
  | .undef => U
  | .hang => False
  | .fail => False
  | .ok a => P a

theorem Sat.bind {A B : Type} {U : Prop} {P : A → Prop} {Q : B → Prop} {x : Out A} {f : A → Out B}
    (h : Sat U P x) (hf : ∀ a, P a → Sat U Q (f a)) : Sat U Q (x.bind f) := by
  cases x with
  | undef => exact h
  | hang => exact h
  | fail => exact h
  | ok a => exact hf a h

theorem Sat.imp {A : Type} {U : Prop} {P Q : A → Prop} {x : Out A} (h : Sat U P x) (hf : ∀ a, P a → Q a) : Sat U Q x := by
  cases x with
  | undef => exact h
  | hang => exact h
  | fail => exact h
  | ok a => exact hf a h

variable {K : Type} {ref hyp : List (Tok K)} {Rs Hs : Int}

/-- `word[i]` is `w`. -/
def IsAt (l : List (Tok K)) (i : Int) (w : Tok K) : Prop := 1 ≤ i ∧ l[(i - 1).toNat]? = some w

theorem get_ok {l : List (Tok K)} {i : Int} {w : Tok K} : get l i = .ok w ↔ IsAt l i w := by
  unfold get IsAt
  by_cases h : 1 ≤ i
  · rw [if_pos h]
    cases hg : l[(i - 1).toNat]? with
    | none => simp
    | some v => simp [h]
  · rw [if_neg h]; simp [h]

theorem get_sat {l : List (Tok K)} {U : Prop} {i : Int} (h1 : 1 ≤ i ∨ U) (h2 : i ≤ l.length) :
    Sat U (IsAt l i) (get l i) := by
  by_cases h : 1 ≤ i
  · have hlt : (i - 1).toNat < l.length := by omega
    have e : get l i = .ok l[(i - 1).toNat] := by
      rw [get_ok]; exact ⟨h, List.getElem?_eq_getElem hlt⟩
    rw [e]
    exact ⟨h, List.getElem?_eq_getElem hlt⟩
  · have e : get l i = .undef := by unfold get; rw [if_neg h]
    rw [e]
    exact h1.resolve_left h

/-- The word `i` is outside of alternations. -/
def Plain (l : List (Tok K)) (i : Int) : Prop := ∃ w, IsAt l i w ∧ w.alternate = false

/-- The word `i` is within an alternation. -/
def InAlt (l : List (Tok K)) (i : Int) : Prop := ∃ w, IsAt l i w ∧ w.alternate = true

theorem skipAlt_sat {U : Prop} (hs : 1 ≤ Rs) : ∀ (f : Nat) (i : Int) (b : Bool), f = (i + 1 - Rs).toNat → i ≤ ref.length →
    Rs - 1 ≤ i →
    Sat U (fun p => Rs - 1 ≤ p.1 ∧ p.1 ≤ i ∧ (p.1 = Rs - 1 ∨ Plain ref p.1) ∧ (p.1 < i → p.2 = true) ∧ (p.2 = true → b = true ∨ p.1 < i) ∧
      (b = true → p.2 = true) ∧ (p.1 = Rs - 1 → Rs ≤ i → InAlt ref Rs)) (skipAlt ref Rs f i b)
  | 0, i, b, hf, _, hi => by
    have : i = Rs - 1 := by omega
    exact ⟨by omega, by omega, Or.inl this, by omega, fun h => Or.inl h, id, fun _ h => by omega⟩
  | f + 1, i, b, hf, hl, hi => by
    unfold skipAlt
    have h : Rs ≤ i := by omega
    rw [if_pos h]
    refine Sat.bind (get_sat (Or.inl (by omega)) hl) fun w hw => ?_
    by_cases ha : w.alternate = true
    · rw [if_pos ha]
      refine Sat.imp (skipAlt_sat hs f (i - 1) true (by omega) (by omega) (by omega)) fun p hp => ?_
      obtain ⟨h1, h2, h3, h4, h5, h6, h7⟩ := hp
      refine ⟨h1, by omega, h3, fun _ => h6 rfl, fun _ => Or.inr (by omega), fun _ => h6 rfl, fun he _ => ?_⟩
      by_cases hb : Rs ≤ i - 1
      · exact h7 he hb
      · have : i = Rs := by omega
        exact ⟨w, this ▸ hw, ha⟩
    · rw [if_neg ha]
      exact ⟨hi, Int.le_refl _, Or.inr ⟨w, hw, by simpa using ha⟩, fun hlt => absurd hlt (Int.lt_irrefl _), fun hb => Or.inl hb, id,
        fun he _ => by dsimp only at he; omega⟩

/-- A step back: at least one word, and over a whole alternation. -/
theorem stepRef_sat {U : Prop} (hs : 1 ≤ Rs) (R : Int) (h : Rs ≤ R) (hl : R ≤ ref.length) :
    Sat U (fun p => Rs - 1 ≤ p.1 ∧ p.1 < R ∧ (p.1 = Rs - 1 ∨ Plain ref p.1) ∧ (p.2 = true → p.1 + 1 < R ∧ (p.1 = Rs - 1 → InAlt ref Rs)) ∧
      (p.2 = false → p.1 + 1 = R)) (stepRef ref Rs R) := by
  unfold stepRef
  refine Sat.imp (skipAlt_sat hs _ (R - 1) false (by omega) (by omega) (by omega)) fun p hp => ?_
  obtain ⟨h1, h2, h3, h4, h5, h6, h7⟩ := hp
  refine ⟨h1, by omega, h3, fun hb => ?_, fun hb => ?_⟩
  · have hlt : p.1 < R - 1 := (h5 hb).resolve_left (by simp)
    exact ⟨by omega, fun he => h7 he (by omega)⟩
  · by_cases hlt : p.1 < R - 1
    · rw [h4 hlt] at hb; simp at hb
    · omega

/-- Moving back in the reference. -/
theorem adjRef_sat {U : Prop} (hs : 1 ≤ Rs) (H : Int) (hH1 : 1 ≤ H) (hH2 : H ≤ hyp.length) :
    ∀ (f : Nat) (R : Int), (R + 1 - Rs).toNat ≤ f → Rs - 1 ≤ R → R ≤ ref.length → (R = Rs - 1 ∨ Plain ref R) →
    Sat U (fun p => Rs - 1 ≤ p.1 ∧ p.1 ≤ R ∧ (p.1 = Rs - 1 ∨ Plain ref p.1) ∧
      (p.2 = true → p.1 + 1 < R ∧ (p.1 = Rs - 1 → InAlt ref Rs))) (adjRef ref hyp Rs H f R)
  | 0, R, _, h1, _, h3 => ⟨h1, Int.le_refl _, h3, fun h => by simp at h⟩
  | f + 1, R, hf, h1, h2, h3 => by
    unfold adjRef
    by_cases h : Rs ≤ R
    · rw [if_pos h]
      refine Sat.bind (get_sat (Or.inl (by omega)) h2) fun r hr => ?_
      refine Sat.bind (get_sat (Or.inl hH1) hH2) fun hh hhh => ?_
      by_cases hc : r.w.t1 > hh.w.t1 ∧ wordOverlap r hh < 0
      · rw [if_pos hc]
        refine Sat.bind (stepRef_sat hs R h h2) fun p hp => ?_
        obtain ⟨p1, p2, p3, p4, p5⟩ := hp
        by_cases hb : p.2 = true
        · rw [if_pos hb]
          exact ⟨p1, by omega, p3, fun _ => p4 hb⟩
        · rw [if_neg hb]
          refine Sat.imp (adjRef_sat hs H hH1 hH2 f p.1 (by omega) p1 (by omega) p3) fun q hq => ?_
          obtain ⟨q1, q2, q3, q4⟩ := hq
          exact ⟨q1, by omega, q3, fun hq => ⟨by have := (q4 hq).1; omega, (q4 hq).2⟩⟩
      · rw [if_neg hc]; exact ⟨h1, Int.le_refl _, h3, fun h => by simp at h⟩
    · rw [if_neg h]; exact ⟨h1, Int.le_refl _, h3, fun h => by simp at h⟩

/-- Moving back in the hypothesis. -/
theorem adjHyp_sat {U : Prop} (hs : 1 ≤ Hs) (R : Int) (hR1 : 1 ≤ R ∨ U) (hR2 : R ≤ ref.length) :
    ∀ (f : Nat) (H : Int), (H + 1 - Hs).toNat ≤ f → Hs - 1 ≤ H → H ≤ hyp.length →
    Sat U (fun H' => Hs - 1 ≤ H' ∧ H' ≤ H) (adjHyp ref hyp Hs R f H)
  | 0, H, _, h1, _ => ⟨h1, Int.le_refl _⟩
  | f + 1, H, hf, h1, h2 => by
    unfold adjHyp
    by_cases h : Hs ≤ H
    · rw [if_pos h]
      refine Sat.bind (get_sat hR1 hR2) fun r hr => ?_
      refine Sat.bind (get_sat (Or.inl (by omega)) h2) fun hh hhh => ?_
      by_cases hc : r.w.t1 < hh.w.t1 ∧ wordOverlap r hh < 0
      · rw [if_pos hc]
        refine Sat.imp (adjHyp_sat hs R hR1 hR2 f (H - 1) (by omega) (by omega) (by omega)) fun q hq => ?_
        exact ⟨hq.1, by omega⟩
      · rw [if_neg hc]; exact ⟨h1, Int.le_refl _⟩
    · rw [if_neg h]; exact ⟨h1, Int.le_refl _⟩

/-- The only way to read before the table: an alternation at its very beginning. -/
def AltFirst (ref : List (Tok K)) (Rs : Int) : Prop := Rs = 1 ∧ InAlt ref 1

theorem readable {R : Int} (hs : 1 ≤ Rs) (h1 : Rs - 1 ≤ R) (h : R = Rs - 1 → InAlt ref Rs ∨ 2 ≤ Rs) : 1 ≤ R ∨ AltFirst ref Rs := by
  by_cases hR : 1 ≤ R
  · exact Or.inl hR
  · have e : R = Rs - 1 := by omega
    rcases h e with h' | h'
    · exact Or.inr ⟨by omega, (show Rs = 1 by omega) ▸ h'⟩
    · exact Or.inl (by omega)

/-- Synchronising. -/
theorem sync_sat (hs : 1 ≤ Rs) (hh : 1 ≤ Hs) : ∀ (f : Nat) (R H : Int), (R + 1 - Rs).toNat + 1 ≤ f → Rs - 1 ≤ R → R ≤ ref.length →
    (R = Rs - 1 ∨ Plain ref R) → (R = Rs - 1 → InAlt ref Rs ∨ 2 ≤ Rs) → 1 ≤ H → Hs - 1 ≤ H → H ≤ hyp.length →
    Sat (AltFirst ref Rs) (fun p => Rs - 1 ≤ p.1 ∧ p.1 ≤ R ∧ Hs - 1 ≤ p.2 ∧ p.2 ≤ H ∧ (p.1 = Rs - 1 ∨ Plain ref p.1)) (sync ref hyp Rs Hs f R H)
  | 0, R, H, hf, _, _, _, _, _, _, _ => by omega
  | f + 1, R, H, hf, h1, h2, h3, h4, h5, h6, h7 => by
    unfold sync
    refine Sat.bind (get_sat (readable hs h1 h4) h2) fun r hr => ?_
    refine Sat.bind (get_sat (Or.inl h5) h7) fun h hh' => ?_
    by_cases hc : r.w.t1 > h.w.t1
    · rw [if_pos hc]
      refine Sat.bind (adjRef_sat hs H h5 h7 _ R (Nat.le_refl _) h1 h2 h3) fun p hp => ?_
      obtain ⟨p1, p2, p3, p4⟩ := hp
      by_cases hb : p.2 = true
      · rw [if_pos hb]
        obtain ⟨b1, b2⟩ := p4 hb
        refine Sat.imp (sync_sat hs hh f p.1 H (by omega) p1 (by omega) p3 (fun e => Or.inl (b2 e)) h5 h6 h7) fun q hq => ?_
        obtain ⟨q1, q2, q3, q4, q5⟩ := hq
        exact ⟨q1, by omega, q3, q4, q5⟩
      · rw [if_neg hb]
        exact ⟨p1, p2, h6, Int.le_refl _, p3⟩
    · rw [if_neg hc]
      by_cases hd : r.w.t1 < h.w.t1
      · rw [if_pos hd]
        refine Sat.bind (adjHyp_sat hh R (readable hs h1 h4) h2 _ H (Nat.le_refl _) h6 h7) fun q hq => ?_
        exact ⟨h1, Int.le_refl _, hq.1, hq.2, h3⟩
      · rw [if_neg hd]; exact ⟨h1, Int.le_refl _, h6, Int.le_refl _, h3⟩

/-- Shifting down: something moves, if both can. -/
theorem shift_sat (hs : 1 ≤ Rs) (hh : 1 ≤ Hs) : ∀ (f : Nat) (R H : Int), (R + 1 - Rs).toNat + 1 ≤ f → Rs - 1 ≤ R → R ≤ ref.length →
    (R = Rs - 1 ∨ Plain ref R) → (R = Rs - 1 → InAlt ref Rs ∨ 2 ≤ Rs) → Hs ≤ H → H ≤ hyp.length →
    Sat (AltFirst ref Rs) (fun p => Rs - 1 ≤ p.1 ∧ p.1 ≤ R ∧ Hs - 1 ≤ p.2 ∧ p.2 ≤ H ∧ (p.1 = Rs - 1 ∨ Plain ref p.1) ∧
      (Rs < R → Hs < H → p.1 < R ∨ p.2 < H)) (shift ref hyp Rs Hs f R H)
  | 0, R, H, hf, _, _, _, _, _, _ => by omega
  | f + 1, R, H, hf, h1, h2, h3, h4, h5, h6 => by
    unfold shift
    refine Sat.bind (get_sat (readable hs h1 h4) h2) fun r hr => ?_
    refine Sat.bind (get_sat (Or.inl (by omega)) h6) fun h hh' => ?_
    by_cases hc : r.w.t1 > h.w.t1
    · rw [if_pos hc]
      by_cases hR : R > Rs
      · rw [if_pos hR]
        refine Sat.bind (stepRef_sat hs R (by omega) h2) fun p hp => ?_
        obtain ⟨p1, p2, p3, p4, p5⟩ := hp
        by_cases hb : p.2 = true
        · rw [if_pos hb]
          obtain ⟨b1, b2⟩ := p4 hb
          refine Sat.imp (shift_sat hs hh f p.1 H (by omega) p1 (by omega) p3 (fun e => Or.inl (b2 e)) h5 h6) fun q hq => ?_
          obtain ⟨q1, q2, q3, q4, q5, _⟩ := hq
          exact ⟨q1, by omega, q3, q4, q5, fun _ _ => Or.inl (by omega)⟩
        · rw [if_neg hb]
          have e := p5 (by simpa using hb)
          refine Sat.bind (adjHyp_sat hh p.1 (Or.inl (by omega)) (by omega) _ H (Nat.le_refl _) (by omega) h6) fun q hq => ?_
          exact ⟨p1, by omega, hq.1, hq.2, p3, fun _ _ => Or.inl (by dsimp only; omega)⟩
      · rw [if_neg hR]
        simp only [Out.bind]
        refine Sat.bind (adjHyp_sat hh R (readable hs h1 h4) h2 _ H (Nat.le_refl _) (by omega) h6) fun q hq => ?_
        exact ⟨h1, Int.le_refl _, hq.1, hq.2, h3, fun hlt => absurd hlt hR⟩
    · rw [if_neg hc]
      generalize hH : (if H > Hs then H - 1 else H) = H'
      have hH' : Hs ≤ H' ∧ H' ≤ H ∧ (Hs < H → H' < H) := by
        rw [← hH]; split <;> omega
      refine Sat.bind (adjRef_sat hs H' (by omega) (by omega) _ R (Nat.le_refl _) h1 h2 h3) fun p hp => ?_
      obtain ⟨p1, p2, p3, p4⟩ := hp
      by_cases hb : p.2 = true
      · rw [if_pos hb]
        obtain ⟨b1, b2⟩ := p4 hb
        refine Sat.imp (shift_sat hs hh f p.1 H' (by omega) p1 (by omega) p3 (fun e => Or.inl (b2 e)) hH'.1 (by omega)) fun q hq => ?_
        obtain ⟨q1, q2, q3, q4, q5, _⟩ := hq
        exact ⟨q1, by omega, q3, by omega, q5, fun _ _ => Or.inl (by omega)⟩
      · rw [if_neg hb]
        exact ⟨p1, p2, by dsimp only; omega, hH'.2.1, p3, fun _ h => Or.inr (hH'.2.2 h)⟩

/-- The gap after the word `i` lasts until `g`: until the next word of the channel, if there is one. -/
theorem gapEnd_sat {U : Prop} {l : List (Tok K)} {e i : Int} (h1 : 1 ≤ i) (h2 : i ≤ e) (h3 : e ≤ l.length) :
    Sat U (fun g => (i = e ∧ g = 99999999 / 100) ∨ (i < e ∧ ∃ w, IsAt l (i + 1) w ∧ g = w.w.t1)) (gapEnd l e i) := by
  unfold gapEnd
  by_cases h : i = e
  · rw [if_pos h]; exact Or.inl ⟨h, rfl⟩
  · rw [if_neg h]
    refine Sat.bind (get_sat (Or.inl (by omega)) (by omega)) fun w hw => ?_
    exact Or.inr ⟨by omega, w, hw, rfl⟩

/-- The gaps in the two files after the words `R` and `H` have a time in common. -/
def GapsMeet (ref hyp : List (Tok K)) (Re He R H : Int) : Prop :=
  ∃ r h rg hg, IsAt ref R r ∧ IsAt hyp H h ∧ ((R = Re ∧ rg = 99999999 / 100) ∨ (R < Re ∧ ∃ w, IsAt ref (R + 1) w ∧ rg = w.w.t1)) ∧
    ((H = He ∧ hg = 99999999 / 100) ∨ (H < He ∧ ∃ w, IsAt hyp (H + 1) w ∧ hg = w.w.t1)) ∧
    0 ≤ overlap (r.w.t1 + r.w.dur) rg (h.w.t1 + h.w.dur) hg

/-- The backward search. -/
theorem back_sat (hs : 1 ≤ Rs) (hh : 1 ≤ Hs) {Re He : Int} (hRe : Re ≤ ref.length) (hHe : He ≤ hyp.length) :
    ∀ (f : Nat) (R H : Int), (R - Rs).toNat + (H - Hs).toNat + 1 ≤ f → Rs - 1 ≤ R → R ≤ Re → Hs - 1 ≤ H → H ≤ He →
    (R = Rs - 1 ∨ Plain ref R) →
    Sat (AltFirst ref Rs) (fun o => ∀ p, o = some p → Rs - 1 ≤ p.1 ∧ p.1 ≤ R ∧ Hs - 1 ≤ p.2 ∧ p.2 ≤ H ∧ (p.1 = Rs - 1 ∨ Plain ref p.1) ∧
      (Rs < p.1 ∨ Hs < p.2) ∧ (Rs < p.1 → Hs < p.2 → GapsMeet ref hyp Re He p.1 p.2)) (back ref hyp Rs Hs Re He f R H)
  | 0, R, H, hf, _, _, _, _, _ => by omega
  | f + 1, R, H, hf, h1, h2, h3, h4, h5 => by
    unfold back
    by_cases hc : R > Rs ∧ H > Hs
    · rw [if_pos hc]
      refine Sat.bind (get_sat (Or.inl (by omega)) (by omega)) fun r hr => ?_
      refine Sat.bind (gapEnd_sat (e := Re) (by omega) h2 hRe) fun rg hrg => ?_
      refine Sat.bind (get_sat (Or.inl (by omega)) (by omega)) fun h hh' => ?_
      refine Sat.bind (gapEnd_sat (e := He) (by omega) h4 hHe) fun hg hhg => ?_
      by_cases ho : overlap (r.w.t1 + r.w.dur) rg (h.w.t1 + h.w.dur) hg < 0
      · rw [if_pos ho]
        refine Sat.bind (shift_sat hs hh _ R H (by omega) h1 (by omega) h5 (by omega) (by omega) (by omega)) fun q hq => ?_
        obtain ⟨q1, q2, q3, q4, q5, q6⟩ := hq
        have q7 := q6 hc.1 hc.2
        refine Sat.imp (back_sat hs hh hRe hHe f q.1 q.2 (by omega) q1 (by omega) q3 (by omega) q5) fun o ho p hp => ?_
        obtain ⟨p1, p2, p3, p4, p5, p6, p7⟩ := ho p hp
        exact ⟨p1, by omega, p3, by omega, p5, p6, p7⟩
      · rw [if_neg ho]
        intro p hp
        obtain rfl := Option.some.inj hp
        exact ⟨h1, Int.le_refl _, h3, Int.le_refl _, h5, Or.inl hc.1, fun _ _ => ⟨r, h, rg, hg, hr, hh', hrg, hhg, Rat.not_lt.1 ho⟩⟩
    · rw [if_neg hc]
      by_cases hd : R > Rs ∨ H > Hs
      · rw [if_pos hd]
        intro p hp
        obtain rfl := Option.some.inj hp
        exact ⟨h1, Int.le_refl _, h3, Int.le_refl _, h5, hd, fun a b => absurd ⟨a, b⟩ hc⟩
      · rw [if_neg hd]
        intro p hp
        simp at hp

/-- What is asked of the arguments: both ranges are within the tables, and the words before them too unless they are not
empty. -/
structure Range (l : List (Tok K)) (s e : Int) : Prop where
  one : 1 ≤ s
  low : s - 1 ≤ e
  pos : 1 ≤ e
  high : e ≤ l.length

/-- `chop_WTOKE_2`. -/
theorem chop_sat {Re He max : Int} (hr : Range ref Rs Re) (hh : Range hyp Hs He) (hm : 1 ≤ max) :
    Sat (AltFirst ref Rs) (fun o => (o = none → ¬(Rs > Re ∧ Hs > He) → ¬(Re - Rs < max ∧ He - Hs < max)) ∧
      ∀ p, o = some p → (p = (Re, He) ∧ (Rs ≤ Re ∨ Hs ≤ He) ∧ Re - Rs < max ∧ He - Hs < max) ∨
      (Rs - 1 ≤ p.1 ∧ p.1 ≤ Re ∧ p.1 ≤ Rs + max ∧ Hs - 1 ≤ p.2 ∧ p.2 ≤ He ∧ p.2 ≤ Hs + max ∧ (p.1 = Rs - 1 ∨ Plain ref p.1) ∧
      (Rs < p.1 ∨ Hs < p.2) ∧ (Rs < p.1 → Hs < p.2 → GapsMeet ref hyp Re He p.1 p.2))) (chop ref hyp Rs Hs Re He max) := by
  obtain ⟨r1, r2, r3, r4⟩ := hr
  obtain ⟨s1, s2, s3, s4⟩ := hh
  unfold chop
  by_cases h0 : Rs > Re ∧ Hs > He
  · rw [if_pos h0]; exact ⟨fun _ h => absurd h0 h, fun p hp => by simp at hp⟩
  · rw [if_neg h0]
    by_cases h1 : Re - Rs < max ∧ He - Hs < max
    · rw [if_pos h1]
      refine ⟨fun h => by simp at h, fun p hp => ?_⟩
      obtain rfl := Option.some.inj hp
      exact Or.inl ⟨rfl, by omega, h1⟩
    · rw [if_neg h1]
      generalize hR : (if Rs + max < Re then Rs + max else Re) = R
      generalize hH : (if Hs + max < He then Hs + max else He) = H
      have hR' : Rs - 1 ≤ R ∧ R ≤ Re ∧ R ≤ Rs + max ∧ 1 ≤ R := by rw [← hR]; split <;> omega
      have hH' : Hs - 1 ≤ H ∧ H ≤ He ∧ H ≤ Hs + max ∧ 1 ≤ H := by rw [← hH]; split <;> omega
      refine Sat.bind (skipAlt_sat r1 _ R false (by omega) (by omega) (by omega)) fun p hp => ?_
      obtain ⟨p1, p2, p3, -, -, -, p7⟩ := hp
      refine Sat.bind (sync_sat r1 s1 _ p.1 H (by omega) p1 (by omega) p3 (fun e => ?_) (by omega) (by omega) (by omega)) fun q hq => ?_
      · by_cases hRs : Rs ≤ R
        · exact Or.inl (p7 e hRs)
        · exact Or.inr (by omega)
      · obtain ⟨q1, q2, q3, q4, q5⟩ := hq
        refine Sat.imp (back_sat r1 s1 r4 s4 _ q.1 q.2 (by omega) q1 (by omega) q3 (by omega) q5) fun o ho => ?_
        refine ⟨fun _ _ => h1, fun p hp => Or.inr ?_⟩
        obtain ⟨a1, a2, a3, a4, a5, a6, a7⟩ := ho p hp
        exact ⟨a1, by omega, by omega, a3, by omega, by omega, a5, a6, a7⟩

end Verif.Chop
