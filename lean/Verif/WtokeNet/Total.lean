import Verif.WtokeNet.Items
/-!
# The construction ends
-/
set_option autoImplicit false
namespace Verif.WtokeNet
open Verif.Net Verif.Split Verif.Text
open Verif.Chop (Out)

/-- The outcome is not an endless loop, and results satisfy `P`. -/
def Ends {A : Type} (P : A → Prop) : Out A → Prop
  | .undef => True
  | .hang => False
  | .fail => True
  | .ok a => P a

theorem Ends.bind {A B : Type} {P : A → Prop} {Q : B → Prop} {x : Out A} {f : A → Out B} (h : Ends P x) (hf : ∀ a, P a → Ends Q (f a)) :
    Ends Q (x.bind f) := by
  cases x with
  | undef => trivial
  | hang => exact h.elim
  | fail => trivial
  | ok a => exact hf a h

theorem takeAlt_len : ∀ (rest : List Tok) (k : Nat), (takeAlt rest k).1.length + (takeAlt rest k).2.1.length = rest.length := by
  intro rest
  induction rest with
  | nil => intro k; cases k <;> rfl
  | cons t ts ih =>
    intro k
    cases k with
    | zero => show 0 + (t :: ts).length = _; omega
    | succ k =>
      unfold takeAlt
      split
      · simp
      · have := ih k
        simp only [List.length_cons]
        omega

theorem oneAlt_ends (enc : Enc) (hc ltr : Bool) (rest : List Tok) (k : Nat) :
    Ends (fun x => x.2.1.length < rest.length ∨ x.2.1 = []) (oneAlt enc hc ltr rest k) := by
  have hl := takeAlt_len rest k
  unfold oneAlt
  dsimp only
  split
  · rename_i h
    refine Ends.bind (P := fun _ => True) ?_ ?_
    · unfold altNull
      split
      · split <;> trivial
      · trivial
    · intro n _
      show List.length (List.drop 1 _) < _ ∨ _
      rw [h] at hl
      generalize (takeAlt rest k).2.1 = r at hl
      cases r with
      | nil => right; rfl
      | cons t ts => left; simp at hl ⊢; omega
  · rename_i h
    refine Ends.bind (P := fun _ => True) ?_ ?_
    · unfold altWords
      split <;> trivial
    · intro n _
      left
      show (takeAlt rest k).2.1.length < _
      have := List.length_pos_iff.2 h
      omega

theorem joinAlt_ends (acc : Option (Net Wd)) (n : Net Wd) : Ends (fun _ => True) (joinAlt acc n) := by
  unfold joinAlt
  split
  · trivial
  · split
    · trivial
    · split <;> trivial

theorem nextAlt_ends (rest : List Tok) (k : Nat) : Ends (fun y => rest ≠ [] ∧ y.1.length ≤ rest.length) (nextAlt rest k) := by
  unfold nextAlt
  cases rest with
  | nil => trivial
  | cons t ts =>
    dsimp only
    split
    · split
      · trivial
      · split
        · exact ⟨by simp, Nat.le_refl _⟩
        · exact ⟨by simp, by simp⟩
    · split
      · exact ⟨by simp, Nat.le_refl _⟩
      · exact ⟨by simp, by simp⟩

theorem altLoop_ends (enc : Enc) (hc ltr : Bool) : ∀ (f : Nat) (acc : Option (Net Wd)) (rest : List Tok) (k : Nat), rest.length < f →
    Ends (fun x => x.2.1.length < rest.length) (altLoop enc hc ltr f acc rest k) := by
  intro f
  induction f with
  | zero => intro acc rest k h; omega
  | succ f ih =>
    intro acc rest k h
    unfold altLoop
    refine (oneAlt_ends enc hc ltr rest k).bind fun x hx => ?_
    refine (joinAlt_ends acc x.1).bind fun n _ => ?_
    refine (nextAlt_ends x.2.1 x.2.2).bind fun y hy => ?_
    have hlt : x.2.1.length < rest.length := hx.resolve_right hy.1
    split
    · have := ih (some n) y.1 y.2 (by omega)
      generalize altLoop enc hc ltr f (some n) y.1 y.2 = o at this
      cases o with
      | undef => trivial
      | hang => exact this.elim
      | fail => trivial
      | ok z =>
        have hz : z.2.1.length < y.1.length := this
        show z.2.1.length < _
        omega
    · show y.1.length < _
      omega

theorem skipBegin_len : ∀ (rest : List Tok) (k : Nat), (skipBegin rest k).1.length ≤ rest.length := by
  intro rest
  induction rest with
  | nil => intro k; cases k <;> exact Nat.le_refl _
  | cons t ts ih =>
    intro k
    cases k with
    | zero => exact Nat.le_refl _
    | succ k =>
      unfold skipBegin
      split
      · have := ih k; simp only [List.length_cons]; omega
      · exact Nat.le_refl _

theorem alternation_ends (enc : Enc) (hc ltr : Bool) (net : Net Wd) (rest : List Tok) (k : Nat) :
    Ends (fun x => x.2.1.length < rest.length) (alternation enc hc ltr net rest k) := by
  unfold alternation
  dsimp only
  refine (altLoop_ends enc hc ltr _ none (skipBegin rest k).1 (skipBegin rest k).2 (by omega)).bind fun x hx => ?_
  have := skipBegin_len rest k
  split
  · trivial
  · show x.2.1.length < _; omega

theorem lineLoop_ends (enc : Enc) (hc ltr : Bool) : ∀ (f : Nat) (net : Net Wd) (rest : List Tok) (k : Nat), rest.length < f →
    Ends (fun _ => True) (lineLoop enc hc ltr f net rest k) := by
  intro f
  induction f with
  | zero => intro net rest k h; omega
  | succ f ih =>
    intro net rest k h
    cases rest with
    | nil => unfold lineLoop; exact trivial
    | cons t ts =>
      cases k with
      | zero => unfold lineLoop; exact trivial
      | succ k =>
        rw [List.length_cons] at h
        unfold lineLoop
        dsimp only
        split
        · refine (alternation_ends enc hc ltr net (t :: ts) (k + 1)).bind fun x hx => ?_
          refine ih _ _ _ ?_
          have : x.2.1.length < (t :: ts).length := hx
          rw [List.length_cons] at this
          have : (x.2.1.drop 1).length ≤ x.2.1.length := by simp
          omega
        · split
          · split
            · trivial
            · exact ih _ _ _ (by omega)
          · exact ih _ _ _ (by omega)

theorem create_ends (enc : Enc) (hc ltr : Bool) (rest : List Tok) (k : Nat) : create enc hc ltr rest k ≠ .hang := by
  have := lineLoop_ends enc hc ltr (rest.length + 1) (Net.init Wd) rest k (by omega)
  intro e
  unfold create at e
  rw [e] at this
  exact this

end Verif.WtokeNet
