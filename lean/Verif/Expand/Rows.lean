import Verif.Expand.Whole
/-!
# Reading along a chain of tokens
-/
set_option autoImplicit false
namespace Verif.Expand
open Verif.LineStyle

theorem line_tail {next : Nat → List Nat} {x : Nat} : ∀ {l : List Nat}, Line next (x :: l) → Line next l
  | [], _ => ⟨trivial, by simp⟩
  | y :: l, h => ⟨h.1.2, fun z hz => h.2 z (by rw [List.getLast?_cons_cons]; exact hz)⟩

theorem line_drop {next : Nat → List Nat} {l : List Nat} : ∀ {A : List Nat}, Line next (A ++ l) → Line next l
  | [], h => h
  | _ :: A, h => line_drop (A := A) (line_tail h)

theorem line_closed {next : Nat → List Nat} : ∀ {l : List Nat}, Line next l → ∀ x ∈ l, ∀ y ∈ next x, y ∈ l := by
  intro l
  induction l with
  | nil => intro _ x hx; simp at hx
  | cons a l ih =>
    intro h x hx y hy
    rcases List.mem_cons.1 hx with rfl | hx
    · cases l with
      | nil => rw [h.2 x (by simp)] at hy; simp at hy
      | cons b l =>
        rw [h.1.1] at hy
        have : y = b := by simpa using hy
        simp [this]
    · exact List.mem_cons_of_mem _ (ih (line_tail h) x hx y hy)

theorem reads_none {E : Nat → Nat → Prop} {L P : Nat → Prop} {V : Nat → List Word → Prop} (hE : ∀ x y, P x → E x y → P y) (hL : ∀ x, P x → ¬ L x)
    {x : Nat} {u : List Word} (h : Reads E L V x u) : ¬ P x := by
  induction h with
  | last h1 _ => exact fun hp => hL _ hp h1
  | step _ he _ ih => exact fun hp => ih (hE _ _ hp he)

theorem reads_line {next : Nat → List Nat} {V : Nat → List Word → Prop} {C : List Nat} {e : Nat} : ∀ (l : List Nat) (x : Nat), Line next (x :: l ++ C) →
    (x :: l ++ C).Nodup → (x :: l).getLast? = some e → ∀ u, Reads (fun x y => y ∈ next x) (· = e) V x u ↔ Joined V (x :: l) u := by
  intro l
  induction l with
  | nil =>
    intro x h hn he u
    have hxe : x = e := by simpa using he
    subst hxe
    constructor
    · intro h1
      cases h1 with
      | last _ hv => exact ⟨u, [], by simp, hv, rfl⟩
      | step hv hE hr =>
        exfalso
        have hC : Line next C := line_drop (A := [x]) h
        refine reads_none (P := (· ∈ C)) (fun a b ha hb => line_closed hC a ha b hb) (fun a ha e => ?_) hr ?_
        · subst e
          exact (List.nodup_cons.1 hn).1 ha
        · have h0 := h
          cases C with
          | nil => rw [h.2 x (by simp)] at hE; simp at hE
          | cons c C =>
            rw [h.1.1] at hE
            simp at hE
            simp [hE]
    · rintro ⟨a, b, rfl, hv, hb⟩
      have : b = [] := hb
      subst this
      rw [List.append_nil]
      exact .last rfl hv
  | cons y l ih =>
    intro x h hn he u
    have hnext : next x = [y] := h.1.1
    have ih' := ih y (line_tail h) (List.nodup_cons.1 hn).2 (by rw [List.getLast?_cons_cons] at he; exact he)
    constructor
    · intro h1
      cases h1 with
      | last hl _ =>
        exfalso
        have hl' : x = e := hl
        subst hl'
        rw [List.getLast?_cons_cons] at he
        have := List.mem_of_getLast? he
        exact (List.nodup_cons.1 hn).1 (List.mem_append.2 (Or.inl this))
      | @step _ z a b hv hE hr =>
        have hz : z = y := by rw [hnext] at hE; simpa using hE
        subst hz
        exact ⟨a, b, rfl, hv, (ih' b).1 hr⟩
    · rintro ⟨a, b, rfl, hv, hb⟩
      exact .step hv (by rw [hnext]; simp) ((ih' b).2 hb)

theorem lang_line {next : Nat → List Nat} {V : Nat → List Word → Prop} {A B C : List Nat} (h : Line next (A ++ B ++ C)) (hn : (A ++ B ++ C).Nodup)
    (hB : B ≠ []) (u : List Word) :
    Lang (fun x y => y ∈ next x) (· ∈ B.take 1) (· ∈ B.getLast?.toList) V u ↔ Joined V B u := by
  cases B with
  | nil => exact absurd rfl hB
  | cons x l =>
    rw [List.append_assoc] at h hn
    have hn' : (x :: l ++ C).Nodup := (List.sublist_append_right _ _).nodup hn
    cases he : (x :: l).getLast? with
    | none => simp at he
    | some e =>
      rw [← reads_line l x (line_drop h) hn' he u]
      unfold Lang
      have hL : (fun y => y ∈ (some e).toList) = (· = e) := by funext y; simp
      rw [hL]
      constructor
      · rintro ⟨y, hy, hr⟩
        have : y = x := by simpa using hy
        exact this ▸ hr
      · intro hr
        exact ⟨x, by simp, hr⟩

theorem joined_congr {V V' : Nat → List Word → Prop} : ∀ {l : List Nat}, (∀ x ∈ l, ∀ u, V x u ↔ V' x u) → ∀ u, Joined V l u ↔ Joined V' l u := by
  intro l
  induction l with
  | nil => intro _ u; exact Iff.rfl
  | cons x l ih =>
    intro h u
    unfold Joined
    constructor
    · rintro ⟨a, b, e, ha, hb⟩
      exact ⟨a, b, e, (h x List.mem_cons_self a).1 ha, (ih (fun y hy => h y (List.mem_cons_of_mem _ hy)) b).1 hb⟩
    · rintro ⟨a, b, e, ha, hb⟩
      exact ⟨a, b, e, (h x List.mem_cons_self a).2 ha, (ih (fun y hy => h y (List.mem_cons_of_mem _ hy)) b).2 hb⟩

theorem joined_length {V : Nat → List Word → Prop} : ∀ {l : List Nat}, (∀ x ∈ l, ¬ V x []) → ∀ {u : List Word}, Joined V l u → l.length ≤ u.length := by
  intro l
  induction l with
  | nil => intro _ u _; exact Nat.zero_le _
  | cons x l ih =>
    rintro h u ⟨a, b, rfl, ha, hb⟩
    have h1 := ih (fun y hy => h y (List.mem_cons_of_mem _ hy)) hb
    have h2 : a ≠ [] := fun e => h x List.mem_cons_self (e ▸ ha)
    have := List.length_pos_iff.2 h2
    simp
    omega

theorem joined_none {V : Nat → List Word → Prop} {r : Nat} (hr : ∀ u, ¬ V r u) : ∀ {l : List Nat}, r ∈ l → ∀ u, ¬ Joined V l u := by
  intro l
  induction l with
  | nil => intro h; simp at h
  | cons x l ih =>
    rintro h u ⟨a, b, rfl, ha, hb⟩
    rcases List.mem_cons.1 h with rfl | h
    · exact hr a ha
    · exact ih h b hb

theorem reads_restrict {E : Nat → Nat → Prop} {L N : Nat → Prop} {V : Nat → List Word → Prop} (hE : ∀ x y, E x y → N x → N y) {x : Nat} (hx : N x) (u : List Word) :
    Reads (fun a b => E a b ∧ N a ∧ N b) L V x u ↔ Reads E L V x u := by
  constructor
  · intro h
    clear hx
    induction h with
    | last h1 h2 => exact .last h1 h2
    | step h1 h2 _ ih => exact .step h1 h2.1 ih
  · intro h
    induction h with
    | last h1 h2 => exact .last h1 h2
    | @step a b u v h1 h2 _ ih => exact .step h1 ⟨h2, hx, hE a b h2 hx⟩ (ih (hE a b h2 hx))

end Verif.Expand
