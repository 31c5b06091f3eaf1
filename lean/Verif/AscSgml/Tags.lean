import Verif.AscSgml.Spec
import Verif.Sgml.Lemmas
/-!
# Reports of asclite: lemmas on numbers and tags
-/
set_option autoImplicit false
namespace Verif.AscSgml
open Verif.Text Verif.Lines
open Verif.Sgml (cut cut_spec takeWhile_stop dropWhile_stop takeWhile_all dropWhile_all)

/-! ## Numbers -/

/-- A digit. -/
def Digit (b : Nat) : Prop := 48 ≤ b ∧ b ≤ 57

theorem numOf_digit (d : Nat) (h : d < 10) (r : List Nat) (acc : Nat) : numOf ((48 + d) :: r) acc = numOf r (acc * 10 + d) := by
  show (if 48 ≤ 48 + d ∧ 48 + d ≤ 57 then numOf r (acc * 10 + (48 + d - 48)) else acc) = _
  rw [if_pos (by omega)]
  congr 1
  omega

theorem decGo_spec (f : Nat) : ∀ (n : Nat) (acc : List Nat), n < f →
    ∃ ds, decGo f n acc = ds ++ acc ∧ ds ≠ [] ∧ (∀ b ∈ ds, Digit b) ∧ ∀ r, numOf (ds ++ r) 0 = numOf r n := by
  induction f with
  | zero => intro n acc h; omega
  | succ f ih =>
    intro n acc h
    show ∃ ds, (if n < 10 then (48 + n) :: acc else decGo f (n / 10) ((48 + n % 10) :: acc)) = ds ++ acc ∧ _
    by_cases hn : n < 10
    · rw [if_pos hn]
      refine ⟨[48 + n], rfl, by simp, ?_, ?_⟩
      · intro b hb; rw [List.mem_singleton] at hb; subst hb; exact ⟨by omega, by omega⟩
      · intro r
        show numOf ((48 + n) :: r) 0 = _
        rw [numOf_digit n hn, Nat.zero_mul, Nat.zero_add]
    · rw [if_neg hn]
      obtain ⟨ds, h1, h2, h3, h4⟩ := ih (n / 10) ((48 + n % 10) :: acc) (by omega)
      refine ⟨ds ++ [48 + n % 10], by rw [h1]; simp, by simp, ?_, ?_⟩
      · intro b hb
        rcases List.mem_append.1 hb with hb | hb
        · exact h3 b hb
        · rw [List.mem_singleton] at hb; subst hb; exact ⟨by omega, by omega⟩
      · intro r
        rw [List.append_assoc, h4, List.singleton_append, numOf_digit _ (by omega)]
        congr 1
        omega

theorem dec_spec (n : Nat) : dec n ≠ [] ∧ (∀ b ∈ dec n, Digit b) ∧ ∀ r, numOf (dec n ++ r) 0 = numOf r n := by
  obtain ⟨ds, h1, h2, h3, h4⟩ := decGo_spec (n + 1) n [] (by omega)
  unfold dec
  rw [h1, List.append_nil]
  exact ⟨h2, h3, h4⟩

theorem numOf_dec (n : Nat) : numOf (dec n) 0 = n := by
  have := (dec_spec n).2.2 []
  rw [List.append_nil] at this
  exact this

theorem millis_secs (n : Int) : millis (secs n) = n.toNat := by
  have h := (dec_spec (n.toNat / 1000)).2.1
  have h46 : 46 ∉ dec (n.toNat / 1000) := fun hm => by have := h 46 hm; unfold Digit at this; omega
  unfold millis secs
  rw [takeWhile_stop 46 _ _ h46, dropWhile_stop 46 _ _ h46, numOf_dec]
  show _ + numOf ((48 + n.toNat / 100 % 10) :: (48 + n.toNat / 10 % 10) :: (48 + n.toNat % 10) :: []) 0 = _
  rw [numOf_digit _ (by omega), numOf_digit _ (by omega), numOf_digit _ (by omega)]
  show _ + _ = _
  unfold numOf
  omega

theorem secs_bytes (n : Int) : secs n ≠ [] ∧ ∀ b ∈ secs n, b = 46 ∨ Digit b := by
  refine ⟨by unfold secs; simp, ?_⟩
  intro b hb
  unfold secs at hb
  rcases List.mem_append.1 hb with hb | hb
  · exact Or.inr ((dec_spec _).2.1 b hb)
  · simp only [List.mem_cons, List.not_mem_nil, or_false] at hb
    unfold Digit
    omega

theorem secs_number (n : Int) : Sgml.IsNumber (secs n) :=
  ⟨(secs_bytes n).1, fun x hx => by
    have := (secs_bytes n).2 x hx
    unfold Digit at this
    omega⟩

/-! ## Clean texts -/

theorem clean_ascii (e : Enc) (t : List Nat) (h : ∀ x ∈ t, 0 < x ∧ x < 128 ∧ x ≠ 34 ∧ x ≠ 10) : Clean e t := by
  refine ⟨⟨t.map fun x => [x], ?_, ?_⟩, ?_, ?_, ?_⟩
  · induction t with
    | nil => rfl
    | cons x t ih => simp [ih (fun y hy => h y (List.mem_cons_of_mem _ hy))]
  · intro c hc
    obtain ⟨x, hx, rfl⟩ := List.mem_map.1 hc
    have := h x hx
    refine ⟨x, [], rfl, by rw [nbytes_ascii e this.2.1]; rfl, ?_⟩
    intro y hy; rw [List.mem_singleton] at hy; omega
  all_goals intro hm; have := h _ hm; omega

theorem clean_dec (e : Enc) (n : Nat) : Clean e (dec n) := clean_ascii e _ fun x hx => by
  have := (dec_spec n).2.1 x hx
  unfold Digit at this
  omega

theorem clean_secs (e : Enc) (n : Int) : Clean e (secs n) := clean_ascii e _ fun x hx => by
  have := (secs_bytes n).2 x hx
  unfold Digit at this
  omega

/-! ## Tags -/

theorem spn_stop (e : Enc) (set : List Nat) (b : Nat) (r : List Nat) (hb : b < 128) (h : b ∉ set) : spn e set (b :: r) = some (b :: r) := by
  show (match nbytes e b with
    | none => none
    | some n => if 1 < n then some (b :: r) else if b ∈ set then spn e set r else some (b :: r)) = _
  rw [nbytes_ascii e hb]
  dsimp only
  rw [if_neg (by omega), if_neg h]

theorem spn_skip (e : Enc) (set : List Nat) (b : Nat) (r : List Nat) (hb : b < 128) (h : b ∈ set) : spn e set (b :: r) = spn e set r := by
  show (match nbytes e b with
    | none => none
    | some n => if 1 < n then some (b :: r) else if b ∈ set then spn e set r else some (b :: r)) = _
  rw [nbytes_ascii e hb]
  dsimp only
  rw [if_neg (by omega), if_pos h]

theorem cspn_stop (e : Enc) (set : List Nat) (cs : List (List Nat)) (hc : ∀ c ∈ cs, IsChar e c)
    (hn : ∀ b ∈ set, b ∉ cs.flatten) (b : Nat) (r : List Nat) (hb : b < 128) (hbs : b ∈ set) :
    ∀ (fuel : Nat), (cs.flatten ++ b :: r).length ≤ fuel → cspn e set fuel (cs.flatten ++ b :: r) = some (cs.flatten, b :: r) := by
  induction cs with
  | nil =>
    intro fuel hf
    cases fuel with
    | zero => simp at hf
    | succ fuel =>
      show cspn e set (fuel + 1) (b :: r) = some ([], b :: r)
      unfold cspn
      rw [nbytes_ascii e hb]
      dsimp only
      rw [if_neg (by omega), if_pos hbs]
  | cons c cs ih =>
    intro fuel hf
    obtain ⟨x, rest, e1, hn1⟩ := isChar_cons (hc c List.mem_cons_self)
    subst e1
    have ih := ih (fun c hcc => hc c (List.mem_cons_of_mem _ hcc))
      (fun y hy hm => hn y hy (by rw [List.flatten_cons]; exact List.mem_append_right _ hm))
    have hx : x ∉ set := fun hm => hn x hm (by simp)
    simp only [List.flatten_cons, List.cons_append, List.append_assoc] at hf ⊢
    cases fuel with
    | zero => simp at hf
    | succ fuel =>
      have hf' : (cs.flatten ++ b :: r).length ≤ fuel := by
        simp only [List.length_append, List.length_cons] at hf ⊢; omega
      unfold cspn
      simp only [hn1]
      by_cases hr : 1 < rest.length + 1
      · rw [if_pos hr, if_pos (by simp)]
        have : (x :: (rest ++ (cs.flatten ++ b :: r))).drop (rest.length + 1) = cs.flatten ++ b :: r := by simp
        rw [this, ih fuel hf']
        simp
      · have hr' : rest = [] := by
          cases rest with
          | nil => rfl
          | cons _ _ => simp at hr
        subst hr'
        rw [if_neg hr, if_neg hx]
        simp only [List.nil_append]
        rw [ih fuel hf']
        rfl

/-- Names of attributes. -/
def Key (k : List Nat) : Prop := k ≠ [] ∧ ∀ b ∈ k, 0 < b ∧ b < 128 ∧ b ≠ 61 ∧ b ≠ 10 ∧ b ≠ 32 ∧ b ≠ 9 ∧ b ≠ 62 ∧ b ≠ 34

instance (k : List Nat) : Decidable (Key k) := inferInstanceAs (Decidable (_ ∧ _))

/-- The text of attributes, from the first name on. -/
def attrText : List (List Nat × List Nat) → List Nat
  | [] => []
  | a :: as => a.1 ++ 61 :: 34 :: (a.2 ++ 34 :: (match as with
    | [] => [62, 10]
    | _ :: _ => 32 :: attrText as))

theorem attrText_eq (a : List Nat × List Nat) (as : List (List Nat × List Nat)) :
    (a :: as).flatMap (fun a => 32 :: a.1 ++ [61, 34] ++ a.2 ++ [34]) ++ [62, 10] = 32 :: attrText (a :: as) := by
  induction as generalizing a with
  | nil => simp [attrText]
  | cons b as ih =>
    rw [List.flatMap_cons, List.append_assoc, ih b]
    simp [attrText]

theorem attrLoop_spec (e : Enc) (as : List (List Nat × List Nat)) : ∀ (a : List Nat × List Nat) (acc : List (List Nat × List Nat))
    (fuel : Nat), (∀ x ∈ a :: as, Key x.1 ∧ Clean e x.2) → acc.length + (a :: as).length ≤ 30 → (a :: as).length < fuel →
    attrLoop e fuel acc (attrText (a :: as)) = some (acc ++ a :: as) := by
  induction as with
  | nil =>
    intro a acc fuel h hl hf
    obtain ⟨⟨k1, k2⟩, ⟨cs, hcs, hch⟩, h34, _, _⟩ := h a List.mem_cons_self
    have hsp1 : ∀ r, spn e [32, 9, 10] (a.1 ++ r) = some (a.1 ++ r) := by
      intro r
      cases hk : a.1 with
      | nil => exact absurd hk k1
      | cons x xs =>
        have := k2 x (by rw [hk]; exact List.mem_cons_self)
        exact spn_stop e _ x _ this.2.1 (by simp; omega)
    cases fuel with
    | zero => simp at hf
    | succ fuel =>
      cases fuel with
      | zero => simp at hf
      | succ fuel =>
      have hk := clean_ascii e a.1 (fun x hx => by have := k2 x hx; omega)
      obtain ⟨⟨ks, hks, hkc⟩, _⟩ := hk
      have hname : cspn e [61, 10] (a.1 ++ 61 :: 34 :: (a.2 ++ 34 :: [62, 10])).length (a.1 ++ 61 :: 34 :: (a.2 ++ 34 :: [62, 10])) =
          some (a.1, 61 :: 34 :: (a.2 ++ 34 :: [62, 10])) := by
        have := cspn_stop e [61, 10] ks hkc (fun b hb hm => by
          rw [hks] at hm
          have := k2 b hm
          simp at hb
          omega) 61 (34 :: (a.2 ++ 34 :: [62, 10])) (by decide) (by decide) _ (Nat.le_refl _)
        rw [hks] at this
        exact this
      have hval : cspn e [34] (a.2 ++ 34 :: [62, 10]).length (a.2 ++ 34 :: [62, 10]) = some (a.2, 34 :: [62, 10]) := by
        have := cspn_stop e [34] cs hch (fun b hb hm => by
          rw [hcs] at hm
          rw [List.mem_singleton] at hb
          subst hb
          exact h34 hm) 34 [62, 10] (by decide) (by decide) _ (Nat.le_refl _)
        rw [hcs] at this
        exact this
      have hend : spn e [32, 9, 10, 62] [62, 10] = some [] := by
        rw [spn_skip e _ 62 _ (by decide) (by decide), spn_skip e _ 10 _ (by decide) (by decide)]
        rfl
      show attrLoop e (fuel + 1 + 1) acc (a.1 ++ 61 :: 34 :: (a.2 ++ 34 :: [62, 10])) = _
      have hne : ∃ x xs, a.1 ++ 61 :: 34 :: (a.2 ++ 34 :: [62, 10]) = x :: xs := by
        cases hk : a.1 with
        | nil => exact absurd hk k1
        | cons x xs => exact ⟨x, _, rfl⟩
      obtain ⟨x, xs, hx⟩ := hne
      have hsp := hsp1 (61 :: 34 :: (a.2 ++ 34 :: [62, 10]))
      rw [hx] at hsp hname ⊢
      unfold attrLoop
      rw [hsp]
      dsimp only
      rw [hname]
      dsimp only
      rw [if_neg k1]
      show (match cspn e [34] (a.2 ++ 34 :: [62, 10]).length (a.2 ++ 34 :: [62, 10]) with
        | some (v, _ :: b5) =>
          match spn e [32, 9, 10, 62] b5 with
          | none => none
          | some b6 => if acc.length < 30 then attrLoop e (fuel + 1) (acc ++ [(a.1, v)]) b6 else none
        | _ => none) = _
      rw [hval]
      dsimp only
      rw [hend]
      dsimp only
      rw [if_pos (by simp at hl; omega)]
      unfold attrLoop
      rfl
  | cons a' as ih =>
    intro a acc fuel h hl hf
    obtain ⟨⟨k1, k2⟩, ⟨cs, hcs, hch⟩, h34, _, _⟩ := h a List.mem_cons_self
    obtain ⟨⟨k1', k2'⟩, _⟩ := h a' (List.mem_cons_of_mem _ List.mem_cons_self)
    have hsp1 : ∀ r, spn e [32, 9, 10] (a.1 ++ r) = some (a.1 ++ r) := by
      intro r
      cases hk : a.1 with
      | nil => exact absurd hk k1
      | cons x xs =>
        have := k2 x (by rw [hk]; exact List.mem_cons_self)
        exact spn_stop e _ x _ this.2.1 (by simp; omega)
    cases fuel with
    | zero => simp at hf
    | succ fuel =>
      have hk := clean_ascii e a.1 (fun x hx => by have := k2 x hx; omega)
      obtain ⟨⟨ks, hks, hkc⟩, _⟩ := hk
      generalize hR : 32 :: attrText (a' :: as) = R
      have hname : cspn e [61, 10] (a.1 ++ 61 :: 34 :: (a.2 ++ 34 :: R)).length (a.1 ++ 61 :: 34 :: (a.2 ++ 34 :: R)) =
          some (a.1, 61 :: 34 :: (a.2 ++ 34 :: R)) := by
        have := cspn_stop e [61, 10] ks hkc (fun b hb hm => by
          rw [hks] at hm
          have := k2 b hm
          simp at hb
          omega) 61 (34 :: (a.2 ++ 34 :: R)) (by decide) (by decide) _ (Nat.le_refl _)
        rw [hks] at this
        exact this
      have hval : cspn e [34] (a.2 ++ 34 :: R).length (a.2 ++ 34 :: R) = some (a.2, 34 :: R) := by
        have := cspn_stop e [34] cs hch (fun b hb hm => by
          rw [hcs] at hm
          rw [List.mem_singleton] at hb
          subst hb
          exact h34 hm) 34 R (by decide) (by decide) _ (Nat.le_refl _)
        rw [hcs] at this
        exact this
      have hend : spn e [32, 9, 10, 62] R = some (attrText (a' :: as)) := by
        rw [← hR, spn_skip e _ 32 _ (by decide) (by decide)]
        show spn e _ (a'.1 ++ _) = some (a'.1 ++ _)
        cases hk : a'.1 with
        | nil => exact absurd hk k1'
        | cons x xs =>
          have := k2' x (by rw [hk]; exact List.mem_cons_self)
          exact spn_stop e _ x _ this.2.1 (by simp; omega)
      have he : attrText (a :: a' :: as) = a.1 ++ 61 :: 34 :: (a.2 ++ 34 :: R) := by rw [← hR]; rfl
      rw [he]
      have hne : ∃ x xs, a.1 ++ 61 :: 34 :: (a.2 ++ 34 :: R) = x :: xs := by
        cases hk : a.1 with
        | nil => exact absurd hk k1
        | cons x xs => exact ⟨x, _, rfl⟩
      obtain ⟨x, xs, hx⟩ := hne
      have hsp := hsp1 (61 :: 34 :: (a.2 ++ 34 :: R))
      rw [hx] at hsp hname ⊢
      unfold attrLoop
      rw [hsp]
      dsimp only
      rw [hname]
      dsimp only
      rw [if_neg k1]
      show (match cspn e [34] (a.2 ++ 34 :: R).length (a.2 ++ 34 :: R) with
        | some (v, _ :: b5) =>
          match spn e [32, 9, 10, 62] b5 with
          | none => none
          | some b6 => if acc.length < 30 then attrLoop e fuel (acc ++ [(a.1, v)]) b6 else none
        | _ => none) = _
      rw [hval]
      dsimp only
      rw [hend]
      dsimp only
      simp only [List.length_cons] at hl hf
      rw [if_pos (by omega), ih a' (acc ++ [(a.1, a.2)]) fuel (fun x hx => h x (List.mem_cons_of_mem _ hx))
        (by simp; omega) (by simp; omega)]
      simp

/-- A tag is read as it was written. -/
theorem parseTag_spec (e : Enc) (name : List Nat) (as : List (List Nat × List Nat)) (hn : 32 ∉ name) (h0 : as ≠ [])
    (hl : as.length ≤ 30) (h : ∀ x ∈ as, Key x.1 ∧ Clean e x.2) : parseTag e (tagLine name as) = some (name, as) := by
  cases as with
  | nil => exact absurd rfl h0
  | cons a as =>
    have he : (tagLine name (a :: as)).drop 1 = name ++ 32 :: attrText (a :: as) := by
      unfold tagLine
      rw [List.append_assoc, attrText_eq]
      rfl
    unfold parseTag
    rw [he, cut_spec 32 _ _ hn]
    dsimp only
    have hlen : ∀ (l : List (List Nat × List Nat)), l.length ≤ (attrText l).length := by
      intro l
      induction l with
      | nil => exact Nat.zero_le _
      | cons b l ih =>
        cases l with
        | nil => simp [attrText]; omega
        | cons c l =>
          have : attrText (b :: c :: l) = b.1 ++ 61 :: 34 :: (b.2 ++ 34 :: 32 :: attrText (c :: l)) := rfl
          rw [this]
          simp only [List.length_append, List.length_cons] at ih ⊢
          omega
    rw [attrLoop_spec e as a [] _ h (by simpa using hl) (by have := hlen (a :: as); omega)]
    rfl

theorem endTag_spec (n : List Nat) (ts : List (List Nat)) (h : 62 ∉ n) : endTag (n :: ts) (endLine n) = some (n, ts) := by
  unfold endTag endLine
  have he : ([60, 47] ++ n ++ [62, 10]).drop 2 = n ++ 62 :: [10] := by simp
  rw [he, cut_spec 62 _ _ h]
  dsimp only
  have hs : ∀ t : List Nat, strBcmp t.length t t = 0 := by
    intro t
    induction t with
    | nil => rfl
    | cons x t ih => unfold strBcmp; simp [ih]
  rw [if_pos (hs n)]

end Verif.AscSgml
