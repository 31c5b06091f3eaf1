import Verif.Text.Spec
/-!
# The text comparison is a lexicographic order
-/
set_option autoImplicit false
namespace Verif.Text

/-- Lexicographic comparison of lists of numbers. -/
def lexN : List Nat → List Nat → Int
  | [], [] => 0
  | [], _ :: _ => -1
  | _ :: _, [] => 1
  | x :: p, y :: q => if x < y then -1 else if y < x then 1 else lexN p q

theorem lexN_antisymm (p q : List Nat) : lexN q p = - lexN p q := by
  induction p generalizing q with
  | nil => cases q <;> rfl
  | cons x p ih =>
    cases q with
    | nil => rfl
    | cons y q =>
      unfold lexN
      by_cases h1 : x < y
      · simp only [if_pos h1, if_neg (show ¬ y < x by omega)]; rfl
      · by_cases h2 : y < x
        · simp only [if_neg h1, if_pos h2]
        · simp only [if_neg h1, if_neg h2]; exact ih q

theorem lexN_zero (p q : List Nat) : lexN p q = 0 ↔ p = q := by
  induction p generalizing q with
  | nil => cases q <;> simp [lexN]
  | cons x p ih =>
    cases q with
    | nil => simp [lexN]
    | cons y q =>
      unfold lexN
      by_cases h1 : x < y
      · rw [if_pos h1]; constructor
        · intro h; omega
        · intro h; injection h; omega
      · by_cases h2 : y < x
        · rw [if_neg h1, if_pos h2]; constructor
          · intro h; omega
          · intro h; injection h; omega
        · rw [if_neg h1, if_neg h2, ih q]
          have : x = y := by omega
          subst this
          simp

theorem lexN_trans (p q r : List Nat) (h1 : lexN p q ≤ 0) (h2 : lexN q r ≤ 0) : lexN p r ≤ 0 := by
  induction p generalizing q r with
  | nil => cases r <;> simp [lexN]
  | cons x p ih =>
    cases q with
    | nil => simp [lexN] at h1
    | cons y q =>
      cases r with
      | nil => simp [lexN] at h2
      | cons z r =>
        unfold lexN at h1 h2 ⊢
        by_cases a1 : x < y
        · by_cases a2 : y < z
          · rw [if_pos (by omega)]; omega
          · rw [if_neg a2] at h2
            by_cases a3 : z < y
            · rw [if_pos a3] at h2; omega
            · rw [if_pos (by omega)]; omega
        · rw [if_neg a1] at h1
          by_cases a1' : y < x
          · rw [if_pos a1'] at h1; omega
          · rw [if_neg a1'] at h1
            have : x = y := by omega
            subst this
            by_cases a2 : x < z
            · rw [if_pos a2]; omega
            · rw [if_neg a2] at h2 ⊢
              by_cases a3 : z < x
              · rw [if_pos a3] at h2; omega
              · rw [if_neg a3] at h2 ⊢
                exact ih q r h1 h2

/-- Sort key of a list of characters. -/
def key (cs : List (List Nat)) : List Nat := cs.flatMap fun c => c.length :: c

theorem isChar_ne {e : Enc} {c : List Nat} (h : IsChar e c) : c ≠ [] := by
  obtain ⟨b, rest, hc, _⟩ := h
  rw [hc]; simp

theorem cmpBytes_eq (c d p q : List Nat) (hl : c.length = d.length) :
    cmpBytes c.length (c ++ p) (d ++ q) = if c = d then .same p q else .differ (lexN c d) := by
  induction c generalizing d with
  | nil =>
    cases d with
    | nil => rfl
    | cons _ _ => simp at hl
  | cons x c ih =>
    cases d with
    | nil => simp at hl
    | cons y d =>
      simp only [List.length_cons, List.cons_append, cmpBytes]
      by_cases hxy : x = y
      · subst hxy
        rw [if_neg (by simp), ih d (by simpa using hl)]
        have hx : lexN (x :: c) (x :: d) = lexN c d := by
          conv => lhs; unfold lexN
          rw [if_neg (Nat.lt_irrefl x), if_neg (Nat.lt_irrefl x)]
        rw [hx]
        by_cases hcd : c = d
        · rw [if_pos hcd, if_pos (by rw [hcd])]
        · rw [if_neg hcd, if_neg (by simpa using hcd)]
      · have hne : ¬ (x :: c = y :: d) := by simp [hxy]
        rw [if_pos hxy, if_neg hne]
        unfold lexN
        by_cases h : x < y
        · simp only [if_pos h]
        · simp only [if_neg h, if_pos (show y < x by omega)]

theorem lexN_append_same (c p q : List Nat) : lexN (c ++ p) (c ++ q) = lexN p q := by
  induction c with
  | nil => rfl
  | cons x c ih =>
    simp only [List.cons_append, lexN]
    rw [if_neg (Nat.lt_irrefl x), ih]; simp

theorem lexN_append_diff (c d p q : List Nat) (hl : c.length = d.length) (hne : c ≠ d) :
    lexN (c ++ p) (d ++ q) = lexN c d := by
  induction c generalizing d with
  | nil =>
    cases d with
    | nil => exact absurd rfl hne
    | cons _ _ => simp at hl
  | cons x c ih =>
    cases d with
    | nil => simp at hl
    | cons y d =>
      simp only [List.cons_append, lexN]
      by_cases h : x < y
      · rw [if_pos h, if_pos h]
      · by_cases h2 : y < x
        · rw [if_neg h, if_neg h, if_pos h2, if_pos h2]
        · rw [if_neg h, if_neg h, if_neg h2, if_neg h2]
          have : x = y := by omega
          subst this
          exact ih d (by simpa using hl) (by simpa using hne)

theorem cmpLoop_key (e : Enc) (cs ds : List (List Nat)) (hc : ∀ c ∈ cs, IsChar e c) (hd : ∀ d ∈ ds, IsChar e d)
    (fuel : Nat) (hf : cs.flatten.length < fuel) :
    cmpLoop e fuel none cs.flatten ds.flatten = some (lexN (key cs) (key ds)) := by
  induction cs generalizing ds fuel with
  | nil =>
    cases fuel with
    | zero => simp at hf
    | succ fuel =>
      cases ds with
      | nil => rfl
      | cons d ds =>
        obtain ⟨b, rest, hdb, _⟩ := hd d List.mem_cons_self
        subst hdb
        rfl
  | cons c cs ih =>
    cases fuel with
    | zero => omega
    | succ fuel =>
      obtain ⟨b, rest, hcb, hn, _⟩ := hc c List.mem_cons_self
      cases ds with
      | nil => subst hcb; rfl
      | cons d ds =>
        obtain ⟨b', rest', hdb, hn', _⟩ := hd d List.mem_cons_self
        have e1 : (c :: cs).flatten = b :: (rest ++ cs.flatten) := by rw [hcb]; simp
        have e2 : (d :: ds).flatten = b' :: (rest' ++ ds.flatten) := by rw [hdb]; simp
        rw [e1] at hf
        rw [e1, e2]
        unfold cmpLoop
        simp only [hn, hn']
        have k1 : key (c :: cs) = c.length :: (c ++ key cs) := by simp [key]
        have k2 : key (d :: ds) = d.length :: (d ++ key ds) := by simp [key]
        rw [k1, k2]
        unfold lexN
        by_cases hlen : c.length = d.length
        · rw [if_neg (by simp [hlen]), hlen, if_neg (Nat.lt_irrefl _), if_neg (Nat.lt_irrefl _)]
          have hb := cmpBytes_eq c d cs.flatten ds.flatten hlen
          have f1 : b :: (rest ++ cs.flatten) = c ++ cs.flatten := by rw [hcb]; rfl
          have f2 : b' :: (rest' ++ ds.flatten) = d ++ ds.flatten := by rw [hdb]; rfl
          rw [f1, f2, ← hlen, hb]
          by_cases hcd : c = d
          · rw [if_pos hcd]
            simp only
            rw [hcd, lexN_append_same]
            apply ih ds (fun x hx => hc x (List.mem_cons_of_mem _ hx)) (fun x hx => hd x (List.mem_cons_of_mem _ hx))
            simp at hf ⊢
            omega
          · rw [if_neg hcd]
            simp only
            rw [lexN_append_diff c d _ _ hlen hcd]
        · rw [if_pos hlen]
          by_cases h : c.length < d.length
          · rw [if_pos h, if_pos h]
          · rw [if_neg h, if_neg h, if_pos (by omega)]

theorem key_inj {cs ds : List (List Nat)} (h : key cs = key ds) : cs = ds := by
  induction cs generalizing ds with
  | nil =>
    cases ds with
    | nil => rfl
    | cons d ds => simp [key] at h
  | cons c cs ih =>
    cases ds with
    | nil => simp [key] at h
    | cons d ds =>
      have k1 : key (c :: cs) = c.length :: (c ++ key cs) := by simp [key]
      have k2 : key (d :: ds) = d.length :: (d ++ key ds) := by simp [key]
      rw [k1, k2] at h
      injection h with h1 h2
      have := List.append_inj h2 h1
      rw [this.1, ih this.2]

/-- A text determines its characters. -/
theorem chars_unique {e : Enc} {cs ds : List (List Nat)} (hc : ∀ c ∈ cs, IsChar e c) (hd : ∀ d ∈ ds, IsChar e d)
    (h : cs.flatten = ds.flatten) : cs = ds := by
  induction cs generalizing ds with
  | nil =>
    cases ds with
    | nil => rfl
    | cons d ds =>
      obtain ⟨b, rest, hdb, _⟩ := hd d List.mem_cons_self
      subst hdb
      simp at h
  | cons c cs ih =>
    obtain ⟨b, rest, hcb, hn, _⟩ := hc c List.mem_cons_self
    cases ds with
    | nil => subst hcb; simp at h
    | cons d ds =>
      obtain ⟨b', rest', hdb, hn', _⟩ := hd d List.mem_cons_self
      have hb : b = b' := by
        subst hcb hdb
        simp at h
        exact h.1
      subst hb
      rw [hn] at hn'
      injection hn' with hl
      have h' : c ++ cs.flatten = d ++ ds.flatten := by simpa using h
      have := List.append_inj h' hl
      rw [this.1, ih (fun x hx => hc x (List.mem_cons_of_mem _ hx)) (fun x hx => hd x (List.mem_cons_of_mem _ hx)) this.2]

theorem strcmp_key (e : Enc) (cs ds : List (List Nat)) (hc : ∀ c ∈ cs, IsChar e c) (hd : ∀ d ∈ ds, IsChar e d) :
    strcmp e cs.flatten ds.flatten = some (lexN (key cs) (key ds)) :=
  cmpLoop_key e cs ds hc hd _ (Nat.lt_succ_self _)

end Verif.Text
