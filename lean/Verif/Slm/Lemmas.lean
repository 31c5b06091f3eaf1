import Verif.Slm.Model
import Verif.Slm.Spec
/-!
# Lemmas on tables and files of language models
-/
set_option autoImplicit false
namespace Verif.Slm

/-! ## Short indices -/

theorem search_spec {tab : List Nat} {pos q : Nat} (hq : q < tab.length) (hk : ∀ k x, tab[k]? = some x → (x ≤ pos ↔ k ≤ q)) (f lo hi : Nat)
    (h1 : lo ≤ q) (h2 : q < hi ∨ (lo = q ∧ hi = q)) (h3 : hi < tab.length) (hf : hi - lo < f) : search tab pos f lo hi = some q := by
  induction f generalizing lo hi with
  | zero => omega
  | succ f ih =>
    unfold search
    by_cases h : 1 < hi - lo
    · rw [if_pos (by simpa using h)]
      dsimp only
      have hm : (hi + lo) / 2 < tab.length := by omega
      have := hk _ _ (List.getElem?_eq_getElem hm)
      rw [List.getElem?_eq_getElem hm, Option.getD_some]
      by_cases hp : pos < tab[(hi + lo) / 2]
      · rw [if_pos (by simpa using hp)]
        exact ih lo _ h1 (.inl (by omega)) hm (by omega)
      · rw [if_neg (by simpa using hp)]
        exact ih _ hi (by omega) (.inl (by omega)) h3 (by omega)
    · rw [if_neg (by simpa using h)]
      have : lo = q := by omega
      rw [this]

theorem fullIndex_spec {tab : List Nat} {pos full : Nat} (hq : full / key < tab.length) (hk : ∀ k x, tab[k]? = some x → (x ≤ pos ↔ k ≤ full / key)) :
    fullIndex tab (full % key) pos = some full := by
  have hnn : 0 ≤ full / key := Nat.zero_le _
  generalize hqe : full / key = q at hq hk hnn
  have hne : tab.isEmpty = false := by
    cases tab with
    | nil => simp at hq
    | cons => rfl
  have hlast : tab.length - 1 < tab.length := by omega
  have hx := hk _ _ (List.getElem?_eq_getElem hlast)
  have hs : search tab pos (tab.length + 1) (if decide ((tab[tab.length - 1]?).getD 0 ≤ pos) = true then tab.length - 1 else 0) (tab.length - 1) =
      some q := by
    rw [List.getElem?_eq_getElem hlast, Option.getD_some]
    by_cases h : tab[tab.length - 1] ≤ pos
    · rw [if_pos (by simpa using h)]
      have := hx.1 h
      exact search_spec hq hk _ _ _ (by omega) (.inr ⟨by omega, by omega⟩) hlast (by omega)
    · rw [if_neg (by simpa using h)]
      exact search_spec hq hk _ _ _ (by omega) (.inl (by omega)) hlast (by omega)
  unfold fullIndex
  rw [hne, if_neg Bool.false_ne_true]
  dsimp only
  rw [hs, Option.map_some, ← hqe, Nat.mul_comm, Nat.div_add_mod]

/-- A table that is right for some positions. -/
def Right (tab : List Nat) (p f : Nat) : Prop := f / key < tab.length ∧ ∀ k x, tab[k]? = some x → (x ≤ p ↔ k ≤ f / key)

theorem push_iff (tab : List Nat) (f : Nat) : (decide ((f : Int) - ((tab.length : Int) - 1) * (key : Int) ≥ (key : Int)) = true) ↔ tab.length ≤ f / key := by
  rw [decide_eq_true_eq, Nat.le_div_iff_mul_le (by decide)]
  unfold key
  omega

theorem right_step {tab : List Nat} {p f p' f' : Nat} (hp : p < p') (h : Right tab p f) : Right (newIndex tab p' f').1 p f := by
  unfold newIndex
  dsimp only
  split
  · refine ⟨by rw [List.length_append]; have := h.1; omega, ?_⟩
    intro k x hx
    by_cases hk : k < tab.length
    · rw [List.getElem?_append_left hk] at hx
      exact h.2 k x hx
    · rw [List.getElem?_append_right (by omega)] at hx
      have := h.1
      have hx' : x = p' := by
        cases hd : k - tab.length with
        | zero => rw [hd] at hx; injection hx with hx; exact hx.symm
        | succ d => rw [hd] at hx; cases hx
      constructor <;> intro _ <;> omega
  · exact h

/-- The table ends with the index stored last. -/
theorem right_new {tab : List Nat} {p f : Nat} (h1 : tab.length ≤ f / key + 1) (h2 : f / key ≤ tab.length) (hle : ∀ x ∈ tab, x ≤ p) :
    Right (newIndex tab p f).1 p f ∧ (newIndex tab p f).1.length = f / key + 1 ∧ ∀ x ∈ (newIndex tab p f).1, x ≤ p := by
  unfold newIndex
  dsimp only
  by_cases h : tab.length ≤ f / key
  · rw [if_pos ((push_iff tab f).2 h)]
    have hm : ∀ x ∈ tab ++ [p], x ≤ p := by
      intro x hx
      rcases List.mem_append.1 hx with hx | hx
      · exact hle x hx
      · rw [List.mem_singleton] at hx
        omega
    refine ⟨⟨by rw [List.length_append, List.length_singleton]; omega, fun k x hx => ⟨fun _ => ?_, fun _ => hm x (List.mem_of_getElem? hx)⟩⟩,
      by rw [List.length_append, List.length_singleton]; omega, hm⟩
    have := (List.getElem?_eq_some_iff.1 hx).1
    rw [List.length_append, List.length_singleton] at this
    omega
  · rw [if_neg (fun e => h ((push_iff tab f).1 e))]
    refine ⟨⟨by omega, fun k x hx => ⟨fun _ => ?_, fun _ => hle x (List.mem_of_getElem? hx)⟩⟩, by omega, hle⟩
    have := (List.getElem?_eq_some_iff.1 hx).1
    omega

theorem right_store {ps : List (Nat × Nat)} {tab : List Nat} {p f p0 f0 : Nat} (h : Right tab p f) (hp : p < p0) (hs : Steps key ((p0, f0) :: ps)) :
    Right (store tab ((p0, f0) :: ps)).1 p f := by
  induction ps generalizing tab p0 f0 with
  | nil => exact right_step hp h
  | cons o ps ih =>
    obtain ⟨p1, f1⟩ := o
    exact ih (right_step hp h) (Nat.lt_trans hp hs.1) hs.2.2.2

theorem store_right {ps : List (Nat × Nat)} {tab : List Nat} {p f : Nat} (h1 : tab.length ≤ f / key + 1) (h2 : f / key ≤ tab.length)
    (hle : ∀ x ∈ tab, x ≤ p) (hs : Steps key ((p, f) :: ps)) (i : Nat) (q g : Nat) (hi : ((p, f) :: ps)[i]? = some (q, g)) :
    (store tab ((p, f) :: ps)).2[i]? = some (g % key) ∧ Right (store tab ((p, f) :: ps)).1 q g := by
  obtain ⟨r1, r2, r3⟩ := right_new h1 h2 hle
  induction ps generalizing tab p f i with
  | nil =>
    cases i with
    | zero =>
      injection hi with hi
      injection hi with e1 e2
      subst e1
      subst e2
      exact ⟨rfl, r1⟩
    | succ i => cases hi
  | cons o ps ih =>
    obtain ⟨p1, f1⟩ := o
    obtain ⟨s1, s2, s3, s4⟩ := hs
    have hd1 : f / key ≤ f1 / key := Nat.div_le_div_right s2
    have hd2 : f1 / key ≤ f / key + 1 := by
      have := Nat.div_le_div_right (c := key) s3
      rwa [Nat.add_div_right _ (by decide)] at this
    have a1 : (newIndex tab p f).1.length ≤ f1 / key + 1 := by omega
    have a2 : f1 / key ≤ (newIndex tab p f).1.length := by omega
    have a3 : ∀ x ∈ (newIndex tab p f).1, x ≤ p1 := fun x hx => by have := r3 x hx; omega
    cases i with
    | zero =>
      injection hi with hi
      injection hi with e1 e2
      subst e1
      subst e2
      refine ⟨rfl, ?_⟩
      have := right_store (ps := ps) (f0 := f1) r1 s1 s4
      exact this
    | succ i =>
      obtain ⟨b1, b2, b3⟩ := right_new a1 a2 a3
      exact ih a1 a2 a3 s4 i hi b1 b2 b3

/-! ## The table of counts -/

theorem scan_some {tab tab' : List Int} {v : Int} {n i : Nat} (hn : n ≤ tab.length) (h : scan tab v n = some (tab', i)) :
    i < n ∧ ((tab[i]? = some v ∧ tab' = tab) ∨ (tab[i]? = some 0 ∧ tab' = tab.set i v)) ∧ ∀ k, i < k → k < n → tab[k]? ≠ some v ∧ tab[k]? ≠ some 0 := by
  induction n with
  | zero => cases h
  | succ n ih =>
    unfold scan at h
    split at h
    · rename_i e
      injection h with h
      injection h with e1 e2
      subst e2
      exact ⟨by omega, .inl ⟨by simpa using e, e1.symm⟩, fun k _ _ => by omega⟩
    · rename_i ne1
      split at h
      · rename_i e
        injection h with h
        injection h with e1 e2
        subst e2
        exact ⟨by omega, .inr ⟨by simpa using e, e1.symm⟩, fun k _ _ => by omega⟩
      · rename_i ne2
        obtain ⟨h1, h2, h3⟩ := ih (by omega) h
        refine ⟨by omega, h2, fun k hk1 hk2 => ?_⟩
        by_cases e : k = n
        · subst e
          exact ⟨by simpa using ne1, by simpa using ne2⟩
        · exact h3 k hk1 (by omega)

theorem scan_of {tab : List Int} {v : Int} {n i : Nat} (hi : i < n) (h : tab[i]? = some v)
    (hk : ∀ k, i < k → k < n → tab[k]? ≠ some v ∧ tab[k]? ≠ some 0) : scan tab v n = some (tab, i) := by
  induction n with
  | zero => omega
  | succ n ih =>
    unfold scan
    by_cases e : i = n
    · subst e
      rw [if_pos (by simpa using h)]
    · obtain ⟨h1, h2⟩ := hk n (by omega) (by omega)
      rw [if_neg (by simpa using h1), if_neg (by simpa using h2)]
      exact ih (by omega) (fun k a b => hk k a (by omega))

theorem scan_none {tab : List Int} {v : Int} {n : Nat} : scan tab v n = none ↔ ∀ k, k < n → tab[k]? ≠ some v ∧ tab[k]? ≠ some 0 := by
  induction n with
  | zero => exact ⟨fun _ k hk => by omega, fun _ => rfl⟩
  | succ n ih =>
    unfold scan
    by_cases h1 : tab[n]? = some v
    · rw [if_pos (by simpa using h1)]
      exact ⟨(fun h => by cases h), fun h => absurd h1 (h n (by omega)).1⟩
    · rw [if_neg (by simpa using h1)]
      by_cases h2 : tab[n]? = some 0
      · rw [if_pos (by simpa using h2)]
        exact ⟨(fun h => by cases h), fun h => absurd h2 (h n (by omega)).2⟩
      · rw [if_neg (by simpa using h2), ih]
        constructor
        · intro h k hk
          by_cases e : k = n
          · subst e
            exact ⟨h1, h2⟩
          · exact h k (by omega)
        · intro h k hk
          exact h k (by omega)

/-- What a call does. -/
theorem indexOf_some {tab tab' : List Int} {v : Int} {i : Nat} (h : indexOf tab v = some (tab', i)) :
    i < tab.length ∧ ((tab[i]? = some v ∧ tab' = tab) ∨ (tab[i]? = some 0 ∧ tab' = tab.set i v)) ∧
      ((0 < v ∧ v < (tab.length : Int) ∧ i = v.toNat) ∨
        ((0 < v → v < (tab.length : Int) → tab[v.toNat]? ≠ some v ∧ tab[v.toNat]? ≠ some 0) ∧
          ∀ k, i < k → k < tab.length → tab[k]? ≠ some v ∧ tab[k]? ≠ some 0)) := by
  unfold indexOf at h
  split at h
  · rename_i e
    injection h with h
    injection h with e1 e2
    subst e2
    simp only [Bool.and_eq_true, decide_eq_true_eq, beq_iff_eq] at e
    exact ⟨by omega, .inl ⟨e.2, e1.symm⟩, .inl ⟨e.1.1, e.1.2, rfl⟩⟩
  · rename_i n1
    split at h
    · rename_i e
      injection h with h
      injection h with e1 e2
      subst e2
      simp only [Bool.and_eq_true, decide_eq_true_eq, beq_iff_eq] at e
      exact ⟨by omega, .inr ⟨e.2, e1.symm⟩, .inl ⟨e.1.1, e.1.2, rfl⟩⟩
    · rename_i n2
      obtain ⟨h1, h2, h3⟩ := scan_some (Nat.le_refl _) h
      simp only [Bool.and_eq_true, decide_eq_true_eq, beq_iff_eq] at n1 n2
      exact ⟨h1, h2, .inr ⟨fun a b => ⟨fun c => n1 ⟨⟨a, b⟩, c⟩, fun c => n2 ⟨⟨a, b⟩, c⟩⟩, h3⟩⟩

/-- Entries that are set stay. -/
def Keeps (tab tab' : List Int) : Prop := tab'.length = tab.length ∧ ∀ (k : Nat) (w : Int), tab[k]? = some w → w ≠ 0 → tab'[k]? = some w

theorem Keeps.trans {a b c : List Int} (h1 : Keeps a b) (h2 : Keeps b c) : Keeps a c :=
  ⟨by rw [h2.1, h1.1], fun k w hk hw => h2.2 k w (h1.2 k w hk hw) hw⟩

theorem indexOf_keeps {tab tab' : List Int} {v : Int} {i : Nat} (h : indexOf tab v = some (tab', i)) : tab'[i]? = some v ∧ Keeps tab tab' := by
  obtain ⟨h1, h2, _⟩ := indexOf_some h
  rcases h2 with ⟨h2, rfl⟩ | ⟨h2, rfl⟩
  · exact ⟨h2, rfl, fun _ _ h _ => h⟩
  · refine ⟨by rw [List.getElem?_set_self h1], List.length_set, fun k w hk hw => ?_⟩
    by_cases e : i = k
    · subst e
      rw [h2] at hk
      injection hk with hk
      exact absurd hk.symm hw
    · rw [List.getElem?_set_ne e]
      exact hk

theorem keeps_not {tab tab' : List Int} (hk : Keeps tab tab') {k : Nat} {v : Int} (h : tab[k]? ≠ some v ∧ tab[k]? ≠ some 0) (hl : k < tab.length) :
    tab'[k]? ≠ some v ∧ tab'[k]? ≠ some 0 := by
  have e := List.getElem?_eq_getElem hl
  have hw : tab[k] ≠ 0 := by
    intro e0
    rw [e0] at e
    exact h.2 e
  have := hk.2 k _ e hw
  rw [this, ← e]
  exact h

theorem indexOf_again {tab tab' tab'' : List Int} {v : Int} {i : Nat} (hv : v ≠ 0) (h : indexOf tab v = some (tab', i)) (hk : Keeps tab' tab'') :
    indexOf tab'' v = some (tab'', i) := by
  obtain ⟨hi, hk1⟩ := indexOf_keeps h
  obtain ⟨h1, _, h3⟩ := indexOf_some h
  have hkk := hk1.trans hk
  have hi' : tab''[i]? = some v := hk.2 i v hi hv
  unfold indexOf
  rcases h3 with ⟨a, b, rfl⟩ | ⟨a, b⟩
  · rw [if_pos (by simp [a, hkk.1, b, hi'])]
  · have n : ∀ w, w = v ∨ w = 0 → ¬ (decide (0 < v) && decide (v < (tab''.length : Int)) && tab''[v.toNat]? == some w) = true := by
      intro w hw e
      simp only [Bool.and_eq_true, decide_eq_true_eq, beq_iff_eq, hkk.1] at e
      have := keeps_not hkk (a e.1.1 e.1.2) (by omega)
      rcases hw with rfl | rfl
      · exact this.1 e.2
      · exact this.2 e.2
    rw [if_neg (n v (.inl rfl)), if_neg (n 0 (.inr rfl))]
    exact scan_of (by rw [hkk.1]; exact h1) hi' (fun k c d => by
      rw [hkk.1] at d
      exact keeps_not hkk (b k c d) d)

theorem indices_keeps {vs tab tab' : List Int} {is : List Nat} (h : indices tab vs = some (tab', is)) : Keeps tab tab' := by
  induction vs generalizing tab tab' is with
  | nil =>
    injection h with h
    injection h with h _
    subst h
    exact ⟨rfl, fun _ _ h _ => h⟩
  | cons v vs ih =>
    unfold indices at h
    cases e : indexOf tab v with
    | none => rw [e] at h; cases h
    | some r =>
      obtain ⟨t1, i⟩ := r
      rw [e] at h
      dsimp only at h
      cases e2 : indices t1 vs with
      | none => rw [e2] at h; cases h
      | some r2 =>
        rw [e2] at h
        injection h with h
        injection h with h3 h4
        obtain ⟨t2, js⟩ := r2
        dsimp only at h3
        rw [← h3]
        exact (indexOf_keeps e).2.trans (ih e2)

/-! ## Merging -/

theorem cmp_spec {a b : List Nat} (h : a.length = b.length) : (cmp a b = .gt ↔ b < a) ∧ (cmp a b = .eq ↔ a = b) := by
  induction a generalizing b with
  | nil =>
    cases b with
    | nil => simp [cmp]
    | cons => cases h
  | cons x s ih =>
    cases b with
    | nil => cases h
    | cons y t =>
      obtain ⟨i1, i2⟩ := ih (Nat.succ.inj h)
      unfold cmp
      rw [List.cons_lt_cons_iff, List.cons.injEq]
      rcases Nat.lt_trichotomy x y with hlt | heq | hlt
      · rw [if_pos hlt]
        refine ⟨⟨(fun e => by cases e), (fun e => by omega)⟩, ⟨(fun e => by cases e), (fun e => by omega)⟩⟩
      · subst heq
        rw [if_neg (Nat.lt_irrefl x), if_neg (Nat.lt_irrefl x), i1, i2]
        simp
      · rw [if_neg (by omega), if_pos hlt]
        exact ⟨⟨fun _ => .inl hlt, fun _ => rfl⟩, ⟨(fun e => by cases e), (fun e => by omega)⟩⟩

theorem lt_irrefl' (a : List Nat) : ¬ a < a := List.lt_irrefl a

theorem not_lt_largest (n : Nat) (g : List Nat) (hl : g.length = n) (hg : ∀ w ∈ g, w ≤ 65535) : ¬ largest n < g := by
  induction g generalizing n with
  | nil =>
    subst hl
    exact List.not_lt_nil _
  | cons w g ih =>
    subst hl
    unfold largest
    rw [List.length_cons, List.replicate_succ, List.cons_lt_cons_iff]
    have := hg w List.mem_cons_self
    rintro (h | ⟨_, h⟩)
    · omega
    · exact ih g.length rfl (fun x hx => hg x (List.mem_cons_of_mem _ hx)) h

/-- The heads of the files. -/
def heads (fs : List File) : List (List Nat) := fs.filterMap (fun f => f.head?.map Prod.fst)

theorem smallest_spec {n : Nat} {fs : List File} (hv : ∀ f ∈ fs, Valid n f) (o : List Nat) (ho : o.length = n) :
    smallest o fs ∈ o :: heads fs ∧ (smallest o fs).length = n ∧ ∀ g ∈ o :: heads fs, ¬ g < smallest o fs := by
  induction fs generalizing o with
  | nil =>
    refine ⟨List.mem_cons_self, ho, ?_⟩
    intro g hg
    rw [List.mem_singleton.1 hg]
    exact lt_irrefl' o
  | cons f fs ih =>
    have hv' := fun g hg => hv g (List.mem_cons_of_mem _ hg)
    cases f with
    | nil => exact ih hv' o ho
    | cons x r =>
      obtain ⟨g, c⟩ := x
      have hg : g.length = n := (hv _ List.mem_cons_self (g, c) List.mem_cons_self).1
      have hh : heads (((g, c) :: r) :: fs) = g :: heads fs := rfl
      obtain ⟨c1, _⟩ := cmp_spec (a := o) (b := g) (by rw [ho, hg])
      rw [hh]
      by_cases hc : g < o
      · have e : smallest o (((g, c) :: r) :: fs) = smallest g fs := by
          rw [smallest, if_pos (by rw [c1.2 hc]; rfl)]
        rw [e]
        obtain ⟨i1, i2, i3⟩ := ih hv' g hg
        refine ⟨List.mem_cons_of_mem _ i1, i2, ?_⟩
        intro x hx
        rcases List.mem_cons.1 hx with rfl | hx
        · intro hlt
          exact i3 g List.mem_cons_self (List.lt_trans hc hlt)
        · exact i3 x hx
      · have e : smallest o (((g, c) :: r) :: fs) = smallest o fs := by
          rw [smallest, if_neg]
          intro h
          exact hc (c1.1 (by simpa using h))
        rw [e]
        obtain ⟨i1, i2, i3⟩ := ih hv' o ho
        refine ⟨?_, i2, ?_⟩
        · rcases List.mem_cons.1 i1 with h | h
          · rw [h]
            exact List.mem_cons_self
          · exact List.mem_cons_of_mem _ (List.mem_cons_of_mem _ h)
        · intro x hx
          rcases List.mem_cons.1 hx with rfl | hx
          · exact i3 x List.mem_cons_self
          · rcases List.mem_cons.1 hx with rfl | hx
            · intro hlt
              have h1 := i3 o List.mem_cons_self
              rcases Std.lt_trichotomy o (smallest o fs) with h | h | h
              · exact h1 h
              · rw [← h] at hlt
                exact hc hlt
              · exact hc (List.lt_trans hlt h)
            · exact i3 x (List.mem_cons_of_mem _ hx)

end Verif.Slm
