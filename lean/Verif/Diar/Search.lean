import Verif.Diar.Mapping
/-!
# The search for the matching ends and finds mates that pass the check
-/
set_option autoImplicit false
namespace Verif.Diar

theorem upd_same {α : Type} (f : Nat → α) (k : Nat) (v : α) : upd f k v k = v := by unfold upd; rw [if_pos rfl]
theorem upd_ne {α : Type} (f : Nat → α) {k x : Nat} (v : α) (h : x ≠ k) : upd f k v x = f x := by unfold upd; rw [if_neg h]

/-- The duals are feasible, mates are tight and belong together. -/
structure Good (n : Nat) (c : Nat → Nat → Int) (h : Found) : Prop where
  feas : ∀ k, k < n → ∀ l, l < n → 0 ≤ left c h k l
  tight : ∀ k, k < n → ∀ l, h.colMate k = some l → left c h k l = 0
  cr : ∀ k, k < n → ∀ l, h.colMate k = some l → l < n ∧ h.rowMate l = some k
  rc : ∀ l, l < n → ∀ k, h.rowMate l = some k → k < n ∧ h.colMate k = some l

/-- `a` comes before `b`. -/
def Before (Q : List Nat) (a b : Nat) : Prop := ∃ A B, Q = A ++ B ∧ a ∈ A ∧ b ∈ B

theorem Before.append {Q : List Nat} {a b : Nat} (h : Before Q a b) (X : List Nat) : Before (Q ++ X) a b := by
  obtain ⟨A, B, rfl, ha, hb⟩ := h
  exact ⟨A, B ++ X, by rw [List.append_assoc], ha, List.mem_append_left _ hb⟩

theorem Before.idx {Q : List Nat} (hn : Q.Nodup) {a b : Nat} (h : Before Q a b) : Q.idxOf a < Q.idxOf b := by
  obtain ⟨A, B, rfl, ha, hb⟩ := h
  have hbA : b ∉ A := fun hm => (List.nodup_append.1 hn).2.2 b hm b hb rfl
  rw [List.idxOf_append, List.idxOf_append, if_pos ha, if_neg hbA]
  have := List.idxOf_lt_length_of_mem ha
  omega

/-- The alternating forest; `E k l` for rows and columns that have been compared. -/
structure Tree (n : Nat) (c : Nat → Nat → Int) (h : Found) (f : Forest) (E : Nat → Nat → Prop) : Prop where
  nodup : f.queue.Nodup
  lt : ∀ k ∈ f.queue, k < n
  free : ∀ k, k < n → h.colMate k = none → k ∈ f.queue
  inq : ∀ k ∈ f.queue, ∀ j, h.colMate k = some j → f.slack j = some 0
  zero : ∀ l, l < n → f.slack l = some 0 → ∃ r, h.rowMate l = some r ∧ r ∈ f.queue ∧ left c h (f.parent l) l = 0 ∧ Before f.queue (f.parent l) r
  pos : ∀ l, l < n → ∀ v, f.slack l = some v → 0 ≤ v
  le : ∀ k l, l < n → E k l → f.slack l = some 0 ∨ ∃ v, f.slack l = some v ∧ v ≤ left c h k l
  src : ∀ l, l < n → ∀ v, f.slack l = some v → v ≠ 0 → f.slackRow l ∈ f.queue ∧ left c h (f.slackRow l) l = v

/-! ## Exploring a row -/

theorem explore_ok (n : Nat) (c : Nat → Nat → Int) (h : Found) (hg : Good n c h) (k : Nat) :
    ∀ (ls : List Nat) (f : Forest) (E : Nat → Nat → Prop), (∀ l ∈ ls, l < n) → Tree n c h f E → k ∈ f.queue →
      (∃ X, (explore c h k ls f).1.queue = f.queue ++ X) ∧
      (∀ l, (explore c h k ls f).2 = some l → l < n ∧ h.rowMate l = none ∧ left c h k l = 0 ∧ ∃ E', Tree n c h (explore c h k ls f).1 E') ∧
      ((explore c h k ls f).2 = none → Tree n c h (explore c h k ls f).1 (fun a l => E a l ∨ (a = k ∧ l ∈ ls)))
  | [], f, E, _, ht, _ => by
    rw [explore]
    refine ⟨⟨[], by rw [List.append_nil]⟩, fun l hl => by (cases hl), fun _ => ?_⟩
    exact { ht with le := fun a l hl he => ht.le a l hl (by rcases he with he | ⟨_, he⟩; exact he; cases he) }
  | l :: ls, f, E, hls, ht, hk => by
    have hl : l < n := hls l (List.mem_cons_self ..)
    have hkn := ht.lt k hk
    have hls' : ∀ l ∈ ls, l < n := fun a ha => hls a (List.mem_cons_of_mem _ ha)
    have hfe := hg.feas k hkn l hl
    -- carrying on with a forest that has seen this column
    have step : ∀ f', (∃ X, f'.queue = f.queue ++ X) → Tree n c h f' (fun a b => E a b ∨ (a = k ∧ b = l)) →
        (∃ X, (explore c h k ls f').1.queue = f.queue ++ X) ∧
        (∀ l, (explore c h k ls f').2 = some l → l < n ∧ h.rowMate l = none ∧ left c h k l = 0 ∧ ∃ E', Tree n c h (explore c h k ls f').1 E') ∧
        ((explore c h k ls f').2 = none → Tree n c h (explore c h k ls f').1 (fun a b => E a b ∨ (a = k ∧ b ∈ l :: ls))) := by
      rintro f' ⟨X, hX⟩ ht'
      obtain ⟨⟨Y, i1⟩, i2, i3⟩ := explore_ok n c h hg k ls f' _ hls' ht' (by rw [hX]; exact List.mem_append_left _ hk)
      refine ⟨⟨X ++ Y, by rw [i1, hX, List.append_assoc]⟩, i2, fun hn => ?_⟩
      have := i3 hn
      exact { this with le := fun a b hb he => this.le a b hb (by
                rcases he with he | ⟨he, hm⟩
                · exact Or.inl (Or.inl he)
                · rcases List.mem_cons.1 hm with rfl | hm
                  · exact Or.inl (Or.inr ⟨he, rfl⟩)
                  · exact Or.inr ⟨he, hm⟩) }
    rw [explore]
    split
    · rename_i hc
      rw [Bool.and_eq_true] at hc
      have hnz : f.slack l ≠ some 0 := by
        intro e
        rw [e] at hc
        simp at hc
      split
      · rename_i h0
        cases hr : h.rowMate l with
        | none =>
          dsimp only
          refine ⟨⟨[], by rw [List.append_nil]⟩, fun l' hl' => ?_, fun hn => by (cases hn)⟩
          obtain rfl := Option.some.inj hl'
          exact ⟨hl, hr, h0, E, ht⟩
        | some r =>
          dsimp only
          refine step _ ⟨[r], rfl⟩ ?_
          obtain ⟨hrn, hrc⟩ := hg.rc l hl r hr
          have hrq : r ∉ f.queue := fun hm => hnz (ht.inq r hm l hrc)
          refine ⟨?_, ?_, ?_, ?_, ?_, ?_, ?_, ?_⟩
          · rw [List.nodup_append]
            refine ⟨ht.nodup, by simp, fun a ha b hb e => ?_⟩
            rw [List.mem_singleton] at hb
            exact hrq (by rw [← hb, ← e]; exact ha)
          · intro a ha
            rcases List.mem_append.1 ha with ha | ha
            · exact ht.lt a ha
            · rw [List.mem_singleton.1 ha]; exact hrn
          · exact fun a ha hm => List.mem_append_left _ (ht.free a ha hm)
          · intro a ha j hj
            dsimp only
            by_cases hjl : j = l
            · rw [hjl, upd_same]
            · rw [upd_ne _ _ hjl]
              rcases List.mem_append.1 ha with ha | ha
              · exact ht.inq a ha j hj
              · rw [List.mem_singleton.1 ha, hrc] at hj
                exact absurd (Option.some.inj hj).symm hjl
          · intro b hb hz
            dsimp only at hz ⊢
            by_cases hbl : b = l
            · subst hbl
              refine ⟨r, hr, List.mem_append_right _ (List.mem_singleton.2 rfl), by rw [upd_same]; exact h0, f.queue, [r], rfl, ?_, List.mem_singleton.2 rfl⟩
              rw [upd_same]; exact hk
            · rw [upd_ne _ _ hbl] at hz ⊢
              obtain ⟨r', z1, z2, z3, z4⟩ := ht.zero b hb hz
              exact ⟨r', z1, List.mem_append_left _ z2, z3, z4.append _⟩
          · intro b hb v hv
            dsimp only at hv
            by_cases hbl : b = l
            · rw [hbl, upd_same] at hv
              rw [← Option.some.inj hv]; exact Int.le_refl _
            · rw [upd_ne _ _ hbl] at hv
              exact ht.pos b hb v hv
          · intro a b hb he
            dsimp only
            by_cases hbl : b = l
            · left; rw [hbl, upd_same]
            · rw [upd_ne _ _ hbl]
              rcases he with he | ⟨_, he⟩
              · exact ht.le a b hb he
              · exact absurd he hbl
          · intro b hb v hv hv0
            dsimp only at hv ⊢
            by_cases hbl : b = l
            · rw [hbl, upd_same] at hv
              exact absurd (Option.some.inj hv).symm hv0
            · rw [upd_ne _ _ hbl] at hv
              obtain ⟨s1, s2⟩ := ht.src b hb v hv hv0
              exact ⟨List.mem_append_left _ s1, s2⟩
      · rename_i h0
        refine step _ ⟨[], by rw [List.append_nil]⟩ ?_
        refine ⟨ht.nodup, ht.lt, ht.free, ?_, ?_, ?_, ?_, ?_⟩
        · intro a ha j hj
          dsimp only
          have := ht.inq a ha j hj
          rw [upd_ne _ _ (fun e : j = l => hnz (by rw [← e]; exact this))]
          exact this
        · intro b hb hz
          dsimp only at hz ⊢
          by_cases hbl : b = l
          · rw [hbl, upd_same] at hz
            exact absurd (Option.some.inj hz) h0
          · rw [upd_ne _ _ hbl] at hz
            exact ht.zero b hb hz
        · intro b hb v hv
          dsimp only at hv
          by_cases hbl : b = l
          · rw [hbl, upd_same] at hv
            rw [← Option.some.inj hv]; exact hfe
          · rw [upd_ne _ _ hbl] at hv
            exact ht.pos b hb v hv
        · intro a b hb he
          dsimp only
          by_cases hbl : b = l
          · subst hbl
            right
            refine ⟨_, upd_same _ _ _, ?_⟩
            rcases he with he | ⟨he, _⟩
            · rcases ht.le a b hb he with hz | ⟨v, hv, hle⟩
              · exact absurd hz hnz
              · rw [hv] at hc
                have := hc.2
                simp at this
                omega
            · rw [he]; exact Int.le_refl _
          · rw [upd_ne _ _ hbl]
            rcases he with he | ⟨_, he⟩
            · exact ht.le a b hb he
            · exact absurd he hbl
        · intro b hb v hv hv0
          dsimp only at hv ⊢
          by_cases hbl : b = l
          · subst hbl
            rw [upd_same] at hv
            rw [upd_same]
            exact ⟨hk, Option.some.inj hv⟩
          · rw [upd_ne _ _ hbl] at hv
            rw [upd_ne _ _ hbl]
            exact ht.src b hb v hv hv0
    · rename_i hc
      refine step f ⟨[], by rw [List.append_nil]⟩ { ht with le := fun a b hb he => ?_ }
      rcases he with he | ⟨rfl, rfl⟩
      · exact ht.le a b hb he
      · cases hs : f.slack b with
        | none => rw [hs] at hc; simp at hc
        | some v =>
          have h0 := ht.pos b hb v hs
          rw [hs] at hc
          simp at hc
          by_cases hv : v = 0
          · left; rw [hv]
          · exact Or.inr ⟨v, rfl, hc (by omega)⟩

/-! ## Introducing a zero -/

theorem smallest_ok (f : Forest) : ∀ (ls : List Nat) (s : Option Int),
    (∀ v, smallest f ls s = some v → s = some v ∨ ∃ l ∈ ls, f.slack l = some v ∧ v ≠ 0) ∧
    (∀ v, smallest f ls s = some v → (∀ w, s = some w → v ≤ w) ∧ ∀ l ∈ ls, ∀ w, f.slack l = some w → w ≠ 0 → v ≤ w) ∧
    (smallest f ls s = none → s = none ∧ ∀ l ∈ ls, ∀ w, f.slack l = some w → w = 0)
  | [], s => by
    rw [smallest]
    refine ⟨fun v hv => Or.inl hv, fun v hv => ⟨fun w hw => ?_, by simp⟩, fun h => ⟨h, by simp⟩⟩
    rw [hv] at hw; rw [Option.some.inj hw]; exact Int.le_refl _
  | l :: ls, s => by
    rw [smallest]
    split
    · rename_i hc
      obtain ⟨i1, i2, i3⟩ := smallest_ok f ls (f.slack l)
      cases hs : f.slack l with
      | none => rw [hs] at hc; simp at hc
      | some a =>
        rw [hs] at i1 i2 i3 hc
        have ha0 : a ≠ 0 := fun e => hc.1 (by rw [e])
        refine ⟨fun v hv => ?_, fun v hv => ⟨fun w hw => ?_, fun b hb w hw hw0 => ?_⟩, fun hn => ?_⟩
        · rcases i1 v hv with e | ⟨b, hb, e⟩
          · exact Or.inr ⟨l, List.mem_cons_self .., by rw [hs]; exact e, by rw [← Option.some.inj e]; exact ha0⟩
          · exact Or.inr ⟨b, List.mem_cons_of_mem _ hb, e⟩
        · have h1 := (i2 v hv).1 a rfl
          have h2 := hc.2
          rw [hw] at h2
          simp at h2
          omega
        · rcases List.mem_cons.1 hb with rfl | hb
          · exact (i2 v hv).1 w (by rw [← hs]; exact hw)
          · exact (i2 v hv).2 b hb w hw hw0
        · cases (i3 hn).1
    · rename_i hc
      obtain ⟨i1, i2, i3⟩ := smallest_ok f ls s
      refine ⟨fun v hv => ?_, fun v hv => ⟨(i2 v hv).1, fun b hb w hw hw0 => ?_⟩, fun hn => ⟨(i3 hn).1, fun b hb w hw => ?_⟩⟩
      · rcases i1 v hv with e | ⟨b, hb, e⟩
        · exact Or.inl e
        · exact Or.inr ⟨b, List.mem_cons_of_mem _ hb, e⟩
      · rcases List.mem_cons.1 hb with rfl | hb
        · cases hs : s with
          | none =>
            rw [hw, hs] at hc
            simp at hc
            exact absurd hc hw0
          | some a =>
            have h1 := (i2 v hv).1 a hs
            rw [hw, hs] at hc
            simp at hc
            have := hc hw0
            omega
        · exact (i2 v hv).2 b hb w hw hw0
      · rcases List.mem_cons.1 hb with rfl | hb
        · apply Classical.byContradiction
          intro hw0
          have hsn := (i3 hn).1
          rw [hw, hsn] at hc
          simp at hc
          exact hw0 hc
        · exact (i3 hn).2 b hb w hw

theorem inc_fold (sl : Nat → Option Int) (s : Int) : ∀ (ls : List Nat) (ci : Nat → Int), ls.Nodup → ∀ j,
    ls.foldl (fun ci j => if sl j = some 0 then upd ci j (ci j + s) else ci) ci j = if j ∈ ls ∧ sl j = some 0 then ci j + s else ci j
  | [], ci, _, j => by simp
  | l :: ls, ci, hn, j => by
    rw [List.foldl_cons, inc_fold sl s ls _ (List.nodup_cons.1 hn).2 j]
    have hl := (List.nodup_cons.1 hn).1
    by_cases hj : j = l
    · subst hj
      rw [if_neg (fun h => hl h.1)]
      by_cases hz : sl j = some 0
      · rw [if_pos hz, if_pos ⟨List.mem_cons_self .., hz⟩, upd_same]
      · rw [if_neg hz, if_neg (fun h => hz h.2)]
    · have e : (if sl l = some 0 then upd ci l (ci l + s) else ci) j = ci j := by
        split
        · rw [upd_ne _ _ hj]
        · rfl
      rw [e]
      have : j ∈ l :: ls ↔ j ∈ ls := by simp [hj]
      simp only [this]

theorem rows_fold (s : Int) : ∀ (Q : List Nat) (d : Nat → Int), Q.Nodup → ∀ k,
    Q.foldl (fun d k => upd d k (d k + s)) d k = if k ∈ Q then d k + s else d k
  | [], d, _, k => by simp
  | a :: Q, d, hn, k => by
    rw [List.foldl_cons, rows_fold s Q _ (List.nodup_cons.1 hn).2 k]
    have ha := (List.nodup_cons.1 hn).1
    by_cases hk : k = a
    · subst hk
      rw [if_neg ha, upd_same, if_pos (List.mem_cons_self ..)]
    · rw [upd_ne _ _ hk]
      have : k ∈ a :: Q ↔ k ∈ Q := by simp [hk]
      simp only [this]

/-- The slack of a column after the shift. -/
def moved (s : Int) (v : Option Int) : Option Int := if v = some 0 then some 0 else v.map (fun v => v - s)

theorem moved_zero (s : Int) (hs : s ≠ 0) (v : Option Int) (hv : v ≠ some 0) : v.map (fun v => v - s) = some 0 ↔ v = some s := by
  cases v with
  | none => simp
  | some a =>
    simp only [Option.map_some, Option.some.injEq]
    omega

theorem shift_ok (s : Int) (hs : s ≠ 0) (rm : Nat → Option Nat) : ∀ (ls : List Nat) (f : Forest) (ci : Nat → Int), ls.Nodup →
    let r := shift s rm ls f ci
    r.1.slackRow = f.slackRow ∧ (∀ j, f.slack j = some 0 ∨ j ∉ ls → r.1.parent j = f.parent j) ∧
    (∀ j, (j ∈ ls ∧ f.slack j = some 0) → (r.2.1) j = ci j + s) ∧ (∀ j, ¬ (j ∈ ls ∧ f.slack j = some 0) → (r.2.1) j = ci j) ∧
    (∀ l, r.2.2 = some l → l ∈ ls ∧ f.slack l = some s ∧ rm l = none) ∧
    (r.2.2 = none → (∀ j ∈ ls, r.1.slack j = moved s (f.slack j)) ∧ (∀ j, j ∉ ls → r.1.slack j = f.slack j) ∧
      (∀ j ∈ ls, f.slack j = some s → (rm j).isSome = true ∧ r.1.parent j = f.slackRow j) ∧
      r.1.queue = f.queue ++ (ls.filter (fun j => decide (f.slack j = some s))).filterMap rm)
  | [], f, ci, _ => by
    intro r
    have e : r = (f, ci, none) := rfl
    rw [e]
    refine ⟨rfl, fun _ _ => rfl, fun j hj => by (cases hj.1), fun _ _ => rfl, fun l hl => by (cases hl), fun _ => ⟨by simp, by simp, by simp, by simp⟩⟩
  | l :: ls, f, ci, hn => by
    intro r
    have hl := (List.nodup_cons.1 hn).1
    have hn' := (List.nodup_cons.1 hn).2
    have hne : ∀ j ∈ ls, j ≠ l := fun j hj e => hl (e ▸ hj)
    by_cases hz : f.slack l = some 0
    · have e : r = shift s rm ls f (upd ci l (ci l + s)) := by
        show shift s rm (l :: ls) f ci = _
        rw [shift, if_neg (fun h => h hz)]
      obtain ⟨i1, i2, i3, i4, i5, i6⟩ := shift_ok s hs rm ls f (upd ci l (ci l + s)) hn'
      rw [← e] at i1 i2 i3 i4 i5 i6
      refine ⟨i1, fun j hj => i2 j ?_, fun j hj => ?_, fun j hj => ?_, fun a ha => ?_, fun hno => ?_⟩
      · rcases hj with hj | hj
        · exact Or.inl hj
        · exact Or.inr (fun h => hj (List.mem_cons_of_mem _ h))
      · by_cases hjl : j = l
        · subst hjl
          rw [i4 j (fun h => hl h.1), upd_same]
        · rw [i3 j ⟨by rcases List.mem_cons.1 hj.1 with h | h; exact absurd h hjl; exact h, hj.2⟩, upd_ne _ _ hjl]
      · have hjl : j ≠ l := fun e => hj (by rw [e]; exact ⟨List.mem_cons_self .., hz⟩)
        rw [i4 j (fun h => hj ⟨List.mem_cons_of_mem _ h.1, h.2⟩), upd_ne _ _ hjl]
      · obtain ⟨a1, a2, a3⟩ := i5 a ha
        exact ⟨List.mem_cons_of_mem _ a1, a2, a3⟩
      · obtain ⟨a1, a2, a3, a4⟩ := i6 hno
        have hls : ¬ f.slack l = some s := by
          rw [hz]; intro h; exact hs (Option.some.inj h).symm
        refine ⟨fun j hj => ?_, fun j hj => a2 j (fun h => hj (List.mem_cons_of_mem _ h)), fun j hj hjs => ?_, ?_⟩
        · rcases List.mem_cons.1 hj with rfl | hj
          · rw [a2 j hl, hz]; rfl
          · exact a1 j hj
        · rcases List.mem_cons.1 hj with rfl | hj
          · exact absurd hjs hls
          · exact a3 j hj hjs
        · rw [a4, List.filter_cons, if_neg (by simpa using hls)]
    · let f1 : Forest := { f with slack := upd f.slack l ((f.slack l).map (fun v => v - s)) }
      have f1l : f1.slack l = (f.slack l).map (fun v => v - s) := upd_same _ _ _
      have f1j : ∀ j, j ≠ l → f1.slack j = f.slack j := fun j hj => upd_ne _ _ hj
      by_cases hsl : f.slack l = some s
      · have hz1 : f1.slack l = some 0 := by rw [f1l]; exact (moved_zero s hs _ hz).2 hsl
        cases hr : rm l with
        | none =>
          have e : r = (f1, ls.foldl (fun ci j => if f1.slack j = some 0 then upd ci j (ci j + s) else ci) ci, some l) := by
            show shift s rm (l :: ls) f ci = _
            rw [shift, if_pos hz]
            dsimp only
            rw [if_pos (show upd f.slack l ((f.slack l).map (fun v => v - s)) l = some 0 from hz1), hr]
          rw [e]
          dsimp only
          refine ⟨rfl, fun _ _ => rfl, fun j hj => ?_, fun j hj => ?_, fun a ha => ?_, fun hno => by (cases hno)⟩
          · rw [inc_fold _ _ _ _ hn']
            have hjl : j ≠ l := fun e => hz (e ▸ hj.2)
            rw [if_pos ⟨by rcases List.mem_cons.1 hj.1 with h | h; exact absurd h hjl; exact h, by rw [f1j j hjl]; exact hj.2⟩]
          · rw [inc_fold _ _ _ _ hn', if_neg]
            rintro ⟨h1, h2⟩
            exact hj ⟨List.mem_cons_of_mem _ h1, by rw [← f1j j (hne j h1)]; exact h2⟩
          · obtain rfl := Option.some.inj ha
            exact ⟨List.mem_cons_self .., hsl, hr⟩
        | some q =>
          let f2 : Forest := { f1 with parent := upd f1.parent l (f1.slackRow l), queue := f1.queue ++ [q] }
          have e : r = shift s rm ls f2 ci := by
            show shift s rm (l :: ls) f ci = _
            rw [shift, if_pos hz]
            dsimp only
            rw [if_pos (show upd f.slack l ((f.slack l).map (fun v => v - s)) l = some 0 from hz1), hr]
          obtain ⟨i1, i2, i3, i4, i5, i6⟩ := shift_ok s hs rm ls f2 ci hn'
          rw [← e] at i1 i2 i3 i4 i5 i6
          have f2j : ∀ j, j ≠ l → f2.slack j = f.slack j := f1j
          refine ⟨i1, fun j hj => ?_, fun j hj => ?_, fun j hj => ?_, fun a ha => ?_, fun hno => ?_⟩
          · by_cases hjl : j = l
            · subst hjl
              rcases hj with hj | hj
              · exact absurd hj hz
              · exact absurd (List.mem_cons_self ..) hj
            · refine (i2 j ?_).trans (upd_ne _ _ hjl)
              rcases hj with hj | hj
              · left; rw [f2j j hjl]; exact hj
              · right; exact fun h => hj (List.mem_cons_of_mem _ h)
          · have hjl : j ≠ l := fun e => hz (e ▸ hj.2)
            exact i3 j ⟨by rcases List.mem_cons.1 hj.1 with h | h; exact absurd h hjl; exact h, by rw [f2j j hjl]; exact hj.2⟩
          · refine i4 j ?_
            rintro ⟨h1, h2⟩
            exact hj ⟨List.mem_cons_of_mem _ h1, by rw [← f2j j (hne j h1)]; exact h2⟩
          · obtain ⟨a1, a2, a3⟩ := i5 a ha
            exact ⟨List.mem_cons_of_mem _ a1, by rw [← f2j a (hne a a1)]; exact a2, a3⟩
          · obtain ⟨a1, a2, a3, a4⟩ := i6 hno
            refine ⟨fun j hj => ?_, fun j hj => ?_, fun j hj hjs => ?_, ?_⟩
            · rcases List.mem_cons.1 hj with rfl | hj
              · rw [a2 j hl]
                show f1.slack j = _
                rw [f1l]; unfold moved; rw [if_neg hz]
              · rw [a1 j hj, f2j j (hne j hj)]
            · rw [a2 j (fun h => hj (List.mem_cons_of_mem _ h)), f2j j (fun e => hj (by rw [e]; exact List.mem_cons_self ..))]
            · rcases List.mem_cons.1 hj with rfl | hj
              · exact ⟨by rw [hr]; rfl, (i2 j (Or.inr hl)).trans (upd_same _ _ _)⟩
              · exact a3 j hj (by rw [f2j j (hne j hj)]; exact hjs)
            · rw [a4, List.filter_cons, if_pos (by simpa using hsl), List.filterMap_cons, hr]
              show f.queue ++ [q] ++ _ = _
              rw [List.append_assoc]
              congr 2
              have : ls.filter (fun j => decide (f2.slack j = some s)) = ls.filter (fun j => decide (f.slack j = some s)) :=
                List.filter_congr (fun j hj => by rw [f2j j (hne j hj)])
              rw [this]
              rfl
      · have hz1 : ¬ f1.slack l = some 0 := by rw [f1l, moved_zero s hs _ hz]; exact hsl
        have e : r = shift s rm ls f1 ci := by
          show shift s rm (l :: ls) f ci = _
          rw [shift, if_pos hz]
          dsimp only
          rw [if_neg (show ¬ upd f.slack l ((f.slack l).map (fun v => v - s)) l = some 0 from hz1)]
        obtain ⟨i1, i2, i3, i4, i5, i6⟩ := shift_ok s hs rm ls f1 ci hn'
        rw [← e] at i1 i2 i3 i4 i5 i6
        refine ⟨i1, fun j hj => ?_, fun j hj => ?_, fun j hj => ?_, fun a ha => ?_, fun hno => ?_⟩
        · by_cases hjl : j = l
          · subst hjl; exact i2 j (Or.inr hl)
          · refine i2 j ?_
            rcases hj with hj | hj
            · left; rw [f1j j hjl]; exact hj
            · right; exact fun h => hj (List.mem_cons_of_mem _ h)
        · have hjl : j ≠ l := fun e => hz (e ▸ hj.2)
          exact i3 j ⟨by rcases List.mem_cons.1 hj.1 with h | h; exact absurd h hjl; exact h, by rw [f1j j hjl]; exact hj.2⟩
        · refine i4 j ?_
          rintro ⟨h1, h2⟩
          exact hj ⟨List.mem_cons_of_mem _ h1, by rw [← f1j j (hne j h1)]; exact h2⟩
        · obtain ⟨a1, a2, a3⟩ := i5 a ha
          exact ⟨List.mem_cons_of_mem _ a1, by rw [← f1j a (hne a a1)]; exact a2, a3⟩
        · obtain ⟨a1, a2, a3, a4⟩ := i6 hno
          refine ⟨fun j hj => ?_, fun j hj => ?_, fun j hj hjs => ?_, ?_⟩
          · rcases List.mem_cons.1 hj with rfl | hj
            · rw [a2 j hl, f1l]; unfold moved; rw [if_neg hz]
            · rw [a1 j hj, f1j j (hne j hj)]
          · rw [a2 j (fun h => hj (List.mem_cons_of_mem _ h)), f1j j (fun e => hj (by rw [e]; exact List.mem_cons_self ..))]
          · rcases List.mem_cons.1 hj with rfl | hj
            · exact absurd hjs hsl
            · exact a3 j hj (by rw [f1j j (hne j hj)]; exact hjs)
          · rw [a4, List.filter_cons, if_neg (by simpa using hsl)]
            show f.queue ++ _ = _
            congr 2
            exact List.filter_congr (fun j hj => by rw [f1j j (hne j hj)])

/-- Following parents from a row of `Q` one goes up in `Q`, along tight pairs. -/
structure Paths (n : Nat) (c : Nat → Nat → Int) (h : Found) (parent : Nat → Nat) (Q : List Nat) : Prop where
  nodup : Q.Nodup
  lt : ∀ k ∈ Q, k < n
  up : ∀ r ∈ Q, ∀ j, h.colMate r = some j → Before Q (parent j) r ∧ left c h (parent j) j = 0

theorem Tree.paths {n : Nat} {c : Nat → Nat → Int} {h : Found} (hg : Good n c h) {f : Forest} {E : Nat → Nat → Prop} (ht : Tree n c h f E) :
    Paths n c h f.parent f.queue :=
  ⟨ht.nodup, ht.lt, fun r hr j hj => by
    obtain ⟨hjn, hjr⟩ := hg.cr r (ht.lt r hr) j hj
    obtain ⟨r', z1, _, z3, z4⟩ := ht.zero j hjn (ht.inq r hr j hj)
    rw [hjr] at z1
    obtain rfl := Option.some.inj z1
    exact ⟨z4, z3⟩⟩

theorem Before.mem {Q : List Nat} {a b : Nat} (h : Before Q a b) : a ∈ Q ∧ b ∈ Q := by
  obtain ⟨A, B, rfl, ha, hb⟩ := h
  exact ⟨List.mem_append_left _ ha, List.mem_append_right _ hb⟩

/-- The duals after the shift. -/
def shifted (h : Found) (s : Int) (f : Forest) (ci : Nat → Int) : Found :=
  { h with rowDec := f.queue.foldl (fun d k => upd d k (d k + s)) h.rowDec, colInc := ci }

theorem shift_stage (n : Nat) (c : Nat → Nat → Int) (h : Found) (hg : Good n c h) (f : Forest) (E : Nat → Nat → Prop) (ht : Tree n c h f E)
    (hE : ∀ k ∈ f.queue, ∀ l, l < n → E k l) (s : Int) (hs : smallest f (List.range n) none = some s) :
    let r := shift s h.rowMate (List.range n) f h.colInc
    let h' := shifted h s f r.2.1
    Good n c h' ∧
    (∀ l, r.2.2 = some l → l < n ∧ h.rowMate l = none ∧ r.1.slackRow l ∈ f.queue ∧ left c h' (r.1.slackRow l) l = 0 ∧ Paths n c h' r.1.parent f.queue) ∧
    (r.2.2 = none → (∃ X, X ≠ [] ∧ r.1.queue = f.queue ++ X) ∧ Tree n c h' r.1 (fun k _ => k ∈ f.queue)) := by
  intro r h'
  obtain ⟨m1, m2, _⟩ := smallest_ok f (List.range n) none
  obtain ⟨l0, hl0, hl0s, hs0⟩ := (m1 s hs).resolve_left (by simp)
  have hl0 := List.mem_range.1 hl0
  have hspos : 0 < s := by have := ht.pos l0 hl0 s hl0s; omega
  have hmin : ∀ l, l < n → ∀ w, f.slack l = some w → w ≠ 0 → s ≤ w := fun l hl w hw hw0 => (m2 s hs).2 l (List.mem_range.2 hl) w hw hw0
  obtain ⟨i1, i2, i3, i4, i5, i6⟩ := shift_ok s hs0 h.rowMate (List.range n) f h.colInc List.nodup_range
  -- the costs left
  have row : ∀ k, h'.rowDec k = if k ∈ f.queue then h.rowDec k + s else h.rowDec k := rows_fold s f.queue h.rowDec ht.nodup
  have colz : ∀ l, l < n → f.slack l = some 0 → h'.colInc l = h.colInc l + s := fun l hl hz => i3 l ⟨List.mem_range.2 hl, hz⟩
  have coln : ∀ l, f.slack l ≠ some 0 → h'.colInc l = h.colInc l := fun l hz => i4 l (fun h => hz h.2)
  have lin : ∀ k l, left c h' k l = c k l - h'.rowDec k + h'.colInc l := fun _ _ => rfl
  have lin0 : ∀ k l, left c h k l = c k l - h.rowDec k + h.colInc l := fun _ _ => rfl
  have qz : ∀ k ∈ f.queue, ∀ l, l < n → f.slack l = some 0 → left c h' k l = left c h k l := by
    intro k hk l hl hz
    rw [lin, lin0, row, if_pos hk, colz l hl hz]; omega
  have qn : ∀ k ∈ f.queue, ∀ l, f.slack l ≠ some 0 → left c h' k l = left c h k l - s := by
    intro k hk l hz
    rw [lin, lin0, row, if_pos hk, coln l hz]; omega
  have oz : ∀ k, k ∉ f.queue → ∀ l, l < n → f.slack l = some 0 → left c h' k l = left c h k l + s := by
    intro k hk l hl hz
    rw [lin, lin0, row, if_neg hk, colz l hl hz]; omega
  have on : ∀ k, k ∉ f.queue → ∀ l, f.slack l ≠ some 0 → left c h' k l = left c h k l := by
    intro k hk l hz
    rw [lin, lin0, row, if_neg hk, coln l hz]
  have cmp : ∀ k ∈ f.queue, ∀ l, l < n → f.slack l ≠ some 0 → ∃ v, f.slack l = some v ∧ s ≤ v ∧ v ≤ left c h k l := by
    intro k hk l hl hz
    obtain ⟨v, hv, hle⟩ := (ht.le k l hl (hE k hk l hl)).resolve_left hz
    exact ⟨v, hv, hmin l hl v hv (fun e => hz (by rw [hv, e])), hle⟩
  have hg' : Good n c h' := by
    refine ⟨fun k hk l hl => ?_, fun k hk l hkl => ?_, hg.cr, hg.rc⟩
    · have h0 := hg.feas k hk l hl
      by_cases hq : k ∈ f.queue
      · by_cases hz : f.slack l = some 0
        · rw [qz k hq l hl hz]; exact h0
        · rw [qn k hq l hz]
          obtain ⟨v, _, h1, h2⟩ := cmp k hq l hl hz
          omega
      · by_cases hz : f.slack l = some 0
        · rw [oz k hq l hl hz]; omega
        · rw [on k hq l hz]; exact h0
    · have h0 := hg.tight k hk l hkl
      obtain ⟨hl, hr⟩ := hg.cr k hk l hkl
      by_cases hq : k ∈ f.queue
      · rw [qz k hq l hl (ht.inq k hq l hkl)]; exact h0
      · rw [on k hq l]
        · exact h0
        · intro hz
          obtain ⟨r', z1, z2, _⟩ := ht.zero l hl hz
          rw [hr] at z1
          rw [← Option.some.inj z1] at z2
          exact hq z2
  refine ⟨hg', fun l hl => ?_, fun hno => ?_⟩
  · obtain ⟨a1, a2, a3⟩ := i5 l hl
    have hln := List.mem_range.1 a1
    obtain ⟨s1, s2⟩ := ht.src l hln s a2 hs0
    have hsr : r.1.slackRow l = f.slackRow l := by rw [show r.1.slackRow = f.slackRow from i1]
    refine ⟨hln, a3, by rw [hsr]; exact s1, ?_, ht.nodup, ht.lt, fun a ha j hj => ?_⟩
    · rw [hsr, qn _ s1 l (by rw [a2]; intro e; exact hs0 (Option.some.inj e)), s2]; omega
    · obtain ⟨p1, p2⟩ := (ht.paths hg).up a ha j hj
      have hz := ht.inq a ha j hj
      have hjn := (hg.cr a (ht.lt a ha) j hj).1
      have hp : r.1.parent j = f.parent j := i2 j (Or.inl hz)
      rw [hp]
      exact ⟨p1, by rw [qz _ p1.mem.1 j hjn hz]; exact p2⟩
  · obtain ⟨a1, a2, a3, a4⟩ := i6 hno
    have sl : ∀ l, l < n → r.1.slack l = moved s (f.slack l) := fun l hl => a1 l (List.mem_range.2 hl)
    have hnew : ∀ x, x ∈ ((List.range n).filter (fun j => decide (f.slack j = some s))).filterMap h.rowMate ↔
        ∃ l, l < n ∧ f.slack l = some s ∧ h.rowMate l = some x := by
      intro x
      simp only [List.mem_filterMap, List.mem_filter, List.mem_range, decide_eq_true_eq]
      constructor
      · rintro ⟨l, ⟨h1, h2⟩, h3⟩; exact ⟨l, h1, h2, h3⟩
      · rintro ⟨l, h1, h2, h3⟩; exact ⟨l, ⟨h1, h2⟩, h3⟩
    have hns : ∀ l, f.slack l = some s → f.slack l ≠ some 0 := fun l hl e => by
      rw [hl] at e; exact hs0 (Option.some.inj e)
    have nq : ∀ l, l < n → ∀ x, h.rowMate l = some x → f.slack l ≠ some 0 → x ∉ f.queue := fun l hl x hx hz hm =>
      hz (ht.inq x hm l (hg.rc l hl x hx).2)
    have mz : ∀ v : Option Int, moved s v = some 0 ↔ v = some 0 ∨ v = some s := by
      intro v
      unfold moved
      by_cases hv : v = some 0
      · simp [hv]
      · rw [if_neg hv, moved_zero s hs0 v hv]; simp [hv]
    have hq : r.1.queue = f.queue ++ ((List.range n).filter (fun j => decide (f.slack j = some s))).filterMap h.rowMate := a4
    refine ⟨⟨_, ?_, a4⟩, ?_, ?_, ?_, ?_, ?_, ?_, ?_, ?_⟩
    · intro e
      obtain ⟨x, hx⟩ := Option.isSome_iff_exists.1 (a3 l0 (List.mem_range.2 hl0) hl0s).1
      have := (hnew x).2 ⟨l0, hl0, hl0s, hx⟩
      rw [e] at this; cases this
    · rw [hq, List.nodup_append]
      refine ⟨ht.nodup, ?_, fun a ha b hb e => ?_⟩
      · have hnd : ((List.range n).filter (fun j => decide (f.slack j = some s))).Nodup := List.nodup_range.sublist List.filter_sublist
        have hmem : ∀ l ∈ (List.range n).filter (fun j => decide (f.slack j = some s)), l < n := fun l hl => List.mem_range.1 (List.mem_filter.1 hl).1
        revert hnd hmem
        generalize (List.range n).filter (fun j => decide (f.slack j = some s)) = L
        intro hnd hmem
        induction L with
        | nil => simp
        | cons l L ih =>
          have ih := ih (List.nodup_cons.1 hnd).2 (fun a ha => hmem a (List.mem_cons_of_mem _ ha))
          rw [List.filterMap_cons]
          cases hr : h.rowMate l with
          | none => exact ih
          | some x =>
            refine List.nodup_cons.2 ⟨fun hx => ?_, ih⟩
            obtain ⟨l', hl', hx'⟩ := List.mem_filterMap.1 hx
            have c1 := (hg.rc l (hmem l (List.mem_cons_self ..)) x hr).2
            have c2 := (hg.rc l' (hmem l' (List.mem_cons_of_mem _ hl')) x hx').2
            rw [c1] at c2
            exact (List.nodup_cons.1 hnd).1 (by rw [Option.some.inj c2]; exact hl')
      · obtain ⟨l, h1, h2, h3⟩ := (hnew b).1 hb
        exact nq l h1 b h3 (hns l h2) (e ▸ ha)
    · intro k hk
      rw [hq] at hk
      rcases List.mem_append.1 hk with hk | hk
      · exact ht.lt k hk
      · obtain ⟨l, h1, h2, h3⟩ := (hnew k).1 hk
        exact (hg.rc l h1 k h3).1
    · intro k hk hm
      rw [hq]
      exact List.mem_append_left _ (ht.free k hk hm)
    · intro k hk j hj
      rw [hq] at hk
      rcases List.mem_append.1 hk with hk | hk
      · rw [sl j (hg.cr k (ht.lt k hk) j hj).1]
        exact (mz _).2 (Or.inl (ht.inq k hk j hj))
      · obtain ⟨l, h1, h2, h3⟩ := (hnew k).1 hk
        have := (hg.rc l h1 k h3).2
        have hj' : h.colMate k = some j := hj
        rw [this] at hj'
        rw [← Option.some.inj hj', sl l h1]
        exact (mz _).2 (Or.inr h2)
    · intro l hl hz
      rw [sl l hl, mz] at hz
      rcases hz with hz | hz
      · obtain ⟨x, z1, z2, z3, z4⟩ := ht.zero l hl hz
        have hp : r.1.parent l = f.parent l := i2 l (Or.inl hz)
        refine ⟨x, z1, by rw [hq]; exact List.mem_append_left _ z2, ?_, ?_⟩
        · rw [hp, qz _ z4.mem.1 l hl hz]; exact z3
        · rw [hp, hq]; exact z4.append _
      · obtain ⟨b1, b2⟩ := a3 l (List.mem_range.2 hl) hz
        obtain ⟨x, hx⟩ := Option.isSome_iff_exists.1 b1
        obtain ⟨s1, s2⟩ := ht.src l hl s hz hs0
        have hp : r.1.parent l = f.slackRow l := b2
        have hxm := (hnew x).2 ⟨l, hl, hz, hx⟩
        refine ⟨x, hx, by rw [hq]; exact List.mem_append_right _ hxm, ?_, ?_⟩
        · rw [hp, qn _ s1 l (hns l hz), s2]; omega
        · rw [hp, hq]; exact ⟨_, _, rfl, s1, hxm⟩
    · intro l hl v hv
      rw [sl l hl] at hv
      unfold moved at hv
      split at hv
      · rw [← Option.some.inj hv]; exact Int.le_refl _
      · rename_i hz
        cases hw : f.slack l with
        | none => rw [hw] at hv; cases hv
        | some w =>
          rw [hw] at hv hz
          have := hmin l hl w hw (fun e => hz (by rw [e]))
          have e : w - s = v := Option.some.inj hv
          omega
    · intro k l hl hk
      rw [sl l hl]
      by_cases hz : f.slack l = some 0
      · left; exact (mz _).2 (Or.inl hz)
      · right
        obtain ⟨v, hv, h1, h2⟩ := cmp k hk l hl hz
        refine ⟨v - s, ?_, by rw [qn k hk l hz]; omega⟩
        unfold moved
        rw [if_neg hz, hv]; rfl
    · intro l hl v hv hv0
      rw [sl l hl] at hv
      unfold moved at hv
      split at hv
      · exact absurd (Option.some.inj hv).symm hv0
      · rename_i hz
        cases hw : f.slack l with
        | none => rw [hw] at hv; cases hv
        | some w =>
          rw [hw] at hv
          have e := Option.some.inj hv
          obtain ⟨s1, s2⟩ := ht.src l hl w hw (fun e => hz (by rw [hw, e]))
          rw [show r.1.slackRow = f.slackRow from i1]
          refine ⟨by rw [hq]; exact List.mem_append_left _ s1, ?_⟩
          rw [qn _ s1 l hz, s2]; exact e

/-! ## A stage -/

theorem free_col (n : Nat) (c : Nat → Nat → Int) (h : Found) (hg : Good n c h) (k0 : Nat) (hk0 : k0 < n) (hf : h.colMate k0 = none) :
    ∃ l, l < n ∧ h.rowMate l = none := by
  apply Classical.byContradiction
  intro hno
  have hall : ∀ l, l < n → ∃ k, h.rowMate l = some k := by
    intro l hl
    cases hr : h.rowMate l with
    | none => exact absurd ⟨l, hl, hr⟩ hno
    | some k => exact ⟨k, rfl⟩
  have hnd : ((List.range n).map (fun l => (h.rowMate l).getD 0)).Nodup := nodup_map_on List.nodup_range (fun a ha b hb hab => by
    obtain ⟨x, hx⟩ := hall a (List.mem_range.1 ha)
    obtain ⟨y, hy⟩ := hall b (List.mem_range.1 hb)
    rw [hx, hy] at hab
    have hab : x = y := hab
    have c1 := (hg.rc a (List.mem_range.1 ha) x hx).2
    have c2 := (hg.rc b (List.mem_range.1 hb) y hy).2
    rw [← hab, c1] at c2
    exact Option.some.inj c2)
  have hsub : ∀ x ∈ (List.range n).map (fun l => (h.rowMate l).getD 0), x ∈ (List.range n).erase k0 := by
    intro x hx
    obtain ⟨l, hl, rfl⟩ := List.mem_map.1 hx
    obtain ⟨k, hk⟩ := hall l (List.mem_range.1 hl)
    obtain ⟨hkn, hkc⟩ := hg.rc l (List.mem_range.1 hl) k hk
    rw [hk, List.nodup_range.mem_erase_iff]
    refine ⟨fun e => ?_, List.mem_range.2 hkn⟩
    have e : k = k0 := e
    rw [e, hf] at hkc; cases hkc
  have := List.Nodup.length_le_of_subset hnd hsub
  rw [List.length_erase_of_mem (List.mem_range.2 hk0), List.length_map, List.length_range] at this
  omega

theorem queue_len {n : Nat} {Q : List Nat} (hn : Q.Nodup) (hl : ∀ k ∈ Q, k < n) : Q.length ≤ n := by
  have := List.Nodup.length_le_of_subset hn (fun k hk => List.mem_range.2 (hl k hk) : ∀ k ∈ Q, k ∈ List.range n)
  rwa [List.length_range] at this

theorem stage_ok (n : Nat) (c : Nat → Nat → Int) : ∀ (fuel : Nat) (h : Found) (f : Forest) (q : Nat), Good n c h →
    Tree n c h f (fun k _ => k ∈ f.queue.take q) → q ≤ f.queue.length → (∃ k0, k0 < n ∧ h.colMate k0 = none) → 2 * n < fuel + f.queue.length + q →
    ∃ h' f' k l Q, stage n c fuel h f q = some (h', f', k, l) ∧ Good n c h' ∧ h'.rowMate = h.rowMate ∧ h'.colMate = h.colMate ∧
      l < n ∧ h.rowMate l = none ∧ k ∈ Q ∧ left c h' k l = 0 ∧ Paths n c h' f'.parent Q
  | 0, h, f, q, _, ht, hq, _, hfu => by
    have := queue_len ht.nodup ht.lt
    omega
  | fuel + 1, h, f, q, hg, ht, hq, hfree, hfu => by
    rw [stage]
    cases hk : f.queue[q]? with
    | some k =>
      dsimp only
      have hkq : k ∈ f.queue := List.mem_of_getElem? hk
      have hql : q < f.queue.length := by
        rw [List.getElem?_eq_some_iff] at hk; exact hk.1
      obtain ⟨⟨X, e1⟩, e2, e3⟩ := explore_ok n c h hg k (List.range n) f _ (fun l hl => List.mem_range.1 hl) ht hkq
      cases hx : explore c h k (List.range n) f with
      | mk f' o =>
        rw [hx] at e1 e2 e3
        cases o with
        | some l =>
          obtain ⟨h1, h2, h3, E', h4⟩ := e2 l rfl
          exact ⟨h, f', k, l, f'.queue, rfl, hg, rfl, rfl, h1, h2, by rw [e1]; exact List.mem_append_left _ hkq, h3, h4.paths hg⟩
        | none =>
          dsimp only
          have ht' := e3 rfl
          have e1 : f'.queue = f.queue ++ X := e1
          refine stage_ok n c fuel h f' (q + 1) hg { ht' with le := fun a l hl ha => ht'.le a l hl ?_ } (by rw [e1, List.length_append]; omega) hfree
            (by rw [e1, List.length_append]; omega)
          rw [e1, List.take_append_of_le_length (by omega), List.take_add_one, hk] at ha
          rcases List.mem_append.1 ha with ha | ha
          · exact Or.inl ha
          · exact Or.inr ⟨by simpa using ha, List.mem_range.2 hl⟩
    | none =>
      dsimp only
      have hql : q = f.queue.length := by
        have := List.getElem?_eq_none_iff.1 hk
        omega
      have hE : ∀ k ∈ f.queue, ∀ l, l < n → k ∈ f.queue.take q := fun k hk _ _ => by rw [hql, List.take_length]; exact hk
      cases hs : smallest f (List.range n) none with
      | none =>
        obtain ⟨k0, hk0, hk0f⟩ := hfree
        obtain ⟨l, hl, hr⟩ := free_col n c h hg k0 hk0 hk0f
        have hkq := ht.free k0 hk0 hk0f
        rcases ht.le k0 l hl (hE k0 hkq l hl) with hz | ⟨v, hv, _⟩
        · obtain ⟨r, z1, _⟩ := ht.zero l hl hz
          rw [hr] at z1; cases z1
        · have h0 := ((smallest_ok f (List.range n) none).2.2 hs).2 l (List.mem_range.2 hl) v hv
          rw [h0] at hv
          obtain ⟨r, z1, _⟩ := ht.zero l hl hv
          rw [hr] at z1; cases z1
      | some s =>
        dsimp only
        obtain ⟨g1, g2, g3⟩ := shift_stage n c h hg f _ ht hE s hs
        cases hx : shift s h.rowMate (List.range n) f h.colInc with
        | mk f' p =>
          obtain ⟨ci, o⟩ := p
          rw [hx] at g1 g2 g3
          cases o with
          | some l =>
            obtain ⟨h1, h2, h3, h4, h5⟩ := g2 l rfl
            exact ⟨_, f', _, l, f.queue, rfl, g1, rfl, rfl, h1, h2, h3, h4, h5⟩
          | none =>
            obtain ⟨⟨X, x0, x1⟩, x2⟩ := g3 rfl
            have x1 : f'.queue = f.queue ++ X := x1
            have hX : 0 < X.length := List.length_pos_iff.2 x0
            refine stage_ok n c fuel (shifted h s f ci) f' q g1 { x2 with le := fun a l hl ha => x2.le a l hl ?_ }
              (by rw [x1, List.length_append]; omega) hfree (by rw [x1, List.length_append]; omega)
            have ha : a ∈ f'.queue.take q := ha
            rw [x1, hql, List.take_append_of_le_length (Nat.le_refl _), List.take_length] at ha
            exact ha

/-! ## Updating the matching -/

/-- The number of rows without a mate. -/
def unmatched (n : Nat) (h : Found) : Nat := ((List.range n).filter (fun k => (h.colMate k).isNone)).length

theorem unmatched_upd (n : Nat) (cm : Nat → Option Nat) (k l : Nat) (hk : k < n) :
    ((List.range n).filter (fun a => (upd cm k (some l) a).isNone)).length + (if (cm k).isNone then 1 else 0) =
      ((List.range n).filter (fun a => (cm a).isNone)).length := by
  have gen : ∀ L : List Nat, L.Nodup → (L.filter (fun a => (upd cm k (some l) a).isNone)).length + (if k ∈ L ∧ (cm k).isNone then 1 else 0) =
      (L.filter (fun a => (cm a).isNone)).length := by
    intro L hL
    induction L with
    | nil => simp
    | cons a L ih =>
      have ih := ih (List.nodup_cons.1 hL).2
      have ha := (List.nodup_cons.1 hL).1
      rw [List.filter_cons, List.filter_cons]
      by_cases hak : a = k
      · subst hak
        rw [if_neg (by rw [upd_same]; simp)]
        rw [if_neg (fun h => ha h.1)] at ih
        by_cases hn : (cm a).isNone
        · rw [if_pos hn, if_pos ⟨List.mem_cons_self .., hn⟩, List.length_cons]; omega
        · rw [if_neg hn, if_neg (fun h => hn h.2)]; omega
      · rw [upd_ne _ _ hak]
        have : k ∈ a :: L ↔ k ∈ L := by simp [Ne.symm hak]
        simp only [this]
        split
        · rw [List.length_cons, List.length_cons]; omega
        · exact ih
  have := gen (List.range n) List.nodup_range
  rw [← this]
  congr 1
  by_cases hn : (cm k).isNone
  · rw [if_pos hn, if_pos ⟨List.mem_range.2 hk, hn⟩]
  · rw [if_neg hn, if_neg (fun h => hn h.2)]

theorem augment_ok (n : Nat) (c : Nat → Nat → Int) (parent : Nat → Nat) (Q : List Nat) (h0 : Found) (hp : Paths n c h0 parent Q) :
    ∀ (fuel : Nat) (h : Found) (k l : Nat), k ∈ Q → l < n → h.rowDec = h0.rowDec → h.colInc = h0.colInc → left c h0 k l = 0 →
      (∀ r, r < n → ∀ m, h.colMate r = some m → m < n ∧ h.rowMate m = some r ∧ m ≠ l ∧ left c h0 r m = 0) →
      (∀ m, m < n → m ≠ l → ∀ r, h.rowMate m = some r → r < n ∧ h.colMate r = some m) →
      (∀ r ∈ Q, Q.idxOf r ≤ Q.idxOf k → h.colMate r = h0.colMate r) → Q.idxOf k < fuel →
      ∃ h', augment parent fuel h k l = some h' ∧ h'.rowDec = h0.rowDec ∧ h'.colInc = h0.colInc ∧
        (∀ r, r < n → ∀ m, h'.colMate r = some m → m < n ∧ h'.rowMate m = some r ∧ left c h0 r m = 0) ∧
        (∀ m, m < n → ∀ r, h'.rowMate m = some r → r < n ∧ h'.colMate r = some m) ∧
        unmatched n h' + 1 = unmatched n h
  | 0, _, _, _, _, _, _, _, _, _, _, _, hfu => by omega
  | fuel + 1, h, k, l, hk, hl, hrd, hci, ht, hA, hB, hO, hfu => by
    have hkn := hp.lt k hk
    have hu := unmatched_upd n h.colMate k l hkn
    rw [augment]
    cases hm : h.colMate k with
    | none =>
      dsimp only
      refine ⟨_, rfl, hrd, hci, fun r hr m hrm => ?_, fun m hmn r hrm => ?_, ?_⟩
      · dsimp only at hrm ⊢
        by_cases hrk : r = k
        · subst hrk
          rw [upd_same] at hrm
          obtain rfl := Option.some.inj hrm
          exact ⟨hl, upd_same _ _ _, ht⟩
        · rw [upd_ne _ _ hrk] at hrm
          obtain ⟨a1, a2, a3, a4⟩ := hA r hr m hrm
          exact ⟨a1, by rw [upd_ne _ _ a3]; exact a2, a4⟩
      · dsimp only at hrm ⊢
        by_cases hml : m = l
        · subst hml
          rw [upd_same] at hrm
          obtain rfl := Option.some.inj hrm
          exact ⟨hkn, upd_same _ _ _⟩
        · rw [upd_ne _ _ hml] at hrm
          obtain ⟨b1, b2⟩ := hB m hmn hml r hrm
          refine ⟨b1, ?_⟩
          rw [upd_ne _ _ (fun e => by rw [e, hm] at b2; cases b2)]
          exact b2
      · rw [hm] at hu
        unfold unmatched
        simpa using hu
    | some j =>
      dsimp only
      have hj0 : h0.colMate k = some j := by rw [← hO k hk (Nat.le_refl _)]; exact hm
      obtain ⟨u1, u2⟩ := hp.up k hk j hj0
      have hidx := u1.idx hp.nodup
      obtain ⟨j1, j2, j3, _⟩ := hA k hkn j hm
      obtain ⟨h', r1, r2, r3, r4, r5, r6⟩ := augment_ok n c parent Q h0 hp fuel
        { h with colMate := upd h.colMate k (some l), rowMate := upd h.rowMate l (some k) } (parent j) j u1.mem.1 j1 hrd hci u2
        (fun r hr m hrm => by
          dsimp only at hrm ⊢
          by_cases hrk : r = k
          · subst hrk
            rw [upd_same] at hrm
            obtain rfl := Option.some.inj hrm
            exact ⟨hl, upd_same _ _ _, Ne.symm j3, ht⟩
          · rw [upd_ne _ _ hrk] at hrm
            obtain ⟨a1, a2, a3, a4⟩ := hA r hr m hrm
            refine ⟨a1, by rw [upd_ne _ _ a3]; exact a2, fun e => ?_, a4⟩
            rw [e, j2] at a2
            exact hrk (Option.some.inj a2).symm)
        (fun m hmn hmj r hrm => by
          dsimp only at hrm ⊢
          by_cases hml : m = l
          · subst hml
            rw [upd_same] at hrm
            obtain rfl := Option.some.inj hrm
            exact ⟨hkn, upd_same _ _ _⟩
          · rw [upd_ne _ _ hml] at hrm
            obtain ⟨b1, b2⟩ := hB m hmn hml r hrm
            refine ⟨b1, ?_⟩
            rw [upd_ne _ _ (fun e => by rw [e, hm] at b2; exact hmj (Option.some.inj b2).symm)]
            exact b2)
        (fun r hr hle => by
          dsimp only
          rw [upd_ne _ _ (fun e => by rw [e] at hle; omega)]
          exact hO r hr (by omega))
        (by omega)
      refine ⟨h', r1, r2, r3, r4, r5, ?_⟩
      rw [r6]
      rw [hm] at hu
      unfold unmatched
      simpa using hu

/-! ## All stages -/

theorem fresh_tree (n : Nat) (c : Nat → Nat → Int) (h : Found) : Tree n c h (fresh n h) (fun k _ => k ∈ (fresh n h).queue.take 0) := by
  have hm : ∀ k, k ∈ (fresh n h).queue ↔ k < n ∧ h.colMate k = none := by
    intro k
    show k ∈ (List.range n).filter _ ↔ _
    rw [List.mem_filter, List.mem_range, Option.isNone_iff_eq_none]
  refine ⟨List.nodup_range.sublist List.filter_sublist, fun k hk => ((hm k).1 hk).1, fun k hk hn => (hm k).2 ⟨hk, hn⟩, ?_, ?_, ?_, ?_, ?_⟩
  · intro k hk j hj
    rw [((hm k).1 hk).2] at hj; cases hj
  · intro l _ hz; cases hz
  · intro l _ v hv; cases hv
  · intro k l _ hk
    rw [List.take_zero] at hk; cases hk
  · intro l _ v hv; cases hv

theorem stages_ok (n : Nat) (c : Nat → Nat → Int) : ∀ (u : Nat) (h : Found), Good n c h → unmatched n h = u →
    ∃ h', stages n c u h = some h' ∧ Good n c h' ∧ unmatched n h' = 0
  | 0, h, hg, hu => ⟨h, rfl, hg, hu⟩
  | u + 1, h, hg, hu => by
    have hfree : ∃ k0, k0 < n ∧ h.colMate k0 = none := by
      have hne : (List.range n).filter (fun k => (h.colMate k).isNone) ≠ [] := by
        intro e
        unfold unmatched at hu
        rw [e] at hu; cases hu
      obtain ⟨k, hk⟩ := List.exists_mem_of_ne_nil _ hne
      rw [List.mem_filter, List.mem_range, Option.isNone_iff_eq_none] at hk
      exact ⟨k, hk⟩
    obtain ⟨h1, f1, k, l, Q, s1, s2, s3, s4, s5, s6, s7, s8, s9⟩ := stage_ok n c (2 * n + 1) h (fresh n h) 0 hg (fresh_tree n c h) (Nat.zero_le _) hfree (by omega)
    have hlen := queue_len s9.nodup s9.lt
    have hidx := List.idxOf_lt_length_of_mem s7
    obtain ⟨h2, a1, a2, a3, a4, a5, a6⟩ := augment_ok n c f1.parent Q h1 s9 (n + 1) h1 k l s7 s5 rfl rfl s8
      (fun r hr m hrm => by
        obtain ⟨b1, b2⟩ := s2.cr r hr m hrm
        refine ⟨b1, b2, fun e => ?_, s2.tight r hr m hrm⟩
        rw [s3, e, s6] at b2; cases b2)
      (fun m hm _ r hr => s2.rc m hm r hr) (fun _ _ _ => rfl) (by omega)
    have e : ∀ k l, left c h2 k l = left c h1 k l := fun k l => by unfold left; rw [a2, a3]
    have hu1 : unmatched n h1 = unmatched n h := by unfold unmatched; rw [s4]
    obtain ⟨h', t1, t2, t3⟩ := stages_ok n c u h2
      ⟨fun k hk l hl => by rw [e]; exact s2.feas k hk l hl, fun k hk l hkl => by rw [e]; exact (a4 k hk l hkl).2.2,
        fun k hk l hkl => ⟨(a4 k hk l hkl).1, (a4 k hk l hkl).2.1⟩, a5⟩ (by omega)
    refine ⟨h', ?_, t2, t3⟩
    rw [stages, s1, Option.bind_some]
    dsimp only
    rw [a1, Option.bind_some]
    exact t1

/-! ## The initial stage -/

theorem rowMin_zero (nc : Nat) (B : Int) (c : Nat → Nat → Int) (k : Nat) (hB : 0 ≤ B) (hnc : 0 < nc) (h0 : ∀ l, 0 ≤ c k l) (hz : c k (nc - 1) = 0) :
    rowMin nc B c k = 0 := by
  have h1 := (foldl_min_le (c k) (List.range nc) B).2 (nc - 1) (List.mem_range.2 (by omega))
  have h2 : ∀ (L : List Nat) (m : Int), 0 ≤ m → 0 ≤ L.foldl (fun m l => min m (c k l)) m := by
    intro L
    induction L with
    | nil => exact fun m h => h
    | cons a L ih =>
      intro m h
      rw [List.foldl_cons]
      have := h0 a
      exact ih _ (by omega)
  have h3 := h2 (List.range nc) B hB
  unfold rowMin
  omega

theorem initial_ok (n nc : Nat) (B : Int) (c : Nat → Nat → Int) (hm : ∀ k, k < n → rowMin nc B c k = 0) (h0 : ∀ k, k < n → ∀ l, 0 ≤ c k l) :
    ∀ (ks : List Nat) (f : Found), ks.Nodup → (∀ k ∈ ks, k < n) → (∀ k ∈ ks, f.colMate k = none) → (∀ k, f.rowDec k = 0) → (∀ l, f.colInc l = 0) → Good n c f →
      Good n c (initial n nc B c ks f)
  | [], f, _, _, _, _, _, hg => hg
  | k :: ks, f, hnd, hlt, hcm, hrd, hci, hg => by
    have hk := hlt k (List.mem_cons_self ..)
    have hkc := hcm k (List.mem_cons_self ..)
    have hks := (List.nodup_cons.1 hnd).1
    have rd : ∀ a, upd f.rowDec k (rowMin nc B c k) a = 0 := by
      intro a
      by_cases ha : a = k
      · rw [ha, upd_same, hm k hk]
      · rw [upd_ne _ _ ha, hrd]
    rw [initial]
    cases hf : (List.range n).find? (fun l => decide (c k l = rowMin nc B c k) && (f.rowMate l).isNone) with
    | some l =>
      dsimp only
      have hp := List.find?_some hf
      have hl := List.mem_range.1 (List.mem_of_find?_eq_some hf)
      rw [Bool.and_eq_true, decide_eq_true_eq, Option.isNone_iff_eq_none, hm k hk] at hp
      refine initial_ok n nc B c hm h0 ks _ (List.nodup_cons.1 hnd).2 (fun a ha => hlt a (List.mem_cons_of_mem _ ha)) (fun a ha => ?_) rd hci ⟨?_, ?_, ?_, ?_⟩
      · dsimp only
        rw [upd_ne _ _ (fun e : a = k => hks (by rw [← e]; exact ha))]
        exact hcm a (List.mem_cons_of_mem _ ha)
      · intro a ha b _
        unfold left
        dsimp only
        rw [rd, hci]
        have := h0 a ha b
        omega
      · intro a ha b hb
        dsimp only at hb
        unfold left
        dsimp only
        rw [rd, hci]
        by_cases hak : a = k
        · rw [hak, upd_same] at hb
          rw [hak, ← Option.some.inj hb, hp.1]; rfl
        · rw [upd_ne _ _ hak] at hb
          have := hg.tight a ha b hb
          unfold left at this
          rw [hrd, hci] at this
          exact this
      · intro a ha b hb
        dsimp only at hb ⊢
        by_cases hak : a = k
        · rw [hak, upd_same] at hb
          rw [hak, ← Option.some.inj hb]
          exact ⟨hl, upd_same _ _ _⟩
        · rw [upd_ne _ _ hak] at hb
          obtain ⟨b1, b2⟩ := hg.cr a ha b hb
          refine ⟨b1, ?_⟩
          rw [upd_ne _ _ (fun e => by rw [e, hp.2] at b2; cases b2)]
          exact b2
      · intro b hb a ha
        dsimp only at ha ⊢
        by_cases hbl : b = l
        · rw [hbl, upd_same] at ha
          rw [hbl, ← Option.some.inj ha]
          exact ⟨hk, upd_same _ _ _⟩
        · rw [upd_ne _ _ hbl] at ha
          obtain ⟨b1, b2⟩ := hg.rc b hb a ha
          refine ⟨b1, ?_⟩
          rw [upd_ne _ _ (fun e => by rw [e, hkc] at b2; cases b2)]
          exact b2
    | none =>
      dsimp only
      have hcm' : upd f.colMate k none = f.colMate := by
        funext a
        by_cases hak : a = k
        · rw [hak, upd_same, hkc]
        · rw [upd_ne _ _ hak]
      rw [hcm']
      refine initial_ok n nc B c hm h0 ks _ (List.nodup_cons.1 hnd).2 (fun a ha => hlt a (List.mem_cons_of_mem _ ha))
        (fun a ha => hcm a (List.mem_cons_of_mem _ ha)) rd hci ⟨?_, ?_, hg.cr, hg.rc⟩
      · intro a ha b _
        unfold left
        dsimp only
        rw [rd, hci]
        have := h0 a ha b
        omega
      · intro a ha b hb
        have := hg.tight a ha b hb
        unfold left at this ⊢
        dsimp only
        rw [hrd] at this
        rw [rd]
        exact this

/-- The search ends; the mates belong together and the check passes. -/
theorem search_ok (n nc : Nat) (B : Int) (c : Nat → Nat → Int) (hB : 0 ≤ B) (hnc : 0 < nc) (h0 : ∀ k, k < n → ∀ l, 0 ≤ c k l)
    (hz : ∀ k, k < n → c k (nc - 1) = 0) :
    ∃ f, search n nc B c = some f ∧ Mates f n ∧ checkResult n c f = true := by
  have hg := initial_ok n nc B c (fun k hk => rowMin_zero nc B c k hB hnc (h0 k hk) (hz k hk)) h0 (List.range n)
    ⟨fun _ => none, fun _ => none, fun _ => 0, fun _ => 0⟩ List.nodup_range (fun k hk => List.mem_range.1 hk) (fun _ _ => rfl) (fun _ => rfl) (fun _ => rfl)
    ⟨fun k hk l _ => by have := h0 k hk l; show 0 ≤ c k l - 0 + 0; omega, fun _ _ _ h => by (cases h), fun _ _ _ h => by (cases h), fun _ _ _ h => by (cases h)⟩
  obtain ⟨f, h1, h2, h3⟩ := stages_ok n c _ _ hg rfl
  refine ⟨f, h1, ⟨h2.cr, h2.rc⟩, ?_⟩
  unfold checkResult
  rw [Bool.and_eq_true, List.all_eq_true, List.all_eq_true]
  refine ⟨fun k hk => List.all_eq_true.2 (fun l hl => ?_), fun k hk => ?_⟩
  · have := h2.feas k (List.mem_range.1 hk) l (List.mem_range.1 hl)
    unfold left at this
    exact decide_eq_true (by omega)
  · cases hm : f.colMate k with
    | none =>
      have : k ∈ (List.range n).filter (fun k => (f.colMate k).isNone) := List.mem_filter.2 ⟨hk, by rw [hm]; rfl⟩
      have hlen := List.length_pos_of_mem this
      unfold unmatched at h3
      omega
    | some l =>
      have := h2.tight k (List.mem_range.1 hk) l hm
      unfold left at this
      show decide (_ = _) = true
      exact decide_eq_true (by omega)

theorem cells_none (rows cols : List Nat) (o : Nat → Nat → Int) (k : Nat) : cells rows cols o k cols.length = none := by
  unfold cells
  cases rows[k]? with
  | none => rfl
  | some r => rw [Option.bind_some, List.getElem?_eq_none (Nat.le_refl _)]; rfl

theorem foldl_max_ge : ∀ (l : List Int) (m : Int), m ≤ l.foldl max m
  | [], m => Int.le_refl _
  | a :: l, m => by
    rw [List.foldl_cons]
    have := foldl_max_ge l (max m a)
    omega

/-- `map_speakers` hands back a mapping, one from a search whose result passed the check. -/
theorem mapSpeakersFull_ok (K : Int) (hK : 0 ≤ K) (rows cols : List Nat) (o : Nat → Nat → Int) :
    ∃ f P, Mates f (max rows.length cols.length + 1) ∧ mapSpeakersFull K rows cols o = some P ∧ mapSpeakers K rows cols o f = some P := by
  have hM : 0 ≤ maxOverlap rows cols o := foldl_max_ge _ 0
  have hB : 0 ≤ K * maxOverlap rows cols o + maxOverlap rows cols o := by
    have := Int.mul_nonneg hK hM
    omega
  have main : ∀ ov : Nat → Nat → Option Int, (∀ k, ov k (min rows.length cols.length) = none) →
      ∃ f, search (max rows.length cols.length + 1) (min rows.length cols.length + 1) (K * maxOverlap rows cols o + maxOverlap rows cols o)
          (fun k l => cell K (maxOverlap rows cols o) ov k l - colMin K (maxOverlap rows cols o) ov (max rows.length cols.length + 1) l) = some f ∧
        Mates f (max rows.length cols.length + 1) ∧
        checkResult (max rows.length cols.length + 1)
          (fun k l => cell K (maxOverlap rows cols o) ov k l - colMin K (maxOverlap rows cols o) ov (max rows.length cols.length + 1) l) f = true := by
    intro ov hov
    refine search_ok _ _ _ _ hB (Nat.succ_pos _) (fun k hk l => ?_) (fun k hk => ?_)
    · have := (foldl_min_le (fun k => cell K (maxOverlap rows cols o) ov k l) (List.range (max rows.length cols.length + 1))
        (K * maxOverlap rows cols o + maxOverlap rows cols o)).2 k (List.mem_range.2 hk)
      unfold colMin
      omega
    · have hcell : ∀ k, cell K (maxOverlap rows cols o) ov k (min rows.length cols.length) = K * maxOverlap rows cols o + maxOverlap rows cols o := by
        intro k
        unfold cell
        rw [hov]
      rw [Nat.add_sub_cancel]
      rw [hcell]
      have : ∀ (L : List Nat), L.foldl (fun m k => min m (cell K (maxOverlap rows cols o) ov k (min rows.length cols.length)))
          (K * maxOverlap rows cols o + maxOverlap rows cols o) = K * maxOverlap rows cols o + maxOverlap rows cols o := by
        intro L
        induction L with
        | nil => rfl
        | cons a L ih => rw [List.foldl_cons, hcell, Int.min_self]; exact ih
      unfold colMin
      rw [this]
      omega
  by_cases hlt : rows.length < cols.length
  · obtain ⟨f, h1, h2, h3⟩ := main (cells cols rows (fun s r => o r s)) (fun k => by
      rw [show min rows.length cols.length = rows.length by omega]; exact cells_none _ _ _ _)
    have hP : ∃ P, mapSpeakers K rows cols o f = some P := by
      unfold mapSpeakers bgm
      dsimp only
      rw [if_pos hlt, if_pos h3]
      exact ⟨_, rfl⟩
    obtain ⟨P, hP⟩ := hP
    refine ⟨f, P, h2, ?_, hP⟩
    unfold mapSpeakersFull
    dsimp only
    rw [if_pos hlt, h1, Option.bind_some]
    exact hP
  · obtain ⟨f, h1, h2, h3⟩ := main (cells rows cols o) (fun k => by
      rw [show min rows.length cols.length = cols.length by omega]; exact cells_none _ _ _ _)
    have hP : ∃ P, mapSpeakers K rows cols o f = some P := by
      unfold mapSpeakers bgm
      dsimp only
      rw [if_neg hlt, if_pos h3]
      exact ⟨_, rfl⟩
    obtain ⟨P, hP⟩ := hP
    refine ⟨f, P, h2, ?_, hP⟩
    unfold mapSpeakersFull
    dsimp only
    rw [if_neg hlt, h1, Option.bind_some]
    exact hP

end Verif.Diar
