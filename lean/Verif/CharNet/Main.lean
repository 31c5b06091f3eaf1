import Verif.CharNet.Run
import Verif.CharNet.Sub
import Verif.Net.Props
/-!
# Expansion of a network into characters
-/
set_option autoImplicit false
namespace Verif.CharNet
open Verif.Net Verif.Text Verif.Split Verif.NetBuild Verif.Lines

section
variable {W : Type}

theorem arcLoop_mono (sub : W → Option (Option (Net W))) (v : Nat) : ∀ (fuel : Nat) (b : CNet W) (p : Option Nat) (b' : CNet W),
    arcLoop sub v fuel b p = .ok b' → ∀ k, arcLoop sub v (fuel + k) b p = .ok b' := by
  intro fuel
  induction fuel with
  | zero =>
    intro b p b' h k
    cases p with
    | none => unfold arcLoop at h ⊢; exact h
    | some p => unfold arcLoop at h; cases h
  | succ fuel ih =>
    intro b p b' h k
    rw [Nat.add_right_comm]
    cases p with
    | none => unfold arcLoop at h ⊢; exact h
    | some p =>
      unfold arcLoop at h ⊢
      cases hr : replaceArc sub b p with
      | none => rw [hr] at h; cases h
      | some b1 => rw [hr] at h; exact ih b1 _ b' h k

theorem nodeLoop_mono (sub : W → Option (Option (Net W))) (cur : Bool) (fuel : Nat) : ∀ (n : Nat) (b : CNet W) (F : List Nat) (b' : CNet W),
    nodeLoop sub cur fuel n b F = .ok b' → ∀ k, nodeLoop sub cur (fuel + k) (n + k) b F = .ok b' := by
  intro n
  induction n with
  | zero =>
    intro b F b' h k
    cases F with
    | nil => unfold nodeLoop at h ⊢; exact h
    | cons v F => unfold nodeLoop at h; cases h
  | succ n ih =>
    intro b F b' h k
    rw [Nat.add_right_comm n]
    cases F with
    | nil => unfold nodeLoop at h ⊢; exact h
    | cons v F =>
      unfold nodeLoop at h ⊢
      simp only at h ⊢
      cases hr : arcLoop sub v fuel ⟨b.net, (((b.net.out v).map b.net.dst).foldl (push cur) (b.vis, F)).1⟩ (b.net.out v).head? with
      | crash => rw [hr] at h; cases h
      | hang => rw [hr] at h; cases h
      | ok b1 =>
        rw [hr] at h
        rw [arcLoop_mono sub v fuel _ _ b1 hr k]
        exact ih b1 _ b' h k

theorem expandNet_mono {sub : W → Option (Option (Net W))} {fuel : Nat} {b b' : CNet W} (h : expandNet sub fuel b = .ok b') {fuel' : Nat}
    (hf : fuel ≤ fuel') : expandNet sub fuel' b = .ok b' := by
  have := nodeLoop_mono sub _ fuel fuel _ _ b' h (fuel' - fuel)
  unfold expandNet
  rwa [Nat.add_sub_of_le hf] at this

/-- Reading every word as a sequence of words. -/
theorem sp_img (n : Net W) (E : W → List W) {v s : Nat} {ws : List W} :
    Sp n (img E n) v ws s ↔ ∃ us, Sp n (one n) v us s ∧ ws = us.flatMap E := by
  constructor
  · intro h
    induction h with
    | nil v => exact ⟨[], .nil v, rfl⟩
    | cons v a vs ws s h1 h2 _ ih =>
      obtain ⟨us, k1, k2⟩ := ih
      obtain ⟨x, x1, x2⟩ := h2
      exact ⟨x :: us, .cons v a [x] us s h1 ⟨x, x1, rfl⟩ k1, by rw [List.flatMap_cons, x2, k2]⟩
  · rintro ⟨us, h, rfl⟩
    induction h with
    | nil v => exact .nil v
    | cons v a vs ws s h1 h2 _ ih =>
      obtain ⟨x, x1, rfl⟩ := h2
      rw [List.flatMap_append]
      refine .cons v a _ _ s h1 ⟨x, x1, by simp⟩ ih

end

theorem optionals_eq (n : Net CW) (l : List Nat) : optionals n l = optCount CW.opt n l := by
  unfold optionals optCount
  rw [List.countP_eq_length_filter]
  congr 2
  funext a
  unfold isOpt
  cases n.data a <;> rfl

/-- The expansion of a network that is ready. -/
theorem expand_ready {e : Enc} {f : Split.Flags} (hg : f.guarani = true → e = .utf8 ∨ e = .gb) {b : CNet CW} (hb : Ready e f b) :
    ((∀ v, b.net.Reach v → optionals b.net (b.net.out v) ≤ 1) →
      ∃ b', (∀ fuel, 4 * b.net.nArcs + b.net.nNodes + 1 < fuel → expandChars e f fuel b = .ok b') ∧ Ready e f b' ∧
        (∀ v a, a ∈ b'.net.out v → ∃ w, b'.net.data a = some w ∧ spelled e f w = [w]) ∧
        ∀ ws, b'.net.Produces ws ↔ ∃ us, b.net.Produces us ∧ ws = us.flatMap (spelled e f)) ∧
    (¬ (∀ v, b.net.Reach v → optionals b.net (b.net.out v) ≤ 1) → ∀ fuel, expandChars e f fuel b = .hang) := by
  obtain ⟨r, hw⟩ := hb.wf
  cases hstop : b.net.stop with
  | none =>
    have hout := hw.no_stop hstop
    have hreach : ∀ v, b.net.Reach v → v = b.net.start := by
      intro v hv
      induction hv with
      | start => rfl
      | step v a _ ha ih => rw [ih, hout] at ha; cases ha
    constructor
    · intro _
      refine ⟨⟨b.net, upd b.vis b.net.start (!b.vis b.net.start)⟩, ?_, ⟨hb.wf, hb.words, ?_⟩, ?_, ?_⟩
      · intro fuel hf
        match fuel, hf with
        | fuel + 1, _ =>
          unfold expandChars expandNet nodeLoop
          simp only [hout, List.map_nil, List.foldl_nil, List.head?_nil]
          unfold arcLoop
          simp only
          cases fuel <;> rfl
      · intro v hv
        have : v = b.net.start := hreach v hv
        rw [this]
      · intro v a ha
        have hv : b.net.Reach v := by
          rw [hw.reach_iff]
          by_cases e1 : v = b.net.start
          · exact Or.inl e1
          · exact Or.inr (hw.source v (List.ne_nil_of_mem ha) e1)
        have ha : a ∈ b.net.out v := ha
        rw [hreach v hv, hout] at ha; cases ha
      · intro ws
        unfold Net.Produces
        simp only [hstop]
        constructor
        · intro h; exact ⟨[], rfl, h⟩
        · rintro ⟨us, rfl, rfl⟩; rfl
    · intro hn
      exfalso
      apply hn
      intro v hv
      rw [hreach v hv, hout]
      exact Nat.zero_le _
  | some s =>
    have hfine : Fine (Spellable e f) b.net s := ⟨hb.wf, hstop, hb.words⟩
    have hrun := expand_run (char_subOk e f hg) hfine hb.bits
    constructor
    · intro hone
      have hone' : ∀ u, b.net.Reach u → optCount CW.opt b.net (b.net.out u) ≤ 1 := fun u hu => optionals_eq b.net _ ▸ hone u hu
      obtain ⟨k1, k2⟩ := hrun (4 * b.net.nArcs + b.net.nNodes + 2)
      rcases k1 with k1 | ⟨b', k1, k3, k4, k5, k6, k7, _⟩
      · exact absurd k1 (k2 hone' (by omega))
      · refine ⟨b', fun fuel hf => expandNet_mono k1 (by omega), ⟨k3.wf, k3.words, k6⟩, k5, ?_⟩
        intro ws
        rw [produces_sp _ _ k3.stop, k4, k7, sp_img]
        simp only [produces_sp _ _ hstop]
    · intro hn fuel
      rcases (hrun fuel).1 with k1 | ⟨b', _, _, _, _, _, _, k8⟩
      · exact k1
      · exact absurd (fun v hv => (optionals_eq b.net _).symm ▸ k8 v hv) hn

/-! ### Changing the words of a network -/

section
variable {V W : Type}

theorem walk_congr {n : Net V} {n' : Net W} (h1 : n'.out = n.out) (h2 : n'.dst = n.dst) {v w : Nat} {p : List Nat} (h : n.Walk v p w) :
    n'.Walk v p w := by
  induction h with
  | nil v => exact .nil v
  | cons v a p w ha _ ih => exact .cons v a p w (by rw [h1]; exact ha) (by rw [h2]; exact ih)

theorem map_net {g : V → Option W} {n : Net V} {n' : Net W} (h : mapWords g n = some n') {r : Nat → Nat} (hw : n.WF r) :
    n'.WF r ∧ n'.start = n.start ∧ n'.out = n.out ∧ n'.nArcs = n.nArcs ∧ (∀ v, n'.Reach v ↔ n.Reach v) ∧
    (∀ v a, a ∈ n.out v → ∀ x, n.data a = some x → ∃ y, g x = some y ∧ n'.data a = some y) ∧
    (n.Words → ∀ ws, n'.Produces ws ↔ ∃ us, n.Produces us ∧ us.map g = ws.map some) := by
  unfold mapWords at h
  split at h
  · rename_i hall
    have hdata : ∀ v a, a ∈ n.out v → ∀ x, n.data a = some x → ∃ y, g x = some y := by
      intro v a ha x hx
      have h1 := List.all_eq_true.1 hall v (List.mem_range.2 (hw.out_ok v a ha).2.2.2.1)
      have h2 := List.all_eq_true.1 h1 a ha
      rw [hx] at h2
      exact Option.isSome_iff_exists.1 h2
    have h := Option.some.inj h
    subst h
    refine ⟨?_, rfl, rfl, rfl, ?_, ?_, ?_⟩
    · exact ⟨hw.start_lt, hw.out_ok, hw.inn_ok, hw.out_nodup, hw.inn_nodup, hw.source, hw.start_inn, hw.stop_ok, hw.no_stop⟩
    · intro v
      constructor
      · intro h
        induction h with
        | start => exact .start
        | step v a _ ha ih => exact .step v a ih ha
      · intro h
        induction h with
        | start => exact .start
        | step v a _ ha ih => exact .step v a ih ha
    · intro v a ha x hx
      obtain ⟨y, hy⟩ := hdata v a ha x hx
      exact ⟨y, hy, by simp [hx, hy]⟩
    · intro hwords ws
      unfold Net.Produces
      simp only
      cases hs : n.stop with
      | none =>
        simp only
        constructor
        · intro h; exact ⟨[], rfl, by simp [h]⟩
        · rintro ⟨us, rfl, h⟩
          cases ws with
          | nil => rfl
          | cons w ws => simp at h
      | some s =>
        simp only
        constructor
        · rintro ⟨p, h1, h2⟩
          have h1 := walk_congr (n' := n) (by rfl) (by rfl) h1
          have : ∀ (v : Nat) (p : List Nat) (y : Nat) (ws : List W), n.Walk v p y →
              p.map (fun a => (n.data a).bind g) = ws.map some → ∃ us : List V, p.map n.data = us.map some ∧ us.map g = ws.map some := by
            intro v p y ws h
            induction h generalizing ws with
            | nil v =>
              intro h2
              exact ⟨[], rfl, by simpa using h2⟩
            | cons v a p w ha _ ih =>
              intro h2
              cases ws with
              | nil => simp at h2
              | cons x ws =>
                simp only [List.map_cons, List.cons.injEq] at h2
                obtain ⟨us, i2, i3⟩ := ih ws h2.2
                obtain ⟨x', hx'⟩ := hwords _ _ ha
                rw [hx'] at h2
                exact ⟨x' :: us, by simp [hx', i2], by simpa [i3] using h2.1⟩
          obtain ⟨us, i2, i3⟩ := this n.start p s ws h1 h2
          exact ⟨us, ⟨p, h1, i2⟩, i3⟩
        · rintro ⟨us, ⟨p, h1, h2⟩, h3⟩
          refine ⟨p, ?_, ?_⟩
          · exact walk_congr (n := n) (by rfl) (by rfl) h1
          · rw [← h3]
            have : p.map (fun a => (n.data a).bind g) = (p.map n.data).map (fun o => o.bind g) := by rw [List.map_map]; rfl
            rw [this, h2, List.map_map]
            rfl
  · cases h

/-- The change of words succeeds if it does for every word. -/
theorem map_some {g : V → Option W} {n : Net V} (h : ∀ v a, a ∈ n.out v → ∀ x, n.data a = some x → ∃ y, g x = some y) :
    ∃ n', mapWords g n = some n' := by
  refine ⟨_, if_pos ?_⟩
  rw [List.all_eq_true]
  intro v _
  rw [List.all_eq_true]
  intro a ha
  cases hx : n.data a with
  | none => rfl
  | some x =>
    obtain ⟨y, hy⟩ := h v a ha x hx
    simp [hy]

end

/-- Every word of a network with a stop node occurs in a reading. -/
theorem arc_in_reading {W : Type} {n : Net W} {r : Nat → Nat} (hw : n.WF r) (hwords : n.Words) {s : Nat} (hs : n.stop = some s)
    (hlive : ∀ v, n.inn v ≠ [] → v ≠ s → n.out v ≠ []) {v a : Nat} (ha : a ∈ n.out v) {x : W} (hx : n.data a = some x) :
    ∃ us, n.Produces us ∧ x ∈ us := by
  obtain ⟨K, _, hK⟩ := exists_bound r n.nNodes
  have fwd : ∀ (k v : Nat), K - r v ≤ k → v < n.nNodes → (v = s ∨ n.inn v ≠ []) → ∃ ws, Sp n (one n) v ws s := by
    intro k
    induction k with
    | zero =>
      intro v hk hv _
      have := hK v hv; omega
    | succ k ih =>
      intro v hk hv h
      by_cases e : v = s
      · rw [e]; exact ⟨[], .nil s⟩
      · have hi := h.resolve_left e
        match ho : n.out v, hlive v hi e with
        | b :: _, _ =>
          have hb : b ∈ n.out v := by rw [ho]; simp
          obtain ⟨g1, g2, g3, g4, g5, g6⟩ := hw.out_ok v b hb
          have := hK _ g4
          have := hK _ g5
          obtain ⟨ws, hws⟩ := ih (n.dst b) (by omega) g5 (Or.inr (List.ne_nil_of_mem g3))
          obtain ⟨y, hy⟩ := hwords v b hb
          exact ⟨[y] ++ ws, .cons v b [y] ws s hb ⟨y, hy, rfl⟩ hws⟩
  have bwd : ∀ v, n.Reach v → ∀ ws, Sp n (one n) v ws s → ∃ us, Sp n (one n) n.start (us ++ ws) s := by
    intro v hv
    induction hv with
    | start => intro ws h; exact ⟨[], h⟩
    | step v b _ hb ih =>
      intro ws h
      obtain ⟨y, hy⟩ := hwords v b hb
      obtain ⟨us, hus⟩ := ih ([y] ++ ws) (.cons v b [y] ws s hb ⟨y, hy, rfl⟩ h)
      exact ⟨us ++ [y], by simpa using hus⟩
  obtain ⟨g1, g2, g3, g4, g5, g6⟩ := hw.out_ok v a ha
  have hv : n.Reach v := by
    rw [hw.reach_iff]
    by_cases e1 : v = n.start
    · exact Or.inl e1
    · exact Or.inr (hw.source v (List.ne_nil_of_mem ha) e1)
  obtain ⟨ws, hws⟩ := fwd _ (n.dst a) (Nat.le_refl _) g5 (Or.inr (List.ne_nil_of_mem g3))
  obtain ⟨us, hus⟩ := bwd v hv ([x] ++ ws) (.cons v a [x] ws s ha ⟨x, hx, rfl⟩ hws)
  exact ⟨us ++ ([x] ++ ws), (produces_sp n s hs _).2 hus, by simp⟩

end Verif.CharNet
