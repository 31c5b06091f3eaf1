import Verif.Feed.Segs
/-!
# The loop over files with tables of limited size does what it does with tables of any size
-/
set_option autoImplicit false
namespace Verif.Feed

theorem takeWhile_append_of {A : Type} (p : A → Bool) : ∀ (l r : List A), (r = [] ∨ ∃ x ∈ l, p x = false) →
    (l ++ r).takeWhile p = l.takeWhile p ∧ (l ++ r).dropWhile p = l.dropWhile p ++ r := by
  intro l r
  induction l with
  | nil =>
    intro h
    rcases h with h | ⟨x, hx, _⟩
    · subst h; exact ⟨rfl, rfl⟩
    · simp at hx
  | cons a l ih =>
    intro h
    rw [List.cons_append, List.takeWhile_cons, List.takeWhile_cons, List.dropWhile_cons, List.dropWhile_cons]
    cases ha : p a with
    | false => exact ⟨rfl, rfl⟩
    | true =>
      have := ih (h.imp id (fun ⟨x, hx, hp⟩ => by
        rcases List.mem_cons.mp hx with rfl | hx
        · rw [ha] at hp; cases hp
        · exact ⟨x, hx, hp⟩))
      simp only [if_true]
      exact ⟨by rw [this.1], this.2⟩

theorem take_takeWhile {A : Type} (p : A → Bool) (l : List A) : l.take (l.takeWhile p).length = l.takeWhile p := by
  conv => lhs; arg 2; rw [← List.takeWhile_append_dropWhile (p := p) (l := l)]
  exact List.take_left' rfl

theorem drop_takeWhile {A : Type} (p : A → Bool) (l : List A) : l.drop (l.takeWhile p).length = l.dropWhile p := by
  conv => lhs; arg 2; rw [← List.takeWhile_append_dropWhile (p := p) (l := l)]
  exact List.drop_left' rfl

theorem exists_of_takeWhile_lt {A : Type} (p : A → Bool) (l : List A) (h : (l.takeWhile p).length < l.length) :
    ∃ x ∈ l, p x = false := by
  induction l with
  | nil => simp at h
  | cons a l ih =>
    cases ha : p a with
    | false => exact ⟨a, List.mem_cons_self, ha⟩
    | true =>
      rw [List.takeWhile_cons, ha] at h
      simp only [if_true, List.length_cons] at h
      obtain ⟨x, hx, hp⟩ := ih (by omega)
      exact ⟨x, List.mem_cons_of_mem _ hx, hp⟩

section
variable {L X Y F C : Type} [DecidableEq F] [DecidableEq C] (ends : L → Bool) (read : L → Line X) (tag : Option Y → X → Y)
  (file : Y → F) (key : Y → C)

/-- Using the words of a file and channel. -/
theorem tab_step (hfk : ∀ a b, key a = key b → file a = file b) (t : Tab L Y) (h : t.Inv ends read file)
    (hd : bound file t.words t.s < t.words.length ∨ t.rest = []) (hs : t.s ≤ t.words.length) :
    ∃ (y : Y) (ys : List Y), t.todo read tag = y :: ys ∧ t.words[t.s - 1]? = some y ∧
      (Chan.run key (y :: ys)).1 = (t.words.drop (t.s - 1)).take (bound key t.words t.s + 1 - t.s) ∧
      (Chan.run key (y :: ys)).2 = ({ t with s := bound key t.words t.s + 1 } : Tab L Y).todo read tag ∧
      ({ t with s := bound key t.words t.s + 1 } : Tab L Y).Inv ends read file ∧
      (bound key t.words t.s + 1 ≤ t.words.length ↔ (Chan.run key (y :: ys)).2 ≠ []) := by
  have hpos := h.pos
  have hlen := List.length_drop (i := t.s - 1) (l := t.words)
  cases hw : t.words.drop (t.s - 1) with
  | nil => rw [hw] at hlen; simp at hlen; omega
  | cons w vs =>
    rw [hw, List.length_cons] at hlen
    have hb : bound key t.words t.s = t.s + (vs.takeWhile (fun v => decide (key v = key w))).length := by
      unfold bound; rw [hw]
    have hb1 : bound file t.words t.s = t.s + (vs.takeWhile (fun v => decide (file v = file w))).length := by
      unfold bound; rw [hw]
    have hR : completed tag t.words.getLast? (records read t.rest) = [] ∨
        ∃ x ∈ vs, decide (key x = key w) = false := by
      rcases hd with hd | hd
      · right
        rw [hb1] at hd
        obtain ⟨x, hx, hp⟩ := exists_of_takeWhile_lt (fun v => decide (file v = file w)) vs (by omega)
        refine ⟨x, hx, ?_⟩
        simp only [decide_eq_false_iff_not] at hp ⊢
        exact fun e => hp (hfk _ _ e)
      · left; rw [hd]; rfl
    obtain ⟨e1, e2⟩ := takeWhile_append_of (fun v => decide (key v = key w)) vs _ hR
    have hdrop : t.words.drop (bound key t.words t.s) = vs.dropWhile (fun v => decide (key v = key w)) := by
      rw [hb, show t.s + (vs.takeWhile (fun v => decide (key v = key w))).length =
        (t.s - 1) + ((vs.takeWhile (fun v => decide (key v = key w))).length + 1) by omega, ← List.drop_drop, hw,
        List.drop_succ_cons, drop_takeWhile]
    have hle := bound_le key t.words t.s hpos
    have htodo : ({ t with s := bound key t.words t.s + 1 } : Tab L Y).todo read tag =
        vs.dropWhile (fun v => decide (key v = key w)) ++ completed tag t.words.getLast? (records read t.rest) := by
      unfold Tab.todo
      dsimp only
      rw [Nat.add_sub_cancel, hdrop]
    have hmore : bound key t.words t.s + 1 ≤ t.words.length ↔
        vs.dropWhile (fun v => decide (key v = key w)) ++ completed tag t.words.getLast? (records read t.rest) ≠ [] := by
      have hl2 := List.length_drop (i := bound key t.words t.s) (l := t.words)
      rw [hdrop] at hl2
      constructor
      · intro hh he
        have := congrArg List.length he
        rw [List.length_append, List.length_nil] at this
        omega
      · intro hh
        rcases hR with hR | ⟨x, hx, hp⟩
        · rw [hR, List.append_nil] at hh
          have := List.length_pos_iff.mpr hh
          omega
        · have : vs.dropWhile (fun v => decide (key v = key w)) ≠ [] := by
            intro hn
            have htw := List.takeWhile_append_dropWhile (p := fun v => decide (key v = key w)) (l := vs)
            rw [hn, List.append_nil] at htw
            rw [← htw] at hx
            have := List.all_eq_true.mp (List.all_takeWhile (l := vs) (p := fun v => decide (key v = key w))) x hx
            rw [hp] at this; cases this
          have := List.length_pos_iff.mpr this
          omega
    refine ⟨w, vs ++ completed tag t.words.getLast? (records read t.rest), ?_, ?_, ?_, ?_, ?_, ?_⟩
    · unfold Tab.todo; rw [hw]; rfl
    · have := congrArg (fun l => l[0]?) hw
      simp only [List.getElem?_drop, List.getElem?_cons_zero, Nat.add_zero] at this
      exact this
    · unfold Chan.run
      dsimp only
      rw [e1, hb, show t.s + (vs.takeWhile (fun v => decide (key v = key w))).length + 1 - t.s =
        (vs.takeWhile (fun v => decide (key v = key w))).length + 1 by omega, List.take_succ_cons, take_takeWhile]
    · rw [htodo]
      unfold Chan.run
      dsimp only
      rw [e2]
    · refine ⟨by dsimp only; omega, by dsimp only; omega, h.cap, h.big, h.full, h.clean, h.ended, h.feof, ?_⟩
      dsimp only
      intro hh
      right
      have hno : ¬ (bound key t.words t.s + 1 ≤ t.words.length) := by omega
      rw [hmore] at hno
      have hnil : vs.dropWhile (fun v => decide (key v = key w)) ++ completed tag t.words.getLast? (records read t.rest) = [] :=
        Classical.byContradiction hno
      have := (List.append_eq_nil_iff.mp hnil).2
      cases hr : records read t.rest with
      | nil => rfl
      | cons a b => rw [hr] at this; simp [completed] at this
    · rw [hmore]
      unfold Chan.run
      dsimp only
      rw [e2]

/-- No words are left exactly when the table is used up. -/
theorem tab_empty (t : Tab L Y) (h : t.Inv ends read file)
    (hd : bound file t.words t.s < t.words.length ∨ t.rest = []) :
    t.words.length < t.s ↔ t.todo read tag = [] := by
  have hpos := h.pos
  constructor
  · intro hs
    unfold Tab.todo
    rw [List.drop_eq_nil_of_le (by omega)]
    rcases hd with hd | hd
    · exfalso
      unfold bound at hd
      rw [List.drop_eq_nil_of_le (by omega)] at hd
      dsimp only at hd
      omega
    · rw [hd]; rfl
  · intro he
    have := congrArg List.length (List.append_eq_nil_iff.mp he).1
    rw [List.length_drop, List.length_nil] at this
    omega

end

section
variable {L Y F C : Type} [DecidableEq F] [DecidableEq C] (ends skip : L → Bool) (parse : L → Option Y) (p : L → Y)
  (file : Y → F) (key : Y → C)

theorem boundStm_eq {G : Type} [DecidableEq G] (k : Y → G) (ss : List Y) (s : Nat) (w : Y) (vs : List Y) (h : ss.drop s = w :: vs) :
    (vs.dropWhile (fun v => decide (k v = k w)) = [] ∧ boundStm k ss s = ss.length) ∨
    (vs.dropWhile (fun v => decide (k v = k w)) ≠ [] ∧ boundStm k ss s = s + (vs.takeWhile (fun v => decide (k v = k w))).length ∧
      boundStm k ss s + 1 < ss.length) := by
  have hlen := List.length_drop (i := s) (l := ss)
  rw [h, List.length_cons] at hlen
  have htw := List.takeWhile_append_dropWhile (p := fun v => decide (k v = k w)) (l := vs)
  unfold boundStm
  rw [h]
  dsimp only
  by_cases ha : vs.all (fun v => decide (k v = k w)) = true
  · left
    rw [if_pos ha]
    refine ⟨?_, rfl⟩
    cases hd : vs.dropWhile (fun v => decide (k v = k w)) with
    | nil => rfl
    | cons x xs =>
      have h1 : vs.dropWhile (fun v => decide (k v = k w)) ≠ [] := by rw [hd]; simp
      have := List.head_dropWhile_not (fun v => decide (k v = k w)) h1
      rw [List.all_eq_true.mp ha _ ((List.dropWhile_sublist _).subset (List.head_mem h1))] at this
      cases this
  · right
    rw [if_neg ha]
    have hne : vs.dropWhile (fun v => decide (k v = k w)) ≠ [] := by
      intro hn
      rw [hn, List.append_nil] at htw
      apply ha
      rw [← htw]
      exact List.all_takeWhile
    refine ⟨hne, rfl, ?_⟩
    have h1 := congrArg List.length htw
    rw [List.length_append] at h1
    have h2 := List.length_pos_iff.mpr hne
    omega

/-- Using the segments of a file and channel. -/
theorem stm_step (hfk : ∀ a b, key a = key b → file a = file b) (m : Stm L Y) (h : m.Inv ends skip parse p)
    (hd : boundStm file m.segs m.s < m.segs.length ∨ m.eof = true) (hs : m.s < m.segs.length) :
    ∃ (y : Y) (ys : List Y), m.todo ends skip p = y :: ys ∧ m.segs[m.s]? = some y ∧
      (Chan.run key (y :: ys)).1 = (m.segs.drop m.s).take (boundStm key m.segs m.s + 1 - m.s) ∧
      (Chan.run key (y :: ys)).2 = ({ m with s := boundStm key m.segs m.s + 1 } : Stm L Y).todo ends skip p ∧
      ({ m with s := boundStm key m.segs m.s + 1 } : Stm L Y).Inv ends skip parse p ∧
      (boundStm key m.segs m.s + 1 < m.segs.length ↔ (Chan.run key (y :: ys)).2 ≠ []) ∧
      ((Chan.run key (y :: ys)).2 = [] → boundStm key m.segs m.s = m.segs.length) := by
  have hlen := List.length_drop (i := m.s) (l := m.segs)
  cases hw : m.segs.drop m.s with
  | nil => rw [hw] at hlen; simp at hlen; omega
  | cons w vs =>
    rw [hw, List.length_cons] at hlen
    have hR : (segments ends skip p m.rest = [] ∧ m.eof = true) ∨ ∃ x ∈ vs, decide (key x = key w) = false := by
      rcases hd with hd | hd
      · right
        rcases boundStm_eq file m.segs m.s w vs hw with ⟨_, e⟩ | ⟨e, _⟩
        · omega
        · have h1 := List.head_dropWhile_not (fun v => decide (file v = file w)) e
          refine ⟨_, (List.dropWhile_sublist _).subset (List.head_mem e), ?_⟩
          simp only [decide_eq_false_iff_not] at h1 ⊢
          exact fun e => h1 (hfk _ _ e)
      · left
        exact ⟨by rw [h.feof (by rw [← h.same]; exact hd)]; rfl, hd⟩
    obtain ⟨e1, e2⟩ := takeWhile_append_of (fun v => decide (key v = key w)) vs (segments ends skip p m.rest) (hR.imp (fun x => x.1) id)
    have htw := List.takeWhile_append_dropWhile (p := fun v => decide (key v = key w)) (l := vs)
    have hrun1 : (Chan.run key (w :: (vs ++ segments ends skip p m.rest))).1 = w :: vs.takeWhile (fun v => decide (key v = key w)) := by
      unfold Chan.run; dsimp only; rw [e1]
    have hrun2 : (Chan.run key (w :: (vs ++ segments ends skip p m.rest))).2 =
        vs.dropWhile (fun v => decide (key v = key w)) ++ segments ends skip p m.rest := by
      unfold Chan.run; dsimp only; rw [e2]
    refine ⟨w, vs ++ segments ends skip p m.rest, ?_, ?_, ?_⟩
    · unfold Stm.todo; rw [hw]; rfl
    · have := congrArg (fun l => l[0]?) hw
      simp only [List.getElem?_drop, List.getElem?_cons_zero, Nat.add_zero] at this
      exact this
    · rw [hrun1, hrun2]
      rcases boundStm_eq key m.segs m.s w vs hw with ⟨k1, k2⟩ | ⟨k1, k2, k3⟩
      · have hrest : segments ends skip p m.rest = [] ∧ m.eof = true := by
          rcases hR with hR | ⟨x, hx, hp⟩
          · exact hR
          · rw [k1, List.append_nil] at htw
            rw [← htw] at hx
            have := List.all_eq_true.mp (List.all_takeWhile (l := vs) (p := fun v => decide (key v = key w))) x hx
            rw [hp] at this; cases this
        rw [k2, k1, hrest.1]
        refine ⟨?_, ?_, ?_, ?_, ?_⟩
        · rw [List.take_of_length_le (by simp only [List.length_cons]; omega)]
          rw [k1, List.append_nil] at htw
          rw [htw]
        · unfold Stm.todo
          dsimp only
          rw [List.drop_eq_nil_of_le (by omega), hrest.1]
        · exact ⟨.inr ⟨rfl, hrest.2⟩, h.cap, h.same, h.good, h.ended, h.feof⟩
        · constructor
          · intro hh; omega
          · intro hh; exact absurd rfl hh
        · intro _; rfl
      · refine ⟨?_, ?_, ?_, ?_, ?_⟩
        · rw [k2, show m.s + (vs.takeWhile (fun v => decide (key v = key w))).length + 1 - m.s =
            (vs.takeWhile (fun v => decide (key v = key w))).length + 1 by omega, List.take_succ_cons, take_takeWhile]
        · unfold Stm.todo
          dsimp only
          rw [k2, show m.s + (vs.takeWhile (fun v => decide (key v = key w))).length + 1 =
            m.s + ((vs.takeWhile (fun v => decide (key v = key w))).length + 1) by omega, ← List.drop_drop, hw,
            List.drop_succ_cons, drop_takeWhile]
        · exact ⟨.inl (by dsimp only; omega), h.cap, h.same, h.good, h.ended, h.feof⟩
        · constructor
          · intro _ hn; exact k1 (List.append_eq_nil_iff.mp hn).1
          · intro _; exact k3
        · intro hh; exact absurd (List.append_eq_nil_iff.mp hh).1 k1

/-- Segments are left exactly when there is one in the table. -/
theorem stm_nonempty (m : Stm L Y) (h : m.Inv ends skip parse p)
    (hd : boundStm file m.segs m.s < m.segs.length ∨ m.eof = true) :
    m.s < m.segs.length ↔ m.todo ends skip p ≠ [] := by
  constructor
  · intro hs he
    have := congrArg List.length (List.append_eq_nil_iff.mp he).1
    rw [List.length_drop, List.length_nil] at this
    omega
  · intro hne
    apply Classical.byContradiction
    intro hs
    apply hne
    unfold Stm.todo
    rw [List.drop_eq_nil_of_le (by omega)]
    rcases hd with hd | hd
    · exfalso
      unfold boundStm at hd
      rw [List.drop_eq_nil_of_le (by omega)] at hd
      dsimp only at hd
      omega
    · rw [h.feof (by rw [← h.same]; exact hd)]; rfl

end

section
variable {L M F C : Type} [DecidableEq F] [DecidableEq C]
  (ends : L → Bool) (read : L → Line (Chan.Word (F × C)))
  (ends' skip : M → Bool) (parse : M → Option (Chan.Utt (F × C))) (p : M → Chan.Utt (F × C)) (reduce : Bool)

/-- The outcome of the loop on whole files in the terms used here. -/
def ofOut {A : Type} : Chan.Out A → Res A
  | .undefined => .undef
  | .error => .fail
  | .ok a => .ok a

theorem ofOut_map {A B : Type} (f : A → B) (o : Chan.Out A) : ofOut (o.map f) = (ofOut o).bind fun a => .ok (f a) := by
  cases o <;> rfl

theorem completed_mark {K : Type} : ∀ (ws : List (Chan.Word K)) (prev : Option (Chan.Tok K)),
    completed tagTok prev ws = Chan.mark prev ws
  | [], _ => rfl
  | w :: ws, prev => by
    show _ :: completed tagTok _ ws = _ :: Chan.mark _ ws
    rw [completed_mark ws]
    rfl

theorem run_length {Z : Type} (key : Z → F × C) (y : Z) (ys : List Z) : (Chan.run key (y :: ys)).2.length ≤ ys.length := by
  unfold Chan.run
  exact (List.dropWhile_sublist _).length_le

theorem fileLoop_noWords (f : Nat) (u : Chan.Utt (F × C)) (us : List (Chan.Utt (F × C))) :
    Chan.fileLoop reduce (f + 1) (u :: us) [] =
      (match Chan.alignChannel reduce (Chan.run Chan.Utt.key (u :: us)).1 ([] : List (Chan.Tok (F × C))) with
      | none => .undefined
      | some a => (Chan.fileLoop reduce f (Chan.run Chan.Utt.key (u :: us)).2 []).map (fun x => a ++ x)) := by
  conv => lhs; unfold Chan.fileLoop
  simp only
  cases Chan.alignChannel reduce (Chan.run Chan.Utt.key (u :: us)).1 ([] : List (Chan.Tok (F × C))) <;> rfl

theorem fileLoop_same (f : Nat) (u : Chan.Utt (F × C)) (us : List (Chan.Utt (F × C))) (y : Chan.Tok (F × C)) (ys : List (Chan.Tok (F × C)))
    (hk : y.w.key = u.key) :
    Chan.fileLoop reduce (f + 1) (u :: us) (y :: ys) =
      (match Chan.alignChannel reduce (Chan.run Chan.Utt.key (u :: us)).1 (Chan.run (fun (x : Chan.Tok (F × C)) => x.w.key) (y :: ys)).1 with
      | none => .undefined
      | some a =>
        (Chan.fileLoop reduce f (Chan.run Chan.Utt.key (u :: us)).2 (Chan.run (fun (x : Chan.Tok (F × C)) => x.w.key) (y :: ys)).2).map
          (fun x => a ++ x)) := by
  conv => lhs; unfold Chan.fileLoop
  simp only [if_pos hk]
  cases Chan.alignChannel reduce (Chan.run Chan.Utt.key (u :: us)).1 (Chan.run (fun (x : Chan.Tok (F × C)) => x.w.key) (y :: ys)).1 <;> rfl

theorem fileLoop_other (f : Nat) (u : Chan.Utt (F × C)) (us : List (Chan.Utt (F × C))) (y : Chan.Tok (F × C)) (ys : List (Chan.Tok (F × C)))
    (hk : ¬ y.w.key = u.key) :
    Chan.fileLoop reduce (f + 1) (u :: us) (y :: ys) =
      (match Chan.alignChannel reduce (Chan.run Chan.Utt.key (u :: us)).1 ([] : List (Chan.Tok (F × C))) with
      | none => .undefined
      | some a => (Chan.fileLoop reduce f (Chan.run Chan.Utt.key (u :: us)).2 (y :: ys)).map (fun x => a ++ x)) := by
  conv => lhs; unfold Chan.fileLoop
  simp only [if_neg hk]
  cases Chan.alignChannel reduce (Chan.run Chan.Utt.key (u :: us)).1 ([] : List (Chan.Tok (F × C))) <;> rfl

/-- **The loop.**  With tables of any size that satisfy the invariants the loop does what it does on whole files. -/
theorem loop_eq (ff : Nat) (hff : 2 ≤ ff) : ∀ (f : Nat) (m : Stm M (Chan.Utt (F × C))) (t : Tab L (Chan.Tok (F × C))),
    m.Inv ends' skip parse p → t.Inv ends read (fun t : Chan.Tok (F × C) => t.w.key.1) →
    m.rest.length + 3 ≤ ff → (m.todo ends' skip p).length + 1 ≤ f →
    (m.todo ends' skip p ≠ [] ∨ (m.s = m.segs.length + 1 ∧ t.todo read tagTok ≠ [])) →
    loop ends read ends' skip parse reduce ff f m t =
      ofOut (Chan.fileLoop reduce f (m.todo ends' skip p) (t.todo read tagTok)) := by
  intro f
  induction f with
  | zero => intro m t _ _ _ h; omega
  | succ f ih =>
    intro m t hm ht hr hf hne
    obtain ⟨m', a1, a2, a3, a4, a5⟩ := fillSegs_ok ends' skip parse p (fun u : Chan.Utt (F × C) => u.key.1) ff m hm hr
    obtain ⟨t', b1, b2, b3, b4⟩ := fillWords_ok ends read tagTok (fun t : Chan.Tok (F × C) => t.w.key.1) ff hff t ht
    have hsN := stm_nonempty ends' skip parse p (fun u : Chan.Utt (F × C) => u.key.1) m' a2 a4
    have htE := tab_empty ends read tagTok (fun t : Chan.Tok (F × C) => t.w.key.1) t' b2 b4
    unfold loop
    rw [a1]
    simp only [Res.bind]
    rw [b1]
    simp only
    rw [← a3, ← b3]
    rw [← a3, ← b3] at hne
    rw [← a3] at hf
    -- what follows a round
    have cont : ∀ (a : List (Chan.Utt (F × C) × List (Chan.Tok (F × C)))) (rs ws : Nat),
        ({ m' with s := rs } : Stm M (Chan.Utt (F × C))).Inv ends' skip parse p →
        ({ t' with s := ws } : Tab L (Chan.Tok (F × C))).Inv ends read (fun t : Chan.Tok (F × C) => t.w.key.1) →
        (({ m' with s := rs } : Stm M (Chan.Utt (F × C))).todo ends' skip p).length + 1 ≤ f →
        (rs < m'.segs.length ↔ ({ m' with s := rs } : Stm M (Chan.Utt (F × C))).todo ends' skip p ≠ []) →
        (ws ≤ t'.words.length ↔ ({ t' with s := ws } : Tab L (Chan.Tok (F × C))).todo read tagTok ≠ []) →
        (({ m' with s := rs } : Stm M (Chan.Utt (F × C))).todo ends' skip p = [] → rs = m'.segs.length + 1) →
        (if ws ≤ t'.words.length ∨ rs < m'.segs.length then
          (loop ends read ends' skip parse reduce ff f { m' with s := rs } { t' with s := ws }).bind fun x => .ok (a ++ x)
        else Res.ok a) =
        ofOut ((Chan.fileLoop reduce f (({ m' with s := rs } : Stm M (Chan.Utt (F × C))).todo ends' skip p)
          (({ t' with s := ws } : Tab L (Chan.Tok (F × C))).todo read tagTok)).map (fun x => a ++ x)) := by
      intro a rs ws i1 i2 hl k1 k2 k3
      by_cases hmore : ws ≤ t'.words.length ∨ rs < m'.segs.length
      · rw [if_pos hmore, ofOut_map, ih _ _ i1 i2 (by dsimp only; omega) hl]
        by_cases hz : ({ m' with s := rs } : Stm M (Chan.Utt (F × C))).todo ends' skip p = []
        · right
          refine ⟨k3 hz, ?_⟩
          rcases hmore with h | h
          · exact k2.mp h
          · exact absurd hz (k1.mp h)
        · exact .inl hz
      · rw [if_neg hmore]
        have e1 : ({ m' with s := rs } : Stm M (Chan.Utt (F × C))).todo ends' skip p = [] := by
          apply Classical.byContradiction
          intro h; exact hmore (.inr (k1.mpr h))
        have e2 : ({ t' with s := ws } : Tab L (Chan.Tok (F × C))).todo read tagTok = [] := by
          apply Classical.byContradiction
          intro h; exact hmore (.inl (k2.mpr h))
        rw [e1, e2]
        obtain ⟨g, rfl⟩ : ∃ g, f = g + 1 := ⟨f - 1, by omega⟩
        unfold Chan.fileLoop
        simp [Chan.Out.map, ofOut]
    by_cases hz : m'.todo ends' skip p = []
    · -- the references are used up
      obtain ⟨hs1, hts⟩ := hne.resolve_left (fun h => h hz)
      have heof : m.eof = true := by
        rcases hm.le with h | h
        · omega
        · exact h.2
      have hmm : m' = m := by
        have := fillSegs_eof ends' skip parse (fun u : Chan.Utt (F × C) => u.key.1) ff (by omega) m heof
        rw [a1] at this
        exact Res.ok.inj this
      have hlt : ¬ t'.words.length < t'.s := fun h => hts (htE.mp h)
      rw [hz]
      obtain ⟨y, ys, hy⟩ : ∃ y ys, t'.todo read tagTok = y :: ys := by
        cases h : t'.todo read tagTok with
        | nil => exact absurd h hts
        | cons y ys => exact ⟨y, ys, rfl⟩
      rw [hy]
      unfold round
      dsimp only
      rw [if_neg hlt, if_pos (by rw [hmm]; omega)]
      rfl
    · have hsl := hsN.mpr hz
      obtain ⟨u, us, c1, c2, c3, c4, c5, c6, c7⟩ :=
        stm_step ends' skip parse p (fun u : Chan.Utt (F × C) => u.key.1) (fun u : Chan.Utt (F × C) => u.key) (fun _ _ e => congrArg Prod.fst e) m' a2 a4 hsl
      have hul : (Chan.run (fun u : Chan.Utt (F × C) => u.key) (u :: us)).2.length + 1 ≤ f := by
        have := run_length (fun u : Chan.Utt (F × C) => u.key) u us
        rw [c1, List.length_cons] at hf
        omega
      have hk3 : ({ m' with s := boundStm (fun u : Chan.Utt (F × C) => u.key) m'.segs m'.s + 1 } : Stm M (Chan.Utt (F × C))).todo ends' skip p
          = [] → boundStm (fun u : Chan.Utt (F × C) => u.key) m'.segs m'.s + 1 = m'.segs.length + 1 := by
        intro h
        rw [← c4] at h
        rw [c7 h]
      have hpos := b2.pos
      have hle := b2.le
      rw [c4] at hul c6
      by_cases hw : t'.words.length < t'.s
      · -- the words are used up
        have he := htE.mp hw
        have hb : bound (fun t : Chan.Tok (F × C) => t.w.key) t'.words t'.s = t'.words.length := by
          unfold bound; rw [List.drop_eq_nil_of_le (by omega)]
        have hs1 : t'.s = t'.words.length + 1 := by omega
        have hself : ({ t' with s := t'.words.length + 1 } : Tab L (Chan.Tok (F × C))) = t' := by
          rw [← hs1]
        have hts2 : ({ t' with s := t'.words.length + 1 } : Tab L (Chan.Tok (F × C))).todo read tagTok = [] := by rw [hself]; exact he
        rw [he, c1]
        unfold round
        dsimp only
        rw [if_pos hw, c2, hb]
        dsimp only
        rw [← c3, List.drop_eq_nil_of_le (show t'.words.length ≤ t'.s - 1 by omega), List.take_nil]
        rw [fileLoop_noWords]
        show Res.bind (Res.bind (ofChannel (Chan.alignChannel reduce (Chan.run Chan.Utt.key (u :: us)).1 ([] : List (Chan.Tok (F × C))))) _) _ = _
        cases ha : Chan.alignChannel reduce (Chan.run Chan.Utt.key (u :: us)).1 ([] : List (Chan.Tok (F × C))) with
        | none => rfl
        | some a =>
          have := cont a (boundStm (fun u : Chan.Utt (F × C) => u.key) m'.segs m'.s + 1) (t'.words.length + 1) c5
            (by rw [hself]; exact b2) hul c6 (by
              constructor
              · intro h; omega
              · intro h; exact absurd hts2 h) hk3
          rw [← c4, hts2] at this
          exact this
      · obtain ⟨y, ys, d1, d2, d3, d4, d5, d6⟩ :=
          tab_step ends read tagTok (fun t : Chan.Tok (F × C) => t.w.key.1) (fun t : Chan.Tok (F × C) => t.w.key)
            (fun _ _ e => congrArg Prod.fst e) t' b2 b4 (by omega)
        rw [c1, d1]
        unfold round
        dsimp only
        rw [if_neg hw, if_neg (show ¬ m'.segs.length < m'.s by omega), c2, d2]
        dsimp only
        by_cases hk : y.w.key = u.key
        · rw [if_pos hk, ← c3, ← d3]
          rw [fileLoop_same reduce f u us y ys hk]
          show Res.bind (Res.bind (ofChannel (Chan.alignChannel reduce (Chan.run Chan.Utt.key (u :: us)).1
            (Chan.run (fun (x : Chan.Tok (F × C)) => x.w.key) (y :: ys)).1)) _) _ = _
          cases ha : Chan.alignChannel reduce (Chan.run Chan.Utt.key (u :: us)).1 (Chan.run (fun (x : Chan.Tok (F × C)) => x.w.key) (y :: ys)).1 with
          | none => rfl
          | some a =>
            have := cont a (boundStm (fun u : Chan.Utt (F × C) => u.key) m'.segs m'.s + 1)
              (bound (fun t : Chan.Tok (F × C) => t.w.key) t'.words t'.s + 1) c5 d5 hul c6 (by rw [← d4]; exact d6) hk3
            rw [← c4, ← d4] at this
            exact this
        · have hz0 : t'.s - 1 + 1 - t'.s = 0 := by omega
          rw [if_neg hk, ← c3, hz0, List.take_zero]
          rw [fileLoop_other reduce f u us y ys hk]
          show Res.bind (Res.bind (ofChannel (Chan.alignChannel reduce (Chan.run Chan.Utt.key (u :: us)).1
            ([] : List (Chan.Tok (F × C))))) _) _ = _
          cases ha : Chan.alignChannel reduce (Chan.run Chan.Utt.key (u :: us)).1 ([] : List (Chan.Tok (F × C))) with
          | none => rfl
          | some a =>
            have hself : ({ t' with s := t'.s - 1 + 1 } : Tab L (Chan.Tok (F × C))) = t' := by
              rw [show t'.s - 1 + 1 = t'.s by omega]
            have := cont a (boundStm (fun u : Chan.Utt (F × C) => u.key) m'.segs m'.s + 1) (t'.s - 1 + 1) c5
              (by rw [hself]; exact b2) hul c6 (by
                rw [hself, d1]
                constructor
                · intro _; simp
                · intro _; omega) hk3
            rw [← c4, hself, d1] at this
            rw [← hself] at this
            exact this

end

end Verif.Feed
