import Verif.AlignLog.Read
/-!
# Lemmas: all lines of a group, pairs of words, time spans
-/
set_option autoImplicit false
namespace Verif.AlignLog
open Verif.AscSgml (dec secs numOf dec_spec)

theorem line_reads (type : List Nat) (ht : IsType type) (g : Group) (h : GoodGroup g) (l : List Nat)
    (hl : l ∈ groupLines false type g) :
    ∃ fs, fieldsOf (logged l) = some (type :: dec g.id :: fs) ∧ fs.length = 25 := by
  unfold groupLines at hl
  rcases List.mem_append.1 hl with hl | hl
  · obtain ⟨x, hx, hl⟩ := List.mem_flatMap.1 hl
    unfold refLines at hl
    dsimp only at hl
    rw [if_neg Bool.false_ne_true] at hl
    split at hl
    · rcases List.mem_singleton.1 hl with rfl
      exact ⟨_, refSeg_fields type ht g.id x.1 (h.1 x hx).1, rfl⟩
    · obtain ⟨t, htm, rfl⟩ := List.mem_map.1 hl
      exact ⟨_, refLine_fields type ht g.id [] clean_nil t ((h.1 x hx).2.1 t htm).2, rfl⟩
  · obtain ⟨x, hx, hl⟩ := List.mem_flatMap.1 hl
    unfold hypLines at hl
    split at hl
    · rcases List.mem_singleton.1 hl with rfl
      exact ⟨_, hypSeg_fields type ht g.id x.1 (h.2.1 x hx).1, rfl⟩
    · obtain ⟨t, htm, rfl⟩ := List.mem_map.1 hl
      exact ⟨_, hypLine_fields type ht g.id [] clean_nil t ((h.2.1 x hx).2.1 t htm).2, rfl⟩

theorem load_skip (st : St) (ls : List (List Nat)) (h : ∀ l ∈ ls, readLine st l = some st) : load st ls = some st := by
  induction ls with
  | nil => rfl
  | cons l ls ih =>
    show (readLine st l).bind _ = _
    rw [h l List.mem_cons_self]
    exact ih (fun u hu => h u (List.mem_cons_of_mem _ hu))

theorem no_lines (st : St) (g : Group) (h : GoodGroup g) : load st ((groupLines false (bytes "NO") g).map logged) = some st := by
  apply load_skip
  intro l hl
  obtain ⟨m, hm, rfl⟩ := List.mem_map.1 hl
  obtain ⟨fs, hf, _⟩ := line_reads (bytes "NO") (Or.inr (Or.inl rfl)) g h m hm
  unfold readLine
  rw [hf]
  dsimp only
  have e : (bytes "NO" :: dec g.id :: fs).getD 0 [] = bytes "NO" := rfl
  rw [e, if_neg (by decide), if_neg (by decide)]

/-- The groups of a run that are logged. -/
def shown (gs : List (Group × Bool × Bool)) : List Group := (gs.filter (fun x => !x.2.2)).map Prod.fst

theorem run_read (gs : List (Group × Bool × Bool)) (h : ∀ g ∈ shown gs, GoodGroup g) (hd : ((shown gs).map Group.id).Nodup)
    (done : List RGroup) (hdone : ∀ r ∈ done, ∀ g ∈ shown gs, r.id ≠ dec g.id)
    (ps : List (List Nat × List Nat × List Nat × List Nat)) :
    load ⟨done, ps⟩ ((runLog gs).map logged) = some ⟨done ++ (shown gs).filterMap groupView, ps⟩ := by
  induction gs generalizing done with
  | nil => show some (St.mk done ps) = _; unfold shown; rw [List.filter_nil, List.map_nil, List.filterMap_nil, List.append_nil]
  | cons x gs ih =>
    have hr : runLog (x :: gs) = runGroup x ++ runLog gs := by unfold runLog; rw [List.flatMap_cons]
    rw [hr, List.map_append, load_append]
    cases hg : x.2.2 with
    | true =>
      have hs : shown (x :: gs) = shown gs := by unfold shown; rw [List.filter_cons_of_neg (by rw [hg]; decide)]
      have hn : runGroup x = [] := by
        unfold runGroup
        dsimp only
        rw [hg]
        rw [if_neg (by simp), if_neg (by simp)]; rfl
      rw [hs] at h hd hdone ⊢
      rw [hn, List.map_nil]
      show load ⟨done, ps⟩ _ = _
      exact ih h hd done hdone
    | false =>
      have hs : shown (x :: gs) = x.1 :: shown gs := by
        unfold shown; rw [List.filter_cons_of_pos (by rw [hg]; decide), List.map_cons]
      rw [hs] at h hd hdone ⊢
      have hgood := h x.1 List.mem_cons_self
      have hd' := List.nodup_cons.1 hd
      have hrun : load ⟨done, ps⟩ ((runGroup x).map logged) = some ⟨done ++ (groupView x.1).toList, ps⟩ := by
        unfold runGroup
        dsimp only
        rw [hg, Bool.not_false, if_pos rfl, List.map_append, load_append]
        have h0 : load ⟨done, ps⟩ ((if (!x.2.1 && true) = true then groupLines false (bytes "NO") x.1 else []).map logged) =
            some ⟨done, ps⟩ := by
          split
          · exact no_lines _ x.1 hgood
          · rfl
        rw [h0, Option.bind_some]
        exact group_read x.1 hgood done (fun r hr => hdone r hr x.1 List.mem_cons_self) ps
      rw [hrun, Option.bind_some, ih (fun u hu => h u (List.mem_cons_of_mem _ hu)) hd'.2]
      · cases hv : groupView x.1 with
        | none => rw [List.filterMap_cons_none hv]; show some (St.mk ((done ++ []) ++ _) ps) = _; rw [List.append_nil]
        | some r =>
          rw [List.filterMap_cons_some hv]
          show some (St.mk ((done ++ [r]) ++ _) ps) = _
          rw [List.append_assoc]; rfl
      · intro r hr u hu
        rcases List.mem_append.1 hr with hr | hr
        · exact hdone r hr u (List.mem_cons_of_mem _ hu)
        · have hv : groupView x.1 = some r := by rwa [Option.mem_toList] at hr
          rw [view_id x.1 r hv]
          exact fun he => hd'.1 (List.mem_map.2 ⟨u, hu, (dec_inj he).symm⟩)

/-! ## Pairs of words -/

theorem segGrp_go (l : List (Nat × Nat)) (seg v : Nat) (a : Option Nat) (h : ∀ x ∈ l, x.1 = seg → x.2 = v)
    (hm : a = some v ∨ (seg, v) ∈ l) : l.foldl (fun a x => if x.1 = seg then some x.2 else a) a = some v := by
  induction l generalizing a with
  | nil => exact hm.resolve_right List.not_mem_nil
  | cons x l ih =>
    rw [List.foldl_cons]
    refine ih _ (fun y hy => h y (List.mem_cons_of_mem _ hy)) ?_
    by_cases hx : x.1 = seg
    · left; rw [if_pos hx, h x List.mem_cons_self hx]
    · rw [if_neg hx]
      rcases hm with hm | hm
      · exact Or.inl hm
      · rcases List.mem_cons.1 hm with hm | hm
        · exact absurd (by rw [← hm]) hx
        · exact Or.inr hm

theorem segGrp_of (stored : List Row) (h : ∀ a ∈ stored, ∀ b ∈ stored, a.seg = b.seg → a.sg = b.sg) (r : Row) (hr : r ∈ stored) :
    segGrp (stored.map (fun x => (x.seg, x.sg))) r.seg = some r.sg := by
  unfold segGrp
  refine segGrp_go _ _ _ _ ?_ (Or.inr (List.mem_map.2 ⟨r, hr, rfl⟩))
  intro x hx he
  obtain ⟨y, hy, rfl⟩ := List.mem_map.1 hx
  exact h y hy r hr he

theorem view_ref (g : Group) (x : Seg × List Tok) (hx : x ∈ g.refs) (t : Tok) (ht : t ∈ x.2) :
    ∃ r, groupView g = some r ∧ hasTok r (dec t.id) = true := by
  have hw : x ∈ worded g.refs := List.mem_filter.2 ⟨hx, by simpa using List.ne_nil_of_mem ht⟩
  have hw' : worded (g.refs ++ g.hyps) ≠ [] := by
    refine List.ne_nil_of_mem (a := x) ?_
    unfold worded at hw ⊢
    rw [List.filter_append]
    exact List.mem_append_left _ hw
  obtain ⟨y, l, hy⟩ : ∃ y l, worded (g.refs ++ g.hyps) = y :: l := by
    cases h : worded (g.refs ++ g.hyps) with
    | nil => exact absurd h hw'
    | cons y l => exact ⟨y, l, rfl⟩
  unfold groupView
  rw [hy]
  refine ⟨_, rfl, ?_⟩
  unfold hasTok
  rw [Bool.or_eq_true]
  left
  rw [List.any_eq_true]
  refine ⟨segView (bytes "ref:") x, List.mem_map.2 ⟨x, hw, rfl⟩, ?_⟩
  rw [List.any_eq_true]
  exact ⟨tokView t, List.mem_map.2 ⟨t, ht, rfl⟩, decide_eq_true rfl⟩

theorem view_hyp (g : Group) (x : Seg × List Tok) (hx : x ∈ g.hyps) (t : Tok) (ht : t ∈ x.2) :
    ∃ r, groupView g = some r ∧ hasTok r (dec t.id) = true := by
  have hw : x ∈ worded g.hyps := List.mem_filter.2 ⟨hx, by simpa using List.ne_nil_of_mem ht⟩
  have hw' : worded (g.refs ++ g.hyps) ≠ [] := by
    refine List.ne_nil_of_mem (a := x) ?_
    unfold worded at hw ⊢
    rw [List.filter_append]
    exact List.mem_append_right _ hw
  obtain ⟨y, l, hy⟩ : ∃ y l, worded (g.refs ++ g.hyps) = y :: l := by
    cases h : worded (g.refs ++ g.hyps) with
    | nil => exact absurd h hw'
    | cons y l => exact ⟨y, l, rfl⟩
  unfold groupView
  rw [hy]
  refine ⟨_, rfl, ?_⟩
  unfold hasTok
  rw [Bool.or_eq_true]
  right
  rw [List.any_eq_true]
  refine ⟨segView (bytes "hyp:") x, List.mem_map.2 ⟨x, hw, rfl⟩, ?_⟩
  rw [List.any_eq_true]
  exact ⟨tokView t, List.mem_map.2 ⟨t, ht, rfl⟩, decide_eq_true rfl⟩

theorem find_view (gs : List Group) (hd : (gs.map Group.id).Nodup) (g : Group) (hg : g ∈ gs) (r : RGroup) (hv : groupView g = some r) :
    (gs.filterMap groupView).find? (fun x => x.id = dec g.id) = some r := by
  induction gs with
  | nil => exact absurd hg List.not_mem_nil
  | cons x gs ih =>
    have hd' := List.nodup_cons.1 hd
    rcases List.mem_cons.1 hg with rfl | hg
    · rw [List.filterMap_cons_some hv, List.find?_cons_of_pos (by rw [view_id g r hv]; exact decide_eq_true rfl)]
    · have hne : x.id ≠ g.id := fun he => hd'.1 (List.mem_map.2 ⟨g, hg, he.symm⟩)
      cases hx : groupView x with
      | none => rw [List.filterMap_cons_none hx]; exact ih hd'.2 hg
      | some y =>
        rw [List.filterMap_cons_some hx, List.find?_cons_of_neg (by
          rw [view_id x y hx]; simpa using fun he => hne (dec_inj he))]
        exact ih hd'.2 hg

/-- The fields of a line of words. -/
theorem yes_fields (sg : Nat) (e : List Nat) (he : Clean e) (r h : Option Tok) (hr : ∀ t, r = some t → CleanTok t)
    (hh : ∀ t, h = some t → CleanTok t) :
    ∃ file channel, fieldsOf (logged (yesLine sg e r h)) =
      some ([bytes "YES", dec sg, file, channel, e] ++ ((r.map tokCols).getD noCols ++ (h.map tokCols).getD noCols)) := by
  cases r with
  | none =>
    cases h with
    | none =>
      refine ⟨[], [], ?_⟩
      show fieldsOf (logged (line (bytes "YES") sg [] [] e blank blank)) = _
      rw [blank_join, line_join _ _ _ _ _ _ _ (by unfold noCols; exact List.cons_ne_nil _ _)
        (by unfold noCols; exact List.cons_ne_nil _ _)]
      refine fields_of (bytes "YES") (Or.inr (Or.inr rfl)) _ (List.cons_ne_nil _ _) ?_
      intro f hf
      rw [List.append_eq, List.mem_append, List.mem_append] at hf
      rcases hf with hf | hf | hf
      · simp only [List.mem_cons, List.not_mem_nil, or_false] at hf
        rcases hf with rfl | rfl | rfl | rfl
        · exact clean_dec _
        · exact clean_nil
        · exact clean_nil
        · exact he
      · exact noCols_clean f hf
      · exact noCols_clean f hf
    | some t => exact ⟨_, _, hypLine_fields (bytes "YES") (Or.inr (Or.inr rfl)) sg e he t (hh t rfl)⟩
  | some t =>
    cases h with
    | none => exact ⟨_, _, refLine_fields (bytes "YES") (Or.inr (Or.inr rfl)) sg e he t (hr t rfl)⟩
    | some u => exact ⟨_, _, bothLine_fields (bytes "YES") (Or.inr (Or.inr rfl)) sg e he t u (hr t rfl) (hh u rfl)⟩

/-- A pair whose words are known in its group is read. -/
theorem yes_read (st : St) (sg : Nat) (e : List Nat) (he : Clean e) (r h : Option Tok) (hr : ∀ t, r = some t → CleanTok t)
    (hh : ∀ t, h = some t → CleanTok t) :
    readLine st (logged (yesLine sg e r h)) =
      (if (∀ t, r = some t → (st.groups.find? (fun g => g.id = dec sg)).any (fun g => hasTok g (dec t.id)) = true) ∧
          (∀ t, h = some t → (st.groups.find? (fun g => g.id = dec sg)).any (fun g => hasTok g (dec t.id)) = true)
       then some { st with pairs := st.pairs ++ [(dec sg, e, (r.map (fun t => dec t.id)).getD [],
          (h.map (fun t => dec t.id)).getD [])] }
       else none) := by
  obtain ⟨file, channel, hf⟩ := yes_fields sg e he r h hr hh
  unfold readLine
  rw [hf]
  dsimp only
  have e0 : ([bytes "YES", dec sg, file, channel, e] ++ ((r.map tokCols).getD noCols ++ (h.map tokCols).getD noCols)).getD 0 [] =
    bytes "YES" := rfl
  have e1 : ([bytes "YES", dec sg, file, channel, e] ++ ((r.map tokCols).getD noCols ++ (h.map tokCols).getD noCols)).getD 1 [] =
    dec sg := rfl
  have e4 : ([bytes "YES", dec sg, file, channel, e] ++ ((r.map tokCols).getD noCols ++ (h.map tokCols).getD noCols)).getD 4 [] =
    e := rfl
  have e9 : ([bytes "YES", dec sg, file, channel, e] ++ ((r.map tokCols).getD noCols ++ (h.map tokCols).getD noCols)).getD 9 [] =
    (r.map (fun t => dec t.id)).getD [] := by cases r <;> rfl
  have e20 : ([bytes "YES", dec sg, file, channel, e] ++ ((r.map tokCols).getD noCols ++ (h.map tokCols).getD noCols)).getD 20 [] =
    (h.map (fun t => dec t.id)).getD [] := by cases r <;> cases h <;> rfl
  rw [e0, if_neg (by decide), if_pos rfl]
  unfold addYes
  dsimp only
  rw [e1, e4, e9, e20]
  have k : ∀ (o : Option Tok) (P : List Nat → Prop),
      (((o.map (fun t => dec t.id)).getD [] = [] ∨ P ((o.map (fun t => dec t.id)).getD [])) ↔ ∀ t, o = some t → P (dec t.id)) := by
    intro o P
    cases o with
    | none => exact ⟨fun _ _ he => absurd he (by simp), fun _ => Or.inl rfl⟩
    | some t =>
      exact ⟨fun hp u hu => by cases hu; exact hp.resolve_left (dec_spec t.id).1, fun hp => Or.inr (hp t rfl)⟩
  simp only [k r (fun id => (st.groups.find? (fun g => g.id = dec sg)).any (fun g => hasTok g id) = true),
    k h (fun id => (st.groups.find? (fun g => g.id = dec sg)).any (fun g => hasTok g id) = true)]

theorem rows_read (gs : List Group) (h : ∀ g ∈ gs, GoodGroup g) (hd : (gs.map Group.id).Nodup) (stored : List Row)
    (hst : ∀ a ∈ stored, ∀ b ∈ stored, a.seg = b.seg → a.sg = b.sg) (rows : List Row) (hsub : ∀ r ∈ rows, r ∈ stored)
    (hrow : ∀ r ∈ rows, GoodRow gs r) (ps : List (List Nat × List Nat × List Nat × List Nat)) :
    load ⟨gs.filterMap groupView, ps⟩ ((yesLines (stored.map (fun x => (x.seg, x.sg))) rows).map logged) =
      some ⟨gs.filterMap groupView, ps ++ rows.map pairView⟩ := by
  induction rows generalizing ps with
  | nil => show some (St.mk _ ps) = _; rw [List.map_nil, List.append_nil]
  | cons r rows ih =>
    show (readLine _ (logged (yesLine ((segGrp (stored.map (fun x => (x.seg, x.sg))) r.seg).getD 0) r.eval r.ref r.hyp))).bind _ = _
    rw [segGrp_of stored hst r (hsub r List.mem_cons_self)]
    obtain ⟨he, g, hg, hid, hrw, hhw⟩ := hrow r List.mem_cons_self
    have hcr : ∀ t, r.ref = some t → CleanTok t := by
      intro t ht
      obtain ⟨x, hx, hm⟩ := hrw t ht
      exact (((h g hg).1 x hx).2.1 t hm).2
    have hch : ∀ t, r.hyp = some t → CleanTok t := by
      intro t ht
      obtain ⟨x, hx, hm⟩ := hhw t ht
      exact (((h g hg).2.1 x hx).2.1 t hm).2
    rw [Option.getD_some, yes_read _ r.sg r.eval he r.ref r.hyp hcr hch, if_pos, Option.bind_some]
    · refine (ih (fun u hu => hsub u (List.mem_cons_of_mem _ hu)) (fun u hu => hrow u (List.mem_cons_of_mem _ hu)) _).trans ?_
      rw [List.append_assoc]
      rfl
    · refine ⟨?_, ?_⟩
      · intro t ht
        obtain ⟨x, hx, hm⟩ := hrw t ht
        obtain ⟨v, hv, hv'⟩ := view_ref g x hx t hm
        show ((gs.filterMap groupView).find? (fun x => x.id = dec r.sg)).any _ = true
        rw [← hid, find_view gs hd g hg v hv]
        exact hv'
      · intro t ht
        obtain ⟨x, hx, hm⟩ := hhw t ht
        obtain ⟨v, hv, hv'⟩ := view_hyp g x hx t hm
        show ((gs.filterMap groupView).find? (fun x => x.id = dec r.sg)).any _ = true
        rw [← hid, find_view gs hd g hg v hv]
        exact hv'

/-! ## Time spans -/

theorem minTime_go (l : List Seg) (a : Int) :
    (l.foldl (fun m s => if s.start < m then s.start else m) a ≤ a ∧
      ∀ s ∈ l, l.foldl (fun m s => if s.start < m then s.start else m) a ≤ s.start) ∧
    (l.foldl (fun m s => if s.start < m then s.start else m) a = a ∨
      ∃ s ∈ l, l.foldl (fun m s => if s.start < m then s.start else m) a = s.start) := by
  induction l generalizing a with
  | nil => exact ⟨⟨Int.le_refl _, fun s hs => absurd hs List.not_mem_nil⟩, Or.inl rfl⟩
  | cons x l ih =>
    rw [List.foldl_cons]
    obtain ⟨⟨h1, h2⟩, h3⟩ := ih (if x.start < a then x.start else a)
    have hle : (if x.start < a then x.start else a) ≤ a ∧ (if x.start < a then x.start else a) ≤ x.start := by
      split <;> omega
    refine ⟨⟨Int.le_trans h1 hle.1, fun s hs => ?_⟩, ?_⟩
    · rcases List.mem_cons.1 hs with rfl | hs
      · exact Int.le_trans h1 hle.2
      · exact h2 s hs
    · rcases h3 with h3 | ⟨s, hs, h3⟩
      · by_cases hx : x.start < a
        · right; refine ⟨x, List.mem_cons_self, ?_⟩; rw [h3, if_pos hx]
        · left; rw [h3, if_neg hx]
      · exact Or.inr ⟨s, List.mem_cons_of_mem _ hs, h3⟩

theorem maxTime_go (l : List Seg) (a : Int) :
    (a ≤ l.foldl (fun m s => if s.stop > m then s.stop else m) a ∧
      ∀ s ∈ l, s.stop ≤ l.foldl (fun m s => if s.stop > m then s.stop else m) a) ∧
    (l.foldl (fun m s => if s.stop > m then s.stop else m) a = a ∨
      ∃ s ∈ l, l.foldl (fun m s => if s.stop > m then s.stop else m) a = s.stop) := by
  induction l generalizing a with
  | nil => exact ⟨⟨Int.le_refl _, fun s hs => absurd hs List.not_mem_nil⟩, Or.inl rfl⟩
  | cons x l ih =>
    rw [List.foldl_cons]
    obtain ⟨⟨h1, h2⟩, h3⟩ := ih (if x.stop > a then x.stop else a)
    have hle : a ≤ (if x.stop > a then x.stop else a) ∧ x.stop ≤ (if x.stop > a then x.stop else a) := by
      split <;> omega
    refine ⟨⟨Int.le_trans hle.1 h1, fun s hs => ?_⟩, ?_⟩
    · rcases List.mem_cons.1 hs with rfl | hs
      · exact Int.le_trans hle.2 h1
      · exact h2 s hs
    · rcases h3 with h3 | ⟨s, hs, h3⟩
      · by_cases hx : x.stop > a
        · right; refine ⟨x, List.mem_cons_self, ?_⟩; rw [h3, if_pos hx]
        · left; rw [h3, if_neg hx]
      · exact Or.inr ⟨s, List.mem_cons_of_mem _ hs, h3⟩

end Verif.AlignLog
