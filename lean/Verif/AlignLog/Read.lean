import Verif.AlignLog.Lemmas
/-!
# Lemmas: the lines of a group as they are read
-/
set_option autoImplicit false
namespace Verif.AlignLog
open Verif.AscSgml (dec secs numOf dec_spec)

theorem refLine_fields (type : List Nat) (ht : IsType type) (sg : Nat) (e : List Nat) (he : Clean e) (t : Tok) (h : CleanTok t) :
    fieldsOf (logged (line type sg t.seg.file t.seg.channel e (csv t) blank)) =
      some ([type, dec sg, t.seg.file, t.seg.channel, e] ++ (tokCols t ++ noCols)) := by
  rw [csv_join, blank_join, line_join _ _ _ _ _ _ _ (by unfold tokCols; exact List.cons_ne_nil _ _)
    (by unfold noCols; exact List.cons_ne_nil _ _)]
  refine fields_of type ht _ (List.cons_ne_nil _ _) ?_
  intro f hf
  rw [List.append_eq, List.mem_append, List.mem_append] at hf
  rcases hf with hf | hf | hf
  · simp only [List.mem_cons, List.not_mem_nil, or_false] at hf
    rcases hf with rfl | rfl | rfl | rfl
    · exact clean_dec _
    · exact h.2.2.2.1
    · exact h.2.2.2.2
    · exact he
  · exact tokCols_clean t h f hf
  · exact noCols_clean f hf

theorem hypLine_fields (type : List Nat) (ht : IsType type) (sg : Nat) (e : List Nat) (he : Clean e) (t : Tok) (h : CleanTok t) :
    fieldsOf (logged (line type sg t.seg.file t.seg.channel e blank (csv t))) =
      some ([type, dec sg, t.seg.file, t.seg.channel, e] ++ (noCols ++ tokCols t)) := by
  rw [csv_join, blank_join, line_join _ _ _ _ _ _ _ (by unfold noCols; exact List.cons_ne_nil _ _)
    (by unfold tokCols; exact List.cons_ne_nil _ _)]
  refine fields_of type ht _ (List.cons_ne_nil _ _) ?_
  intro f hf
  rw [List.append_eq, List.mem_append, List.mem_append] at hf
  rcases hf with hf | hf | hf
  · simp only [List.mem_cons, List.not_mem_nil, or_false] at hf
    rcases hf with rfl | rfl | rfl | rfl
    · exact clean_dec _
    · exact h.2.2.2.1
    · exact h.2.2.2.2
    · exact he
  · exact noCols_clean f hf
  · exact tokCols_clean t h f hf

theorem bothLine_fields (type : List Nat) (ht : IsType type) (sg : Nat) (e : List Nat) (he : Clean e) (r t : Tok) (hr : CleanTok r)
    (h : CleanTok t) :
    fieldsOf (logged (line type sg r.seg.file r.seg.channel e (csv r) (csv t))) =
      some ([type, dec sg, r.seg.file, r.seg.channel, e] ++ (tokCols r ++ tokCols t)) := by
  rw [csv_join, csv_join, line_join _ _ _ _ _ _ _ (by unfold tokCols; exact List.cons_ne_nil _ _)
    (by unfold tokCols; exact List.cons_ne_nil _ _)]
  refine fields_of type ht _ (List.cons_ne_nil _ _) ?_
  intro f hf
  rw [List.append_eq, List.mem_append, List.mem_append] at hf
  rcases hf with hf | hf | hf
  · simp only [List.mem_cons, List.not_mem_nil, or_false] at hf
    rcases hf with rfl | rfl | rfl | rfl
    · exact clean_dec _
    · exact hr.2.2.2.1
    · exact hr.2.2.2.2
    · exact he
  · exact tokCols_clean r hr f hf
  · exact tokCols_clean t h f hf

theorem refSeg_fields (type : List Nat) (ht : IsType type) (sg : Nat) (s : Seg) (h : CleanSeg s) :
    fieldsOf (logged (line type sg s.file s.channel [] (csvSeg s) blank)) =
      some ([type, dec sg, s.file, s.channel, []] ++ (segCols s ++ noCols)) := by
  rw [csvSeg_join, blank_join, line_join _ _ _ _ _ _ _ (by unfold segCols; exact List.cons_ne_nil _ _)
    (by unfold noCols; exact List.cons_ne_nil _ _)]
  refine fields_of type ht _ (List.cons_ne_nil _ _) ?_
  intro f hf
  rw [List.append_eq, List.mem_append, List.mem_append] at hf
  rcases hf with hf | hf | hf
  · simp only [List.mem_cons, List.not_mem_nil, or_false] at hf
    rcases hf with rfl | rfl | rfl | rfl
    · exact clean_dec _
    · exact h.2.1
    · exact h.2.2
    · exact clean_nil
  · exact segCols_clean s h f hf
  · exact noCols_clean f hf

theorem hypSeg_fields (type : List Nat) (ht : IsType type) (sg : Nat) (s : Seg) (h : CleanSeg s) :
    fieldsOf (logged (line type sg s.file s.channel [] blank (csvSeg s))) =
      some ([type, dec sg, s.file, s.channel, []] ++ (noCols ++ segCols s)) := by
  rw [csvSeg_join, blank_join, line_join _ _ _ _ _ _ _ (by unfold noCols; exact List.cons_ne_nil _ _)
    (by unfold segCols; exact List.cons_ne_nil _ _)]
  refine fields_of type ht _ (List.cons_ne_nil _ _) ?_
  intro f hf
  rw [List.append_eq, List.mem_append, List.mem_append] at hf
  rcases hf with hf | hf | hf
  · simp only [List.mem_cons, List.not_mem_nil, or_false] at hf
    rcases hf with rfl | rfl | rfl | rfl
    · exact clean_dec _
    · exact h.2.1
    · exact h.2.2
    · exact clean_nil
  · exact noCols_clean f hf
  · exact segCols_clean s h f hf

/-! ## The lines one by one -/

/-- The group with a further word of the reference. -/
def putRef (t : Tok) (g : RGroup) : RGroup :=
  { g with ref := addSeg (dec t.seg.id) (bytes "ref:" ++ t.seg.speaker) (tokView t) g.ref }

/-- The group with a further word of the system. -/
def putHyp (t : Tok) (g : RGroup) : RGroup :=
  { g with sys := addSeg (dec t.seg.id) (bytes "hyp:" ++ t.seg.speaker) (tokView t) g.sys }

/-- The state with a further word. -/
def put (sg : Nat) (f : Tok → RGroup → RGroup) (t : Tok) (st : St) : St :=
  { st with groups := upsert (fun g => g.id = dec sg) ⟨dec sg, t.seg.file, t.seg.channel, [], []⟩ (f t) st.groups }

theorem read_ref (st : St) (sg : Nat) (t : Tok) (h : CleanTok t) :
    readLine st (logged (line (bytes "SG") sg t.seg.file t.seg.channel [] (csv t) blank)) = some (put sg putRef t st) := by
  have hf := refLine_fields (bytes "SG") (Or.inl rfl) sg [] clean_nil t h
  unfold readLine
  rw [hf]
  have e0 : ([bytes "SG", dec sg, t.seg.file, t.seg.channel, []] ++ (tokCols t ++ noCols)).getD 0 [] = bytes "SG" := rfl
  dsimp only
  rw [if_pos e0]
  have hs : ¬ ((([bytes "SG", dec sg, t.seg.file, t.seg.channel, []] ++ (tokCols t ++ noCols)).getD 16 [] : List Nat) ≠ [] ∧
      (([bytes "SG", dec sg, t.seg.file, t.seg.channel, []] ++ (tokCols t ++ noCols)).getD 20 [] : List Nat) ≠ []) :=
    fun hh => hh.1 rfl
  have hr : (([bytes "SG", dec sg, t.seg.file, t.seg.channel, []] ++ (tokCols t ++ noCols)).getD 5 [] : List Nat) ≠ [] ∧
      (([bytes "SG", dec sg, t.seg.file, t.seg.channel, []] ++ (tokCols t ++ noCols)).getD 9 [] : List Nat) ≠ [] :=
    ⟨(dec_spec t.seg.id).1, (dec_spec t.id).1⟩
  unfold addSG
  dsimp only
  rw [if_neg hs, if_pos hr]
  rfl

theorem read_hyp (st : St) (sg : Nat) (t : Tok) (h : CleanTok t) :
    readLine st (logged (line (bytes "SG") sg t.seg.file t.seg.channel [] blank (csv t))) = some (put sg putHyp t st) := by
  have hf := hypLine_fields (bytes "SG") (Or.inl rfl) sg [] clean_nil t h
  unfold readLine
  rw [hf]
  have e0 : ([bytes "SG", dec sg, t.seg.file, t.seg.channel, []] ++ (noCols ++ tokCols t)).getD 0 [] = bytes "SG" := rfl
  dsimp only
  rw [if_pos e0]
  have hs : (([bytes "SG", dec sg, t.seg.file, t.seg.channel, []] ++ (noCols ++ tokCols t)).getD 16 [] : List Nat) ≠ [] ∧
      (([bytes "SG", dec sg, t.seg.file, t.seg.channel, []] ++ (noCols ++ tokCols t)).getD 20 [] : List Nat) ≠ [] :=
    ⟨(dec_spec t.seg.id).1, (dec_spec t.id).1⟩
  unfold addSG
  dsimp only
  rw [if_pos hs]
  rfl

theorem read_refSeg (st : St) (sg : Nat) (s : Seg) (h : CleanSeg s) :
    readLine st (logged (line (bytes "SG") sg s.file s.channel [] (csvSeg s) blank)) = some st := by
  have hf := refSeg_fields (bytes "SG") (Or.inl rfl) sg s h
  unfold readLine
  rw [hf]
  have e0 : ([bytes "SG", dec sg, s.file, s.channel, []] ++ (segCols s ++ noCols)).getD 0 [] = bytes "SG" := rfl
  dsimp only
  rw [if_pos e0]
  unfold addSG
  dsimp only
  rw [if_neg (fun hh => hh.2 rfl), if_neg (fun hh => hh.2 rfl)]

theorem read_hypSeg (st : St) (sg : Nat) (s : Seg) (h : CleanSeg s) :
    readLine st (logged (line (bytes "SG") sg s.file s.channel [] blank (csvSeg s))) = some st := by
  have hf := hypSeg_fields (bytes "SG") (Or.inl rfl) sg s h
  unfold readLine
  rw [hf]
  have e0 : ([bytes "SG", dec sg, s.file, s.channel, []] ++ (noCols ++ segCols s)).getD 0 [] = bytes "SG" := rfl
  dsimp only
  rw [if_pos e0]
  unfold addSG
  dsimp only
  rw [if_neg (fun hh => hh.2 rfl), if_neg (fun hh => hh.2 rfl)]

theorem load_append (a b : List (List Nat)) (st : St) : load st (a ++ b) = (load st a).bind (fun s => load s b) := by
  induction a generalizing st with
  | nil => rfl
  | cons l a ih =>
    show (readLine st l).bind (fun s => load s (a ++ b)) = ((readLine st l).bind (fun s => load s a)).bind _
    cases readLine st l with
    | none => rfl
    | some s => exact ih s

/-- Words put one after the other. -/
def putAll (sg : Nat) (f : Tok → RGroup → RGroup) (ts : List Tok) (st : St) : St := ts.foldl (fun s t => put sg f t s) st

theorem load_ref_toks (sg : Nat) (ts : List Tok) (h : ∀ t ∈ ts, CleanTok t) (st : St) :
    load st ((ts.map (fun t => line (bytes "SG") sg t.seg.file t.seg.channel [] (csv t) blank)).map logged) =
      some (putAll sg putRef ts st) := by
  induction ts generalizing st with
  | nil => rfl
  | cons t ts ih =>
    show (readLine st _).bind _ = _
    rw [read_ref st sg t (h t List.mem_cons_self)]
    exact ih (fun u hu => h u (List.mem_cons_of_mem _ hu)) _

theorem load_hyp_toks (sg : Nat) (ts : List Tok) (h : ∀ t ∈ ts, CleanTok t) (st : St) :
    load st ((ts.map (fun t => line (bytes "SG") sg t.seg.file t.seg.channel [] blank (csv t))).map logged) =
      some (putAll sg putHyp ts st) := by
  induction ts generalizing st with
  | nil => rfl
  | cons t ts ih =>
    show (readLine st _).bind _ = _
    rw [read_hyp st sg t (h t List.mem_cons_self)]
    exact ih (fun u hu => h u (List.mem_cons_of_mem _ hu)) _

theorem load_refSeg (sg : Nat) (x : Seg × List Tok) (h : GoodSeg x) (st : St) :
    load st ((refLines false (bytes "SG") sg x).map logged) = some (putAll sg putRef x.2 st) := by
  unfold refLines
  by_cases he : x.2 = []
  · dsimp only
    rw [if_pos he, he]
    show (readLine st _).bind _ = _
    rw [if_neg Bool.false_ne_true, read_refSeg st sg x.1 h.1]
    rfl
  · dsimp only
    rw [if_neg he, if_neg Bool.false_ne_true]
    exact load_ref_toks sg x.2 (fun t ht => (h.2.1 t ht).2) st

theorem load_hypSeg (sg : Nat) (x : Seg × List Tok) (h : GoodSeg x) (st : St) :
    load st ((hypLines (bytes "SG") sg x).map logged) = some (putAll sg putHyp x.2 st) := by
  unfold hypLines
  by_cases he : x.2 = []
  · rw [if_pos he, he]
    show (readLine st _).bind _ = _
    rw [read_hypSeg st sg x.1 h.1]
    rfl
  · rw [if_neg he]
    exact load_hyp_toks sg x.2 (fun t ht => (h.2.1 t ht).2) st

theorem load_refs (sg : Nat) (xs : List (Seg × List Tok)) (h : ∀ x ∈ xs, GoodSeg x) (st : St) :
    load st ((xs.flatMap (refLines false (bytes "SG") sg)).map logged) =
      some (xs.foldl (fun s x => putAll sg putRef x.2 s) st) := by
  induction xs generalizing st with
  | nil => rfl
  | cons x xs ih =>
    rw [List.flatMap_cons, List.map_append, load_append, load_refSeg sg x (h x List.mem_cons_self)]
    exact ih (fun u hu => h u (List.mem_cons_of_mem _ hu)) _

theorem load_hyps (sg : Nat) (xs : List (Seg × List Tok)) (h : ∀ x ∈ xs, GoodSeg x) (st : St) :
    load st ((xs.flatMap (hypLines (bytes "SG") sg)).map logged) =
      some (xs.foldl (fun s x => putAll sg putHyp x.2 s) st) := by
  induction xs generalizing st with
  | nil => rfl
  | cons x xs ih =>
    rw [List.flatMap_cons, List.map_append, load_append, load_hypSeg sg x (h x List.mem_cons_self)]
    exact ih (fun u hu => h u (List.mem_cons_of_mem _ hu)) _

/-! ## What is put -/

/-- The words of a segment, put into a list of segments that does not know it. -/
theorem addSeg_all (id spk : List Nat) (ts : List RTok) (hne : ts ≠ []) (hd : (ts.map RTok.id).Nodup) (l : List RSeg)
    (hl : ∀ s ∈ l, s.id ≠ id) : ts.foldl (fun l t => addSeg id spk t l) l = l ++ [⟨id, spk, ts⟩] := by
  have key : ∀ (us done : List RTok), ((done ++ us).map RTok.id).Nodup →
      us.foldl (fun l t => addSeg id spk t l) (l ++ [⟨id, spk, done⟩]) = l ++ [⟨id, spk, done ++ us⟩] := by
    intro us
    induction us with
    | nil => intro done _; rw [List.append_nil]; rfl
    | cons t us ih =>
      intro done hn
      have hq : addSeg id spk t (l ++ [⟨id, spk, done⟩]) = l ++ [⟨id, spk, done ++ [t]⟩] := by
        unfold addSeg
        rw [upsert_last _ _ _ _ _ (fun y hy => decide_eq_false (hl y hy)) (decide_eq_true rfl)]
        unfold addTok
        dsimp only
        rw [upsert_new _ _ _ _ (fun u hu => decide_eq_false (fun he => ?_))]
        rw [List.map_append, List.nodup_append] at hn
        exact hn.2.2 u.id (List.mem_map.2 ⟨u, hu, rfl⟩) t.id (List.mem_map.2 ⟨t, List.mem_cons_self, rfl⟩) he
      rw [List.foldl_cons, hq, ih (done ++ [t]) (by rw [List.append_assoc]; exact hn), List.append_assoc]
      rfl
  cases ts with
  | nil => exact absurd rfl hne
  | cons t ts =>
    have hq : addSeg id spk t l = l ++ [⟨id, spk, [t]⟩] := by
      unfold addSeg
      rw [upsert_new _ _ _ _ (fun y hy => decide_eq_false (hl y hy))]
      rfl
    rw [List.foldl_cons, hq, key ts [t] hd]
    rfl

/-- Words put into the group that is being read. -/
theorem putAll_last (sg : Nat) (f : Tok → RGroup → RGroup) (hid : ∀ t g, (f t g).id = g.id) (ts : List Tok)
    (done : List RGroup) (hdone : ∀ g ∈ done, g.id ≠ dec sg) (cur : RGroup) (hc : cur.id = dec sg)
    (ps : List (List Nat × List Nat × List Nat × List Nat)) :
    putAll sg f ts ⟨done ++ [cur], ps⟩ = ⟨done ++ [ts.foldl (fun g t => f t g) cur], ps⟩ := by
  induction ts generalizing cur with
  | nil => rfl
  | cons t ts ih =>
    show putAll sg f ts (put sg f t ⟨done ++ [cur], ps⟩) = _
    have : put sg f t ⟨done ++ [cur], ps⟩ = ⟨done ++ [f t cur], ps⟩ := by
      unfold put
      dsimp only
      rw [upsert_last _ _ _ _ _ (fun g hg => decide_eq_false (hdone g hg)) (decide_eq_true hc)]
    rw [this, ih _ (by rw [hid, hc])]
    rfl

/-- Words put when the group may be new. -/
theorem putAll_opt (sg : Nat) (f : Tok → RGroup → RGroup) (hid : ∀ t g, (f t g).id = g.id) (t : Tok) (ts : List Tok)
    (done : List RGroup) (hdone : ∀ g ∈ done, g.id ≠ dec sg) (cur : Option RGroup) (hc : ∀ g, cur = some g → g.id = dec sg)
    (ps : List (List Nat × List Nat × List Nat × List Nat)) :
    putAll sg f (t :: ts) ⟨done ++ cur.toList, ps⟩ =
      ⟨done ++ [(t :: ts).foldl (fun g t => f t g) (cur.getD ⟨dec sg, t.seg.file, t.seg.channel, [], []⟩)], ps⟩ := by
  cases cur with
  | none =>
    show putAll sg f ts (put sg f t ⟨done ++ [], ps⟩) = _
    rw [List.append_nil]
    have : put sg f t ⟨done, ps⟩ = ⟨done ++ [f t ⟨dec sg, t.seg.file, t.seg.channel, [], []⟩], ps⟩ := by
      unfold put
      dsimp only
      rw [upsert_new _ _ _ _ (fun g hg => decide_eq_false (hdone g hg))]
    rw [this, putAll_last sg f hid ts done hdone _ (by rw [hid])]
    rfl
  | some g =>
    exact putAll_last sg f hid (t :: ts) done hdone g (hc g rfl) ps

theorem foldl_putRef (ts : List Tok) (g : RGroup) (id spk : List Nat) (h : ∀ t ∈ ts, dec t.seg.id = id ∧ bytes "ref:" ++ t.seg.speaker = spk) :
    ts.foldl (fun g t => putRef t g) g = { g with ref := (ts.map tokView).foldl (fun l t => addSeg id spk t l) g.ref } := by
  induction ts generalizing g with
  | nil => rfl
  | cons t ts ih =>
    rw [List.foldl_cons, ih _ (fun u hu => h u (List.mem_cons_of_mem _ hu)), List.map_cons, List.foldl_cons]
    unfold putRef
    rw [(h t List.mem_cons_self).1, (h t List.mem_cons_self).2]

theorem foldl_putHyp (ts : List Tok) (g : RGroup) (id spk : List Nat) (h : ∀ t ∈ ts, dec t.seg.id = id ∧ bytes "hyp:" ++ t.seg.speaker = spk) :
    ts.foldl (fun g t => putHyp t g) g = { g with sys := (ts.map tokView).foldl (fun l t => addSeg id spk t l) g.sys } := by
  induction ts generalizing g with
  | nil => rfl
  | cons t ts ih =>
    rw [List.foldl_cons, ih _ (fun u hu => h u (List.mem_cons_of_mem _ hu)), List.map_cons, List.foldl_cons]
    unfold putHyp
    rw [(h t List.mem_cons_self).1, (h t List.mem_cons_self).2]

theorem views_nodup (ts : List Tok) (h : (ts.map Tok.id).Nodup) : ((ts.map tokView).map RTok.id).Nodup := by
  rw [List.map_map]
  have : (RTok.id ∘ tokView) = fun t : Tok => dec t.id := rfl
  rw [this]
  unfold List.Nodup at h ⊢
  rw [List.pairwise_map] at h ⊢
  exact h.imp (fun hne he => hne (dec_inj he))

/-- The group after a segment of the reference. -/
def stepRef (sg : Nat) (c : Option RGroup) (x : Seg × List Tok) : Option RGroup :=
  if x.2 = [] then c
  else
    let g := c.getD ⟨dec sg, x.1.file, x.1.channel, [], []⟩
    some { g with ref := g.ref ++ [segView (bytes "ref:") x] }

/-- The group after a segment of the system. -/
def stepHyp (sg : Nat) (c : Option RGroup) (x : Seg × List Tok) : Option RGroup :=
  if x.2 = [] then c
  else
    let g := c.getD ⟨dec sg, x.1.file, x.1.channel, [], []⟩
    some { g with sys := g.sys ++ [segView (bytes "hyp:") x] }

theorem putAll_refSeg (sg : Nat) (x : Seg × List Tok) (hx : GoodSeg x) (done : List RGroup)
    (hdone : ∀ g ∈ done, g.id ≠ dec sg) (cur : Option RGroup)
    (hc : ∀ g, cur = some g → g.id = dec sg ∧ ∀ s ∈ g.ref, s.id ≠ dec x.1.id)
    (ps : List (List Nat × List Nat × List Nat × List Nat)) :
    putAll sg putRef x.2 ⟨done ++ cur.toList, ps⟩ = ⟨done ++ (stepRef sg cur x).toList, ps⟩ := by
  unfold stepRef
  by_cases he : x.2 = []
  · rw [if_pos he, he]; rfl
  · rw [if_neg he]
    obtain ⟨t, ts, hts⟩ : ∃ t ts, x.2 = t :: ts := by
      cases h : x.2 with
      | nil => exact absurd h he
      | cons t ts => exact ⟨t, ts, rfl⟩
    have ht : t.seg = x.1 := (hx.2.1 t (by rw [hts]; exact List.mem_cons_self)).1
    rw [hts, putAll_opt sg putRef (fun _ _ => rfl) t ts done hdone cur (fun g hg => (hc g hg).1) ps, ht, ← hts,
      foldl_putRef x.2 _ (dec x.1.id) (bytes "ref:" ++ x.1.speaker)
        (fun u hu => by rw [(hx.2.1 u hu).1]; exact ⟨rfl, rfl⟩),
      addSeg_all _ _ _ (by rw [hts]; exact List.cons_ne_nil _ _) (views_nodup _ hx.2.2)]
    · rfl
    · cases cur with
      | none => exact fun s hs => absurd hs List.not_mem_nil
      | some g => exact (hc g rfl).2

theorem putAll_hypSeg (sg : Nat) (x : Seg × List Tok) (hx : GoodSeg x) (done : List RGroup)
    (hdone : ∀ g ∈ done, g.id ≠ dec sg) (cur : Option RGroup)
    (hc : ∀ g, cur = some g → g.id = dec sg ∧ ∀ s ∈ g.sys, s.id ≠ dec x.1.id)
    (ps : List (List Nat × List Nat × List Nat × List Nat)) :
    putAll sg putHyp x.2 ⟨done ++ cur.toList, ps⟩ = ⟨done ++ (stepHyp sg cur x).toList, ps⟩ := by
  unfold stepHyp
  by_cases he : x.2 = []
  · rw [if_pos he, he]; rfl
  · rw [if_neg he]
    obtain ⟨t, ts, hts⟩ : ∃ t ts, x.2 = t :: ts := by
      cases h : x.2 with
      | nil => exact absurd h he
      | cons t ts => exact ⟨t, ts, rfl⟩
    have ht : t.seg = x.1 := (hx.2.1 t (by rw [hts]; exact List.mem_cons_self)).1
    rw [hts, putAll_opt sg putHyp (fun _ _ => rfl) t ts done hdone cur (fun g hg => (hc g hg).1) ps, ht, ← hts,
      foldl_putHyp x.2 _ (dec x.1.id) (bytes "hyp:" ++ x.1.speaker)
        (fun u hu => by rw [(hx.2.1 u hu).1]; exact ⟨rfl, rfl⟩),
      addSeg_all _ _ _ (by rw [hts]; exact List.cons_ne_nil _ _) (views_nodup _ hx.2.2)]
    · rfl
    · cases cur with
      | none => exact fun s hs => absurd hs List.not_mem_nil
      | some g => exact (hc g rfl).2

/-- The reference side of a group. -/
theorem refs_read (sg : Nat) (xs : List (Seg × List Tok)) (hx : ∀ x ∈ xs, GoodSeg x) (hd : (xs.map (·.1.id)).Nodup)
    (done : List RGroup) (hdone : ∀ g ∈ done, g.id ≠ dec sg) (cur : Option RGroup)
    (hc : ∀ g, cur = some g → g.id = dec sg ∧ ∀ s ∈ g.ref, ∀ x ∈ xs, s.id ≠ dec x.1.id)
    (ps : List (List Nat × List Nat × List Nat × List Nat)) :
    xs.foldl (fun s x => putAll sg putRef x.2 s) ⟨done ++ cur.toList, ps⟩ =
      ⟨done ++ (xs.foldl (stepRef sg) cur).toList, ps⟩ := by
  induction xs generalizing cur with
  | nil => rfl
  | cons x xs ih =>
    have hd' := List.nodup_cons.1 hd
    rw [List.foldl_cons, putAll_refSeg sg x (hx x List.mem_cons_self) done hdone cur
      (fun g hg => ⟨(hc g hg).1, fun s hs => (hc g hg).2 s hs x List.mem_cons_self⟩) ps]
    refine ih (fun u hu => hx u (List.mem_cons_of_mem _ hu)) hd'.2 _ ?_
    intro g hg
    unfold stepRef at hg
    split at hg
    · exact ⟨(hc g hg).1, fun s hs u hu => (hc g hg).2 s hs u (List.mem_cons_of_mem _ hu)⟩
    · dsimp only at hg
      cases hg
      refine ⟨?_, ?_⟩
      · cases cur with
        | none => rfl
        | some g0 => exact (hc g0 rfl).1
      · intro s hs u hu
        rcases List.mem_append.1 hs with hs | hs
        · cases cur with
          | none => exact absurd hs List.not_mem_nil
          | some g0 => exact (hc g0 rfl).2 s hs u (List.mem_cons_of_mem _ hu)
        · rcases List.mem_singleton.1 hs with rfl
          intro he
          exact hd'.1 (List.mem_map.2 ⟨u, hu, (dec_inj he).symm⟩)

/-- The system side of a group. -/
theorem hyps_read (sg : Nat) (xs : List (Seg × List Tok)) (hx : ∀ x ∈ xs, GoodSeg x) (hd : (xs.map (·.1.id)).Nodup)
    (done : List RGroup) (hdone : ∀ g ∈ done, g.id ≠ dec sg) (cur : Option RGroup)
    (hc : ∀ g, cur = some g → g.id = dec sg ∧ ∀ s ∈ g.sys, ∀ x ∈ xs, s.id ≠ dec x.1.id)
    (ps : List (List Nat × List Nat × List Nat × List Nat)) :
    xs.foldl (fun s x => putAll sg putHyp x.2 s) ⟨done ++ cur.toList, ps⟩ =
      ⟨done ++ (xs.foldl (stepHyp sg) cur).toList, ps⟩ := by
  induction xs generalizing cur with
  | nil => rfl
  | cons x xs ih =>
    have hd' := List.nodup_cons.1 hd
    rw [List.foldl_cons, putAll_hypSeg sg x (hx x List.mem_cons_self) done hdone cur
      (fun g hg => ⟨(hc g hg).1, fun s hs => (hc g hg).2 s hs x List.mem_cons_self⟩) ps]
    refine ih (fun u hu => hx u (List.mem_cons_of_mem _ hu)) hd'.2 _ ?_
    intro g hg
    unfold stepHyp at hg
    split at hg
    · exact ⟨(hc g hg).1, fun s hs u hu => (hc g hg).2 s hs u (List.mem_cons_of_mem _ hu)⟩
    · dsimp only at hg
      cases hg
      refine ⟨?_, ?_⟩
      · cases cur with
        | none => rfl
        | some g0 => exact (hc g0 rfl).1
      · intro s hs u hu
        rcases List.mem_append.1 hs with hs | hs
        · cases cur with
          | none => exact absurd hs List.not_mem_nil
          | some g0 => exact (hc g0 rfl).2 s hs u (List.mem_cons_of_mem _ hu)
        · rcases List.mem_singleton.1 hs with rfl
          intro he
          exact hd'.1 (List.mem_map.2 ⟨u, hu, (dec_inj he).symm⟩)

theorem foldRef_some (sg : Nat) (xs : List (Seg × List Tok)) (g : RGroup) :
    xs.foldl (stepRef sg) (some g) = some { g with ref := g.ref ++ (worded xs).map (segView (bytes "ref:")) } := by
  induction xs generalizing g with
  | nil => show some g = _; unfold worded; rw [List.filter_nil, List.map_nil, List.append_nil]
  | cons x xs ih =>
    rw [List.foldl_cons]
    by_cases he : x.2 = []
    · have : stepRef sg (some g) x = some g := by unfold stepRef; rw [if_pos he]
      rw [this, ih g]
      unfold worded
      rw [List.filter_cons_of_neg (by simp [he])]
    · have : stepRef sg (some g) x = some { g with ref := g.ref ++ [segView (bytes "ref:") x] } := by
        unfold stepRef; rw [if_neg he]; rfl
      rw [this, ih]
      unfold worded
      rw [List.filter_cons_of_pos (by simp [he]), List.map_cons]
      dsimp only
      rw [List.append_assoc, List.singleton_append]

theorem foldHyp_some (sg : Nat) (xs : List (Seg × List Tok)) (g : RGroup) :
    xs.foldl (stepHyp sg) (some g) = some { g with sys := g.sys ++ (worded xs).map (segView (bytes "hyp:")) } := by
  induction xs generalizing g with
  | nil => show some g = _; unfold worded; rw [List.filter_nil, List.map_nil, List.append_nil]
  | cons x xs ih =>
    rw [List.foldl_cons]
    by_cases he : x.2 = []
    · have : stepHyp sg (some g) x = some g := by unfold stepHyp; rw [if_pos he]
      rw [this, ih g]
      unfold worded
      rw [List.filter_cons_of_neg (by simp [he])]
    · have : stepHyp sg (some g) x = some { g with sys := g.sys ++ [segView (bytes "hyp:") x] } := by
        unfold stepHyp; rw [if_neg he]; rfl
      rw [this, ih]
      unfold worded
      rw [List.filter_cons_of_pos (by simp [he]), List.map_cons]
      dsimp only
      rw [List.append_assoc, List.singleton_append]

theorem foldRef_none (sg : Nat) (xs : List (Seg × List Tok)) :
    xs.foldl (stepRef sg) none = (worded xs).head?.map (fun x => ⟨dec sg, x.1.file, x.1.channel,
      (worded xs).map (segView (bytes "ref:")), []⟩) := by
  induction xs with
  | nil => rfl
  | cons x xs ih =>
    rw [List.foldl_cons]
    by_cases he : x.2 = []
    · have : stepRef sg none x = none := by unfold stepRef; rw [if_pos he]
      have hw : worded (x :: xs) = worded xs := by unfold worded; rw [List.filter_cons_of_neg (by simp [he])]
      rw [this, ih, hw]
    · have : stepRef sg none x = some ⟨dec sg, x.1.file, x.1.channel, [segView (bytes "ref:") x], []⟩ := by
        unfold stepRef; rw [if_neg he]; rfl
      have hw : worded (x :: xs) = x :: worded xs := by unfold worded; rw [List.filter_cons_of_pos (by simp [he])]
      rw [this, foldRef_some, hw]
      rfl

theorem foldHyp_none (sg : Nat) (xs : List (Seg × List Tok)) :
    xs.foldl (stepHyp sg) none = (worded xs).head?.map (fun x => ⟨dec sg, x.1.file, x.1.channel, [],
      (worded xs).map (segView (bytes "hyp:"))⟩) := by
  induction xs with
  | nil => rfl
  | cons x xs ih =>
    rw [List.foldl_cons]
    by_cases he : x.2 = []
    · have : stepHyp sg none x = none := by unfold stepHyp; rw [if_pos he]
      have hw : worded (x :: xs) = worded xs := by unfold worded; rw [List.filter_cons_of_neg (by simp [he])]
      rw [this, ih, hw]
    · have : stepHyp sg none x = some ⟨dec sg, x.1.file, x.1.channel, [], [segView (bytes "hyp:") x]⟩ := by
        unfold stepHyp; rw [if_neg he]; rfl
      have hw : worded (x :: xs) = x :: worded xs := by unfold worded; rw [List.filter_cons_of_pos (by simp [he])]
      rw [this, foldHyp_some, hw]
      rfl

theorem fold_view (g : Group) : g.hyps.foldl (stepHyp g.id) (g.refs.foldl (stepRef g.id) none) = groupView g := by
  rw [foldRef_none]
  unfold groupView
  have hw : worded (g.refs ++ g.hyps) = worded g.refs ++ worded g.hyps := by unfold worded; rw [List.filter_append]
  rw [hw]
  cases hr : worded g.refs with
  | nil => rw [List.head?_nil, Option.map_none, foldHyp_none, List.nil_append, List.map_nil]
  | cons x xs =>
    rw [List.head?_cons, Option.map_some, foldHyp_some, List.cons_append, List.head?_cons, Option.map_some]
    rfl

/-- A group is read. -/
theorem group_read (g : Group) (h : GoodGroup g) (done : List RGroup) (hdone : ∀ r ∈ done, r.id ≠ dec g.id)
    (ps : List (List Nat × List Nat × List Nat × List Nat)) :
    load ⟨done, ps⟩ ((groupLines false (bytes "SG") g).map logged) = some ⟨done ++ (groupView g).toList, ps⟩ := by
  obtain ⟨h1, h2, h3, h4⟩ := h
  unfold groupLines
  rw [List.map_append, load_append, load_refs g.id g.refs h1]
  have e : (⟨done, ps⟩ : St) = ⟨done ++ (none : Option RGroup).toList, ps⟩ := by
    show _ = St.mk (done ++ []) ps; rw [List.append_nil]
  rw [e, refs_read g.id g.refs h1 h3 done hdone none (fun _ hg => absurd hg (by simp)) ps, Option.bind_some,
    load_hyps g.id g.hyps h2, hyps_read g.id g.hyps h2 h4 done hdone _ ?_ ps, fold_view]
  intro r hr
  rw [foldRef_none] at hr
  cases hw : (worded g.refs).head? with
  | none => rw [hw] at hr; exact absurd hr (by simp)
  | some x =>
    rw [hw, Option.map_some] at hr
    cases hr
    exact ⟨rfl, fun s hs => absurd hs List.not_mem_nil⟩

theorem view_id (g : Group) (r : RGroup) (h : groupView g = some r) : r.id = dec g.id := by
  unfold groupView at h
  cases hw : (worded (g.refs ++ g.hyps)).head? with
  | none => rw [hw] at h; exact absurd h (by simp)
  | some x => rw [hw, Option.map_some] at h; cases h; rfl

theorem groups_read (gs : List Group) (h : ∀ g ∈ gs, GoodGroup g) (hd : (gs.map Group.id).Nodup) (done : List RGroup)
    (hdone : ∀ r ∈ done, ∀ g ∈ gs, r.id ≠ dec g.id) (ps : List (List Nat × List Nat × List Nat × List Nat)) :
    load ⟨done, ps⟩ ((gs.flatMap (groupLines false (bytes "SG"))).map logged) = some ⟨done ++ gs.filterMap groupView, ps⟩ := by
  induction gs generalizing done with
  | nil => show some (St.mk done ps) = _; rw [List.filterMap_nil, List.append_nil]
  | cons g gs ih =>
    have hd' := List.nodup_cons.1 hd
    rw [List.flatMap_cons, List.map_append, load_append,
      group_read g (h g List.mem_cons_self) done (fun r hr => hdone r hr g List.mem_cons_self) ps, Option.bind_some,
      ih (fun u hu => h u (List.mem_cons_of_mem _ hu)) hd'.2]
    · cases hv : groupView g with
      | none => rw [List.filterMap_cons_none hv]; show some (St.mk ((done ++ []) ++ _) ps) = _; rw [List.append_nil]
      | some r =>
        rw [List.filterMap_cons_some hv]
        show some (St.mk ((done ++ [r]) ++ _) ps) = _
        rw [List.append_assoc]; rfl
    · intro r hr u hu
      rcases List.mem_append.1 hr with hr | hr
      · exact hdone r hr u (List.mem_cons_of_mem _ hu)
      · have hv : groupView g = some r := by rwa [Option.mem_toList] at hr
        rw [view_id g r hv]
        exact fun he => hd'.1 (List.mem_map.2 ⟨u, hu, (dec_inj he).symm⟩)

end Verif.AlignLog
