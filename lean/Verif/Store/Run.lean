import Verif.Store.Rows
set_option autoImplicit false
namespace Verif.Store
open Verif.Scorer

/-! ### Which aligned segments exist -/

/-- The reference segments for which an aligned segment exists. -/
def segNames (A : Alignment) : List Seg := (segsOf A).map ASeg.seg

/-- No speech and no segment twice, segments under their own speech. -/
def Well (A : Alignment) : Prop :=
  (A.map ASpeech.speech).Nodup ∧ ∀ p ∈ A, (p.segs.map ASeg.seg).Nodup ∧ ∀ a ∈ p.segs, a.seg.speech = p.speech

theorem putSeg_names (s : Seg) (f : List TA → List TA) : ∀ (as : List ASeg) (x : Seg),
    x ∈ (putSeg as s f).map ASeg.seg ↔ x = s ∨ x ∈ as.map ASeg.seg := by
  intro as
  induction as with
  | nil => intro x; simp [putSeg]
  | cons a as ih =>
    intro x
    unfold putSeg
    by_cases c : a.seg = s
    · rw [if_pos c]
      simp only [List.map_cons, List.mem_cons, c]
      constructor
      · intro h; exact Or.inr h
      · rintro (h | h)
        · exact Or.inl h
        · exact h
    · rw [if_neg c]
      simp only [List.map_cons, List.mem_cons, ih]
      constructor
      · rintro (h | h | h)
        · exact Or.inr (Or.inl h)
        · exact Or.inl h
        · exact Or.inr (Or.inr h)
      · rintro (h | h | h)
        · exact Or.inr (Or.inl h)
        · exact Or.inl h
        · exact Or.inr (Or.inr h)

theorem putSeg_nodup (s : Seg) (f : List TA → List TA) : ∀ (as : List ASeg), (as.map ASeg.seg).Nodup →
    ((putSeg as s f).map ASeg.seg).Nodup := by
  intro as
  induction as with
  | nil => intro _; simp [putSeg]
  | cons a as ih =>
    intro h
    rw [List.map_cons, List.nodup_cons] at h
    unfold putSeg
    by_cases c : a.seg = s
    · rw [if_pos c, List.map_cons, List.nodup_cons]
      exact ⟨c ▸ h.1, h.2⟩
    · rw [if_neg c, List.map_cons, List.nodup_cons]
      refine ⟨?_, ih h.2⟩
      rw [putSeg_names]
      rintro (e | e)
      · exact c e
      · exact h.1 e

theorem segNames_cons (p : ASpeech) (A : Alignment) : segNames (p :: A) = p.segs.map ASeg.seg ++ segNames A := by
  simp [segNames, segsOf]

theorem putSpeech_names (s : Seg) (f : List TA → List TA) : ∀ (A : Alignment) (x : Seg),
    x ∈ segNames (putSpeech A s.speech fun segs => putSeg segs s f) ↔ x = s ∨ x ∈ segNames A := by
  intro A
  induction A with
  | nil => intro x; simp [putSpeech, segNames, segsOf, putSeg]
  | cons p A ih =>
    intro x
    unfold putSpeech
    by_cases c : p.speech = s.speech
    · rw [if_pos c, segNames_cons, segNames_cons, List.mem_append, List.mem_append, putSeg_names]
      rw [or_assoc]
    · rw [if_neg c, segNames_cons, segNames_cons, List.mem_append, List.mem_append, ih]
      constructor
      · rintro (h | h | h)
        · exact Or.inr (Or.inl h)
        · exact Or.inl h
        · exact Or.inr (Or.inr h)
      · rintro (h | h | h)
        · exact Or.inr (Or.inl h)
        · exact Or.inl h
        · exact Or.inr (Or.inr h)

theorem putSpeech_speeches (p : Nat) (f : List ASeg → List ASeg) : ∀ (A : Alignment) (x : Nat),
    x ∈ (putSpeech A p f).map ASpeech.speech ↔ x = p ∨ x ∈ A.map ASpeech.speech := by
  intro A
  induction A with
  | nil => intro x; simp [putSpeech]
  | cons a A ih =>
    intro x
    unfold putSpeech
    by_cases c : a.speech = p
    · rw [if_pos c]
      simp only [List.map_cons, List.mem_cons, c]
      constructor
      · intro h; exact Or.inr h
      · rintro (h | h)
        · exact Or.inl h
        · exact h
    · rw [if_neg c]
      simp only [List.map_cons, List.mem_cons, ih]
      constructor
      · rintro (h | h | h)
        · exact Or.inr (Or.inl h)
        · exact Or.inl h
        · exact Or.inr (Or.inr h)
      · rintro (h | h | h)
        · exact Or.inr (Or.inl h)
        · exact Or.inl h
        · exact Or.inr (Or.inr h)

theorem putSpeech_well (s : Seg) (f : List TA → List TA) : ∀ (A : Alignment), Well A →
    Well (putSpeech A s.speech fun segs => putSeg segs s f) := by
  intro A
  induction A with
  | nil =>
    intro _
    refine ⟨by simp [putSpeech], ?_⟩
    intro p hp
    simp only [putSpeech, List.mem_singleton] at hp
    subst hp
    refine ⟨by simp [putSeg], ?_⟩
    intro a ha
    simp only [putSeg, List.mem_singleton] at ha
    subst ha; rfl
  | cons p A ih =>
    rintro ⟨h1, h2⟩
    rw [List.map_cons, List.nodup_cons] at h1
    unfold putSpeech
    by_cases c : p.speech = s.speech
    · rw [if_pos c]
      refine ⟨by rw [List.map_cons, List.nodup_cons]; exact ⟨c ▸ h1.1, h1.2⟩, ?_⟩
      intro q hq
      rcases List.mem_cons.1 hq with e | hq
      · subst e
        have hp := h2 p (by simp)
        refine ⟨putSeg_nodup s f _ hp.1, ?_⟩
        intro a ha
        have : a.seg ∈ (putSeg p.segs s f).map ASeg.seg := List.mem_map.2 ⟨a, ha, rfl⟩
        rw [putSeg_names] at this
        rcases this with e | e
        · rw [e]
        · obtain ⟨b, hb, e'⟩ := List.mem_map.1 e
          rw [← e', hp.2 b hb, c]
      · exact h2 q (by simp [hq])
    · rw [if_neg c]
      have := ih ⟨h1.2, fun q hq => h2 q (by simp [hq])⟩
      refine ⟨?_, ?_⟩
      · rw [List.map_cons, List.nodup_cons]
        refine ⟨?_, this.1⟩
        rw [putSpeech_speeches]
        rintro (e | e)
        · exact c e
        · exact h1.1 e
      · intro q hq
        rcases List.mem_cons.1 hq with e | hq
        · subst e; exact h2 q (by simp)
        · exact this.2 q hq

theorem well_nodup : ∀ (A : Alignment), Well A → (segNames A).Nodup := by
  intro A
  induction A with
  | nil => intro _; simp [segNames, segsOf]
  | cons p A ih =>
    rintro ⟨h1, h2⟩
    rw [List.map_cons, List.nodup_cons] at h1
    rw [segNames_cons, List.nodup_append]
    refine ⟨(h2 p (by simp)).1, ih ⟨h1.2, fun q hq => h2 q (by simp [hq])⟩, ?_⟩
    intro x hx y hy e
    subst e
    obtain ⟨a, ha, e⟩ := List.mem_map.1 hx
    obtain ⟨b, hb, e'⟩ := List.mem_map.1 hy
    obtain ⟨q, hq, hbq⟩ := List.mem_flatMap.1 hb
    have e1 := (h2 p (by simp)).2 a ha
    have e2 := (h2 q (by simp [hq])).2 b hbq
    refine h1.1 (List.mem_map.2 ⟨q, hq, ?_⟩)
    rw [← e1, ← e2, e, e']

theorem touch_names : ∀ (ss : List Seg) (A : Alignment) (x : Seg),
    x ∈ segNames (ss.foldl touchAt A) ↔ x ∈ ss ∨ x ∈ segNames A := by
  intro ss
  induction ss with
  | nil => intro A x; simp
  | cons s ss ih =>
    intro A x
    rw [List.foldl_cons, ih]
    unfold touchAt
    rw [putSpeech_names, List.mem_cons]
    constructor
    · rintro (h | h | h)
      · exact Or.inl (Or.inr h)
      · exact Or.inl (Or.inl h)
      · exact Or.inr h
    · rintro ((h | h) | h)
      · exact Or.inr (Or.inl h)
      · exact Or.inl h
      · exact Or.inr (Or.inr h)

theorem touch_well : ∀ (ss : List Seg) (A : Alignment), Well A → Well (ss.foldl touchAt A) := by
  intro ss
  induction ss with
  | nil => intro A h; exact h
  | cons s ss ih => intro A h; exact ih _ (putSpeech_well s _ A h)

/-! ### The columns of a group -/

/-- What storing some pairs does: the new rows for this system, nothing for the others, and the segments. -/
structure Stores (key : Str) (A A' : Alignment) (rows : List Row) (segs : List Seg) : Prop where
  own : (rowsOf key A').Perm (rows ++ rowsOf key A)
  others : ∀ k', k' ≠ key → k' ≠ refKey → (rowsOf k' A').Perm (rowsOf k' A)
  names : ∀ x, x ∈ segNames A' ↔ x ∈ segs ∨ x ∈ segNames A
  well : Well A → Well A'

theorem leftOf_snoc (before : List Pair) (p : Pair) : leftOf (before ++ [p]) =
    match p.1 with
    | some r => some r.seg
    | none => leftOf before := by
  unfold leftOf
  rw [List.filterMap_append]
  cases h : p.1 <;> simp [h]

theorem rightOf_ok {ps : List Pair} {group : List Seg} (h : InOrder ps group) (s : Seg) (e : rightOf ps = some s) :
    s.start ≤ s.stop := by
  unfold rightOf at e
  cases hh : (ps.filterMap Prod.fst).head? with
  | none => rw [hh] at e; cases e
  | some t =>
    rw [hh] at e
    have e : t.seg = s := by simpa using e
    have hm := List.mem_of_mem_head? hh
    obtain ⟨p, hp, e'⟩ := List.mem_filterMap.1 hm
    rw [← e]
    exact h.2.1 t p.2 (by rw [← e']; exact hp)

theorem storeCols_spec (k : Nat) (group : List Seg) (key : Str) (hkey : key ≠ refKey) {cols : List Col}
    {ps : List Pair} (hs : Shows k cols ps) : ∀ (before : List Pair) (A : Alignment) (last : Option Token),
    leftOf before = last.map Token.seg → (∀ s, leftOf before = some s → s.start ≤ s.stop) → Filled ps →
    InOrder ps group → (refWords ps).Nodup → (∀ t ∈ refWords ps, ∀ w ∈ rowsOf key A, w.2.1 ≠ some t) →
    (∃ A' rows, storeCols k group key A last cols = .stored A' ∧ Placed group before ps rows ∧
      Stores key A A' rows (rows.map Prod.fst)) ∨
    (storeCols k group key A last cols = .exit ∧ ∀ rows, ¬ Placed group before ps rows) := by
  induction hs with
  | nil =>
    intro before A last _ _ _ _ _ _
    left
    refine ⟨A, [], rfl, .nil _, ?_, ?_, ?_, ?_⟩
    · exact .refl _
    · intro _ _ _; exact .refl _
    · intro x; simp
    · exact id
  | cons c r h cs ps hr hh hrest ih =>
    intro before A last hl hlo hfill hord hnd hno
    have er : refOf k c = r := firstTok_only _ _ hr
    have eh : hypOf k c = h := firstTok_only _ _ hh
    have hord' : InOrder ps group :=
      ⟨fun x hx => hord.1 x (by simp [hx]), fun x y hx => hord.2.1 x y (by simp [hx]), hord.2.2⟩
    have hfill' : Filled ps := fun p hp => hfill p (by simp [hp])
    unfold storeCols
    rw [er, eh]
    cases r with
    | some r =>
      dsimp only
      have hnd' : r ∉ refWords ps ∧ (refWords ps).Nodup := by
        have : refWords ((some r, h) :: ps) = r :: refWords ps := rfl
        rw [this, List.nodup_cons] at hnd; exact hnd
      have hown := rowsOf_storeAt_same hkey A r.seg (some r) h (fun t e w hw => by
        cases e; exact hno r (by simp [refWords]) w hw)
      have hno' : ∀ t ∈ refWords ps, ∀ w ∈ rowsOf key (storeAt A r.seg (some r) key h), w.2.1 ≠ some t := by
        intro t ht w hw
        rcases List.mem_cons.1 (hown.mem_iff.1 hw) with e | hw
        · rw [e]; intro e2; cases e2; exact hnd'.1 ht
        · refine hno t ?_ w hw
          show t ∈ refWords ((some r, h) :: ps)
          exact List.mem_cons_of_mem _ ht
      rcases ih (before ++ [(some r, h)]) _ (some r) (by rw [leftOf_snoc]; rfl)
          (fun s e => by
            rw [leftOf_snoc] at e
            have e : r.seg = s := by simpa using e
            rw [← e]; exact hord.2.1 r h (by simp)) hfill' hord' hnd'.2 hno' with
        ⟨A', rows, e1, e2, e3⟩ | ⟨e1, e2⟩
      · left
        refine ⟨A', (r.seg, some r, h) :: rows, e1, .ref _ _ _ _ _ e2, ?_, ?_, ?_, ?_⟩
        · exact e3.own.trans ((List.Perm.append_left rows hown).trans List.perm_middle)
        · intro k' h1 h2
          exact (e3.others k' h1 h2).trans (rowsOf_storeAt_other h2 h1 A _ _ _)
        · intro x
          rw [e3.names x]
          unfold storeAt
          rw [putSpeech_names, List.map_cons, List.mem_cons]
          constructor
          · rintro (h | h | h)
            · exact Or.inl (Or.inr h)
            · exact Or.inl (Or.inl h)
            · exact Or.inr h
          · rintro ((h | h) | h)
            · exact Or.inr (Or.inl h)
            · exact Or.inl h
            · exact Or.inr (Or.inr h)
        · intro hw
          exact e3.well (putSpeech_well _ _ A hw)
      · right
        refine ⟨e1, ?_⟩
        intro rows hp
        cases hp with
        | ref _ _ _ _ rows hp => exact e2 rows hp
    | none =>
      cases h with
      | none => exact absurd rfl (hfill (none, none) (by simp))
      | some h =>
        dsimp only
        have hh0 : h.start ≤ h.stop := hord.1 h (by simp)
        have hlr : last.map Token.seg = leftOf before := hl.symm
        have hrr : (nextRef k cs).map Token.seg = rightOf ps := nextRef_shows hrest
        rw [hlr, hrr]
        rcases seek_home (leftOf before) (rightOf ps) group h hh0 hlo (fun s e => rightOf_ok hord' s e) hord.2.2 1 with
          ⟨s, f1, f2⟩ | ⟨f1, f2⟩
        · rw [f1]
          dsimp only
          have hnd' : (refWords ps).Nodup := hnd
          have hown := rowsOf_storeAt_same hkey A s none (some h) (fun t e => by cases e)
          have hno' : ∀ t ∈ refWords ps, ∀ w ∈ rowsOf key (storeAt A s none key (some h)), w.2.1 ≠ some t := by
            intro t ht w hw
            rcases List.mem_cons.1 (hown.mem_iff.1 hw) with e | hw
            · rw [e]; intro e2; cases e2
            · exact hno t ht w hw
          rcases ih (before ++ [(none, some h)]) _ last (by rw [leftOf_snoc]; exact hl)
              (fun s e => hlo s (by rw [leftOf_snoc] at e; exact e)) hfill' hord' hnd' hno' with
            ⟨A', rows, e1, e2, e3⟩ | ⟨e1, e2⟩
          · left
            refine ⟨A', (s, none, some h) :: rows, e1, .ins _ _ _ _ _ f2 e2, ?_, ?_, ?_, ?_⟩
            · exact e3.own.trans ((List.Perm.append_left rows hown).trans List.perm_middle)
            · intro k' h1 h2
              exact (e3.others k' h1 h2).trans (rowsOf_storeAt_other h2 h1 A _ _ _)
            · intro x
              rw [e3.names x]
              unfold storeAt
              rw [putSpeech_names, List.map_cons, List.mem_cons]
              constructor
              · rintro (h | h | h)
                · exact Or.inl (Or.inr h)
                · exact Or.inl (Or.inl h)
                · exact Or.inr h
              · rintro ((h | h) | h)
                · exact Or.inr (Or.inl h)
                · exact Or.inl h
                · exact Or.inr (Or.inr h)
            · intro hw
              exact e3.well (putSpeech_well _ _ A hw)
          · right
            refine ⟨e1, ?_⟩
            intro rows hp
            cases hp with
            | ins _ _ _ _ rows _ hp => exact e2 rows hp
        · rw [f1]
          right
          refine ⟨rfl, ?_⟩
          intro rows hp
          cases hp with
          | ins _ _ s _ rows hp _ => exact f2 s hp

end Verif.Store
