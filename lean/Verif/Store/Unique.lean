import Verif.Store.Systems
set_option autoImplicit false
namespace Verif.Store
open Verif.Scorer

/-- The tokens of a segment: no reference word twice, all of this segment. -/
def Tidy (s : Seg) (ts : List TA) : Prop :=
  (ts.filterMap TA.ref).Nodup ∧ ∀ t ∈ ts, ∀ r, t.ref = some r → r.seg = s

theorem mem_putSeg' {s : Seg} {f : List TA → List TA} : ∀ {as : List ASeg} {a : ASeg}, a ∈ putSeg as s f →
    a ∈ as ∨ (a.seg = s ∧ a.toks = f []) ∨ ∃ b ∈ as, b.seg = s ∧ a.seg = s ∧ a.toks = f b.toks := by
  intro as
  induction as with
  | nil => intro a ha; simp only [putSeg, List.mem_singleton] at ha; exact Or.inr (Or.inl (by rw [ha]; exact ⟨rfl, rfl⟩))
  | cons b as ih =>
    intro a ha
    unfold putSeg at ha
    by_cases c : b.seg = s
    · rw [if_pos c] at ha
      rcases List.mem_cons.1 ha with e | ha
      · exact Or.inr (Or.inr ⟨b, by simp, c, by rw [e], by rw [e]⟩)
      · exact Or.inl (by simp [ha])
    · rw [if_neg c] at ha
      rcases List.mem_cons.1 ha with e | ha
      · exact Or.inl (by simp [e])
      · rcases ih ha with h | h | ⟨u, h1, h2⟩
        · exact Or.inl (by simp [h])
        · exact Or.inr (Or.inl h)
        · exact Or.inr (Or.inr ⟨u, by simp [h1], h2⟩)

theorem tidy_put {s : Seg} {f : List TA → List TA} {A : Alignment} (h : ∀ a ∈ segsOf A, Tidy a.seg a.toks)
    (hf : ∀ ts, Tidy s ts → Tidy s (f ts)) :
    ∀ a ∈ segsOf (putSpeech A s.speech fun segs => putSeg segs s f), Tidy a.seg a.toks := by
  intro a ha
  obtain ⟨q, hq, haq⟩ := List.mem_flatMap.1 ha
  have old : ∀ (b : ASpeech), b ∈ A → ∀ a ∈ b.segs, Tidy a.seg a.toks := fun b hb a ha =>
    h a (List.mem_flatMap.2 ⟨b, hb, ha⟩)
  have fold : ∀ (segs : List ASeg), (∀ a ∈ segs, Tidy a.seg a.toks) → a ∈ putSeg segs s f → Tidy a.seg a.toks := by
    intro segs hsegs ha
    rcases mem_putSeg' ha with h1 | ⟨h1, h2⟩ | ⟨b, hb, h1, h2, h3⟩
    · exact hsegs a h1
    · rw [h1, h2]; exact hf [] ⟨by simp, by simp⟩
    · rw [h2, h3]; exact hf _ (h1 ▸ hsegs b hb)
  rcases mem_putSpeech hq with h1 | h1 | ⟨b, hb, h1⟩
  · exact old q h1 a haq
  · rw [h1] at haq; exact fold [] (by simp) haq
  · rw [h1] at haq; exact fold b.segs (old b hb) haq

theorem refs_putTok (r h : Option Token) (k : Str) : ∀ (ts : List TA),
    (putTok ts r k h).filterMap TA.ref = ts.filterMap TA.ref ∨
    ((putTok ts r k h).filterMap TA.ref = ts.filterMap TA.ref ++ r.toList ∧ ∀ x, r = some x → x ∉ ts.filterMap TA.ref) := by
  intro ts
  induction ts with
  | nil =>
    right
    refine ⟨?_, by simp⟩
    unfold putTok
    rw [List.filterMap_cons, add_ref]
    cases r <;> rfl
  | cons t ts ih =>
    unfold putTok
    by_cases c : r.isSome ∧ t.ref = r
    · rw [if_pos c]
      left
      rw [List.filterMap_cons, List.filterMap_cons, add_ref]
    · rw [if_neg c, List.filterMap_cons, List.filterMap_cons]
      rcases ih with e | ⟨e, hn⟩
      · left; rw [e]
      · right
        rw [e]
        cases ht : t.ref with
        | none => exact ⟨rfl, hn⟩
        | some u =>
          refine ⟨rfl, ?_⟩
          intro x hx hm
          rcases List.mem_cons.1 hm with e | hm
          · exact c ⟨by rw [hx]; rfl, by rw [ht, hx, e]⟩
          · exact hn x hx hm

theorem tidy_putTok {s : Seg} {r h : Option Token} {k : Str} (hr : ∀ x, r = some x → x.seg = s) {ts : List TA}
    (ht : Tidy s ts) : Tidy s (putTok ts r k h) := by
  refine ⟨?_, ?_⟩
  · rcases refs_putTok r h k ts with e | ⟨e, hn⟩
    · rw [e]; exact ht.1
    · rw [e, List.nodup_append]
      refine ⟨ht.1, by cases r <;> simp, ?_⟩
      intro x hx y hy exy
      subst exy
      cases r with
      | none => cases hy
      | some u =>
        simp only [Option.toList_some, List.mem_singleton] at hy
        subst hy
        exact hn x rfl hx
  · intro t hmem u hu
    rcases mem_putTok hmem with e | e | ⟨v, h1, h2, h3, e⟩
    · exact ht.2 t e u hu
    · rw [e, add_ref] at hu; exact hr u hu
    · rw [e, add_ref] at hu; exact ht.2 v h1 u hu

theorem tidy_cols (k : Nat) (group : List Seg) (key : Str) : ∀ (cols : List Col) (A : Alignment) (last : Option Token)
    (A' : Alignment), (∀ a ∈ segsOf A, Tidy a.seg a.toks) → storeCols k group key A last cols = .stored A' →
    ∀ a ∈ segsOf A', Tidy a.seg a.toks := by
  intro cols
  induction cols with
  | nil =>
    intro A last A' h e
    unfold storeCols at e
    injection e with e
    rw [← e]; exact h
  | cons c cs ih =>
    intro A last A' h e
    unfold storeCols at e
    split at e
    · exact ih _ _ _ (tidy_put h (fun ts => tidy_putTok (fun x hx => by cases hx; rfl))) e
    · split at e
      · cases e
      · split at e
        · cases e
        · cases e
        · cases e
        · exact ih _ _ _ (tidy_put h (fun ts => tidy_putTok (fun x hx => by cases hx))) e

theorem tidy_touch : ∀ (ss : List Seg) (A : Alignment), (∀ a ∈ segsOf A, Tidy a.seg a.toks) →
    ∀ a ∈ segsOf (ss.foldl touchAt A), Tidy a.seg a.toks := by
  intro ss
  induction ss with
  | nil => intro A h; exact h
  | cons s ss ih => intro A h; exact ih _ (tidy_put h (fun ts hts => hts))

theorem tidy_groups (key : Str) : ∀ (gs : List Group) (A A' : Alignment), (∀ a ∈ segsOf A, Tidy a.seg a.toks) →
    addGroups key A gs = .stored A' → ∀ a ∈ segsOf A', Tidy a.seg a.toks := by
  intro gs
  induction gs with
  | nil => intro A A' h e; unfold addGroups at e; injection e with e; rw [← e]; exact h
  | cons g gs ih =>
    intro A A' h e
    unfold addGroups at e
    cases hg : addGroup A key g with
    | stored A1 =>
      rw [hg] at e
      refine ih A1 A' ?_ e
      unfold addGroup at hg
      by_cases c : g.cols = []
      · rw [if_pos c] at hg
        injection hg with hg
        rw [← hg]
        exact tidy_touch _ _ h
      · rw [if_neg c] at hg
        exact tidy_cols _ _ _ _ _ _ _ h hg
    | exit => rw [hg] at e; cases e
    | hang => rw [hg] at e; cases e
    | crash => rw [hg] at e; cases e

theorem tidy_systems : ∀ (ss : List (Str × List Group)) (A A' : Alignment), (∀ a ∈ segsOf A, Tidy a.seg a.toks) →
    addSystems A ss = .stored A' → ∀ a ∈ segsOf A', Tidy a.seg a.toks := by
  intro ss
  induction ss with
  | nil => intro A A' h e; unfold addSystems at e; injection e with e; rw [← e]; exact h
  | cons s ss ih =>
    intro A A' h e
    obtain ⟨key, gs⟩ := s
    unfold addSystems at e
    cases hg : addGroups key A gs with
    | stored A1 => rw [hg] at e; exact ih A1 A' (tidy_groups key _ _ _ h hg) e
    | exit => rw [hg] at e; cases e
    | hang => rw [hg] at e; cases e
    | crash => rw [hg] at e; cases e

theorem names_eq {A : Alignment} (h : (segNames A).Nodup) {a b : ASeg} (ha : a ∈ segsOf A) (hb : b ∈ segsOf A)
    (e : a.seg = b.seg) : a = b := by
  unfold segNames at h
  generalize segsOf A = l at h ha hb
  induction l with
  | nil => cases ha
  | cons x l ih =>
    rw [List.map_cons, List.nodup_cons] at h
    rcases List.mem_cons.1 ha with ea | ha <;> rcases List.mem_cons.1 hb with eb | hb
    · rw [ea, eb]
    · exact absurd (List.mem_map.2 ⟨b, hb, by rw [← e, ea]⟩) h.1
    · exact absurd (List.mem_map.2 ⟨a, ha, by rw [e, eb]⟩) h.1
    · exact ih h.2 ha hb

theorem refs_eq {ts : List TA} (h : (ts.filterMap TA.ref).Nodup) {t u : TA} {r : Token} (ht : t ∈ ts) (hu : u ∈ ts)
    (et : t.ref = some r) (eu : u.ref = some r) : t = u := by
  induction ts with
  | nil => cases ht
  | cons x ts ih =>
    have key : ∀ y ∈ ts, y.ref = some r → r ∈ ts.filterMap TA.ref := fun y hy e => List.mem_filterMap.2 ⟨y, hy, e⟩
    rw [List.filterMap_cons] at h
    rcases List.mem_cons.1 ht with e1 | ht <;> rcases List.mem_cons.1 hu with e2 | hu
    · rw [e1, e2]
    · rw [← e1, et] at h
      exact absurd (key u hu eu) (List.nodup_cons.1 h).1
    · rw [← e2, eu] at h
      exact absurd (key t ht et) (List.nodup_cons.1 h).1
    · refine ih ?_ ht hu
      cases hx : x.ref with
      | none => rw [hx] at h; exact h
      | some v => rw [hx] at h; exact (List.nodup_cons.1 h).2

end Verif.Store
