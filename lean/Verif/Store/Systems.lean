import Verif.Store.Run
import Verif.Scorer.Props
set_option autoImplicit false
namespace Verif.Store
open Verif.Scorer

theorem Stores.refl (key : Str) (A : Alignment) : Stores key A A [] [] :=
  ⟨.refl _, fun _ _ _ => .refl _, fun x => by simp, id⟩

theorem Stores.trans {key : Str} {A B C : Alignment} {r1 r2 : List Row} {s1 s2 : List Seg}
    (h1 : Stores key A B r1 s1) (h2 : Stores key B C r2 s2) : Stores key A C (r1 ++ r2) (s1 ++ s2) := by
  refine ⟨?_, ?_, ?_, ?_⟩
  · refine h2.own.trans ((List.Perm.append_left r2 h1.own).trans ?_)
    rw [← List.append_assoc]
    exact List.Perm.append_right _ List.perm_append_comm
  · intro k a b; exact (h2.others k a b).trans (h1.others k a b)
  · intro x
    rw [h2.names x, h1.names x, List.mem_append]
    constructor
    · rintro (h | h | h)
      · exact Or.inl (Or.inr h)
      · exact Or.inl (Or.inl h)
      · exact Or.inr h
    · rintro ((h | h) | h)
      · exact Or.inr (Or.inl h)
      · exact Or.inl h
      · exact Or.inr (Or.inr h)
  · exact fun h => h2.well (h1.well h)

theorem shows_nil {k : Nat} {cols : List Col} {ps : List Pair} (h : Shows k cols ps) : cols = [] ↔ ps = [] := by
  cases h <;> simp

theorem addGroup_spec {key : Str} (hkey : key ≠ refKey) {g : Group} {ps : List Pair} (hs : Shows g.split g.cols ps)
    (hf : Filled ps) (ho : InOrder ps g.refs.flatten) (hnd : (refWords ps).Nodup) (A : Alignment)
    (hno : ∀ t ∈ refWords ps, ∀ w ∈ rowsOf key A, w.2.1 ≠ some t) :
    (∃ A' rows, addGroup A key g = .stored A' ∧ Placed g.refs.flatten [] ps rows ∧
      Stores key A A' rows (if ps = [] then g.refs.flatten else rows.map Prod.fst)) ∨
    (addGroup A key g = .exit ∧ ∀ rows, ¬ Placed g.refs.flatten [] ps rows) := by
  unfold addGroup
  by_cases c : g.cols = []
  · rw [if_pos c]
    have e := (shows_nil hs).1 c
    left
    refine ⟨_, [], rfl, by rw [e]; exact .nil _, ?_⟩
    rw [if_pos e]
    exact ⟨rowsOf_touch _ _ _, fun k _ _ => rowsOf_touch _ _ _, touch_names _ _, touch_well _ _⟩
  · rw [if_neg c]
    have e : ¬ ps = [] := fun e => c ((shows_nil hs).2 e)
    simp only [if_neg e]
    exact storeCols_spec g.split _ key hkey hs [] A none rfl (fun s e => by cases e) hf ho hnd hno

theorem placed_pairs {group : List Seg} {before ps : List Pair} {rows : List Row} (h : Placed group before ps rows) :
    rows.map Prod.snd = ps := by
  induction h with
  | nil => rfl
  | ref before r h after rows _ ih => rw [List.map_cons, ih]
  | ins before h s after rows _ _ ih => rw [List.map_cons, ih]

theorem allPlaced_pairs {gs : List Group} {pss : List (List Pair)} {rows : List Row} {segs : List Seg}
    (h : AllPlaced gs pss rows segs) : rows.map Prod.snd = pss.flatten := by
  induction h with
  | nil => rfl
  | cons g ps gs pss rows rest segs hp _ ih => rw [List.map_append, placed_pairs hp, ih, List.flatten_cons]

theorem refWords_append (a b : List Pair) : refWords (a ++ b) = refWords a ++ refWords b := by
  simp [refWords]

theorem mem_refWords_of_row {rows : List Row} {ps : List Pair} (h : rows.map Prod.snd = ps) {w : Row} (hw : w ∈ rows)
    {t : Token} (e : w.2.1 = some t) : t ∈ refWords ps := by
  unfold refWords
  rw [List.mem_filterMap]
  exact ⟨w.2, by rw [← h]; exact List.mem_map.2 ⟨w, hw, rfl⟩, e⟩

theorem addGroups_spec {key : Str} (hkey : key ≠ refKey) {gs : List Group} {pss : List (List Pair)}
    (hp : Plan gs pss) : ∀ (A : Alignment), (refWords pss.flatten).Nodup →
    (∀ t ∈ refWords pss.flatten, ∀ w ∈ rowsOf key A, w.2.1 ≠ some t) →
    (∃ A' rows segs, addGroups key A gs = .stored A' ∧ AllPlaced gs pss rows segs ∧ Stores key A A' rows segs) ∨
    (addGroups key A gs = .exit ∧ ∀ rows segs, ¬ AllPlaced gs pss rows segs) := by
  induction hp with
  | nil => intro A _ _; exact Or.inl ⟨A, [], [], rfl, .nil, .refl _ _⟩
  | cons g ps gs pss h1 h2 h3 _ ih =>
    intro A hnd hno
    rw [List.flatten_cons, refWords_append] at hnd hno
    rw [List.nodup_append] at hnd
    obtain ⟨n1, n2, n3⟩ := hnd
    unfold addGroups
    rcases addGroup_spec hkey h1 h2 h3 n1 A (fun t ht => hno t (List.mem_append_left _ ht)) with
      ⟨A1, rows, e1, e2, e3⟩ | ⟨e1, e2⟩
    · rw [e1]
      dsimp only
      have hno' : ∀ t ∈ refWords pss.flatten, ∀ w ∈ rowsOf key A1, w.2.1 ≠ some t := by
        intro t ht w hw e
        rcases List.mem_append.1 (e3.own.mem_iff.1 hw) with hw | hw
        · exact n3 t (mem_refWords_of_row (placed_pairs e2) hw e) t ht rfl
        · exact hno t (List.mem_append_right _ ht) w hw e
      rcases ih A1 n2 hno' with ⟨A', rest, segs, f1, f2, f3⟩ | ⟨f1, f2⟩
      · exact Or.inl ⟨A', rows ++ rest, _, f1, .cons _ _ _ _ _ _ _ e2 f2, e3.trans f3⟩
      · right
        refine ⟨f1, ?_⟩
        intro rows segs h
        cases h with
        | cons _ _ _ _ _ _ _ _ h => exact f2 _ _ h
    · rw [e1]
      right
      refine ⟨rfl, ?_⟩
      intro rows segs h
      cases h with
      | cons _ _ _ _ _ _ _ h _ => exact e2 _ h

theorem addSystems_spec : ∀ (ss : List System) (A : Alignment), Proper ss →
    (∀ s ∈ ss, rowsOf s.title A = []) →
    (∃ A', addSystems A (given ss) = .stored A' ∧
      (∀ s ∈ ss, ∃ rows segs, AllPlaced s.groups s.pairs rows segs ∧ (rowsOf s.title A').Perm rows ∧
        ∀ x ∈ segs, x ∈ segNames A') ∧
      (∀ k, k ≠ refKey → k ∉ ss.map System.title → (rowsOf k A').Perm (rowsOf k A)) ∧
      (∀ x, x ∈ segNames A → x ∈ segNames A') ∧ (Well A → Well A')) ∨
    (addSystems A (given ss) = .exit ∧ ∃ s ∈ ss, ∀ rows segs, ¬ AllPlaced s.groups s.pairs rows segs) := by
  intro ss
  induction ss with
  | nil =>
    intro A _ _
    exact Or.inl ⟨A, rfl, by simp, fun k _ _ => .refl _, fun x h => h, id⟩
  | cons s ss ih =>
    intro A hp hempty
    obtain ⟨hok, hnd⟩ := hp
    rw [List.map_cons, List.nodup_cons] at hnd
    have hs := hok s (by simp)
    have e0 : addSystems A (given (s :: ss)) =
        match addGroups s.title A s.groups with
        | .stored A' => addSystems A' (given ss)
        | r => r := rfl
    rw [e0]
    have hs2 : s.title ≠ refKey := hs.2
    rcases addGroups_spec hs2 hs.1.1 A hs.1.2 (fun t _ w hw => by
        rw [hempty s (by simp)] at hw; cases hw) with ⟨A1, rows, segs, e1, e2, e3⟩ | ⟨e1, e2⟩
    · rw [e1]
      dsimp only
      have hemp1 : ∀ s' ∈ ss, rowsOf s'.title A1 = [] := by
        intro s' hs'
        have hne : s'.title ≠ s.title := fun e => hnd.1 (by rw [← e]; exact List.mem_map.2 ⟨s', hs', rfl⟩)
        have hp := e3.others s'.title hne (hok s' (by simp [hs'])).2
        rw [hempty s' (by simp [hs'])] at hp
        exact hp.eq_nil
      rcases ih A1 ⟨fun s' hs' => hok s' (by simp [hs']), hnd.2⟩ hemp1 with ⟨A', f1, f2, f3, f4, f5⟩ | ⟨f1, f2⟩
      · left
        refine ⟨A', f1, ?_, ?_, ?_, ?_⟩
        · intro s' hs'
          rcases List.mem_cons.1 hs' with e | hs'
          · subst e
            refine ⟨rows, segs, e2, ?_, ?_⟩
            · have h1 := f3 s'.title hs2 hnd.1
              have h2 := e3.own
              rw [hempty s' (by simp), List.append_nil] at h2
              exact h1.trans h2
            · intro x hx
              exact f4 x ((e3.names x).2 (Or.inl hx))
          · exact f2 s' hs'
        · intro k hk hk'
          rw [List.map_cons, List.mem_cons] at hk'
          exact (f3 k hk (fun h => hk' (Or.inr h))).trans (e3.others k (fun h => hk' (Or.inl h)) hk)
        · intro x hx
          exact f4 x ((e3.names x).2 (Or.inr hx))
        · exact fun h => f5 (e3.well h)
      · right
        obtain ⟨s', h1, h2⟩ := f2
        exact ⟨f1, s', by simp [h1], h2⟩
    · rw [e1]
      right
      exact ⟨rfl, s, by simp, e2⟩

/-! ### Invariants of what is stored -/

/-- A property of stored tokens. -/
def Every (P : TA → Prop) (A : Alignment) : Prop := ∀ a ∈ segsOf A, ∀ t ∈ a.toks, P t

theorem mem_putTok {r h : Option Token} {k : Str} : ∀ {ts : List TA} {t : TA}, t ∈ putTok ts r k h →
    t ∈ ts ∨ t = TA.add ⟨r, []⟩ k h ∨ ∃ u ∈ ts, r.isSome ∧ u.ref = r ∧ t = u.add k h := by
  intro ts
  induction ts with
  | nil => intro t ht; simp only [putTok, List.mem_singleton] at ht; exact Or.inr (Or.inl ht)
  | cons a ts ih =>
    intro t ht
    unfold putTok at ht
    by_cases c : r.isSome ∧ a.ref = r
    · rw [if_pos c] at ht
      rcases List.mem_cons.1 ht with e | ht
      · exact Or.inr (Or.inr ⟨a, by simp, c.1, c.2, e⟩)
      · exact Or.inl (by simp [ht])
    · rw [if_neg c] at ht
      rcases List.mem_cons.1 ht with e | ht
      · exact Or.inl (by simp [e])
      · rcases ih ht with h | h | ⟨u, h1, h2⟩
        · exact Or.inl (by simp [h])
        · exact Or.inr (Or.inl h)
        · exact Or.inr (Or.inr ⟨u, by simp [h1], h2⟩)

theorem mem_putSeg {s : Seg} {f : List TA → List TA} : ∀ {as : List ASeg} {a : ASeg}, a ∈ putSeg as s f →
    a ∈ as ∨ a.toks = f [] ∨ ∃ b ∈ as, a.toks = f b.toks := by
  intro as
  induction as with
  | nil => intro a ha; simp only [putSeg, List.mem_singleton] at ha; exact Or.inr (Or.inl (by rw [ha]))
  | cons b as ih =>
    intro a ha
    unfold putSeg at ha
    by_cases c : b.seg = s
    · rw [if_pos c] at ha
      rcases List.mem_cons.1 ha with e | ha
      · exact Or.inr (Or.inr ⟨b, by simp, by rw [e]⟩)
      · exact Or.inl (by simp [ha])
    · rw [if_neg c] at ha
      rcases List.mem_cons.1 ha with e | ha
      · exact Or.inl (by simp [e])
      · rcases ih ha with h | h | ⟨u, h1, h2⟩
        · exact Or.inl (by simp [h])
        · exact Or.inr (Or.inl h)
        · exact Or.inr (Or.inr ⟨u, by simp [h1], h2⟩)

theorem mem_putSpeech {p : Nat} {f : List ASeg → List ASeg} : ∀ {A : Alignment} {q : ASpeech}, q ∈ putSpeech A p f →
    q ∈ A ∨ q.segs = f [] ∨ ∃ b ∈ A, q.segs = f b.segs := by
  intro A
  induction A with
  | nil => intro a ha; simp only [putSpeech, List.mem_singleton] at ha; exact Or.inr (Or.inl (by rw [ha]))
  | cons b as ih =>
    intro a ha
    unfold putSpeech at ha
    by_cases c : b.speech = p
    · rw [if_pos c] at ha
      rcases List.mem_cons.1 ha with e | ha
      · exact Or.inr (Or.inr ⟨b, by simp, by rw [e]⟩)
      · exact Or.inl (by simp [ha])
    · rw [if_neg c] at ha
      rcases List.mem_cons.1 ha with e | ha
      · exact Or.inl (by simp [e])
      · rcases ih ha with h | h | ⟨u, h1, h2⟩
        · exact Or.inl (by simp [h])
        · exact Or.inr (Or.inl h)
        · exact Or.inr (Or.inr ⟨u, by simp [h1], h2⟩)

theorem every_put {P : TA → Prop} {s : Seg} {f : List TA → List TA} {A : Alignment} (h : Every P A)
    (hf : ∀ ts, (∀ t ∈ ts, P t) → ∀ t ∈ f ts, P t) :
    Every P (putSpeech A s.speech fun segs => putSeg segs s f) := by
  intro a ha t ht
  obtain ⟨q, hq, haq⟩ := List.mem_flatMap.1 ha
  have old : ∀ (b : ASpeech), b ∈ A → ∀ a ∈ b.segs, ∀ t ∈ a.toks, P t := fun b hb a ha =>
    h a (List.mem_flatMap.2 ⟨b, hb, ha⟩)
  have fold : ∀ (segs : List ASeg), (∀ a ∈ segs, ∀ t ∈ a.toks, P t) → a ∈ putSeg segs s f → P t := by
    intro segs hsegs ha
    rcases mem_putSeg ha with h1 | h1 | ⟨b, hb, h1⟩
    · exact hsegs a h1 t ht
    · rw [h1] at ht; exact hf [] (by simp) t ht
    · rw [h1] at ht; exact hf b.toks (hsegs b hb) t ht
  rcases mem_putSpeech hq with h1 | h1 | ⟨b, hb, h1⟩
  · exact old q h1 a haq t ht
  · rw [h1] at haq; exact fold [] (by simp) haq
  · rw [h1] at haq; exact fold b.segs (old b hb) haq

/-- A property kept by adding entries of a system is kept by the whole run. -/
theorem every_cols {P : TA → Prop} {key : Str} (hnew : ∀ r h, P (TA.add ⟨r, []⟩ key h))
    (hadd : ∀ t h, t.ref.isSome → P t → P (t.add key h)) (k : Nat) (group : List Seg) : ∀ (cols : List Col) (A : Alignment)
    (last : Option Token) (A' : Alignment), Every P A → storeCols k group key A last cols = .stored A' → Every P A' := by
  have hput : ∀ (r h : Option Token) (ts : List TA), (∀ t ∈ ts, P t) → ∀ t ∈ putTok ts r key h, P t := by
    intro r h ts hts t ht
    rcases mem_putTok ht with e | e | ⟨u, h1, h2, h3, e⟩
    · exact hts t e
    · rw [e]; exact hnew r h
    · rw [e]; exact hadd u h (by rw [h3]; exact h2) (hts u h1)
  intro cols
  induction cols with
  | nil =>
    intro A last A' h e
    unfold storeCols at e
    injection e with e
    rw [← e]; exact h
  | cons c cs ih =>
    intro A last A' h e
    unfold storeCols at e
    split at e
    · exact ih _ _ _ (every_put h (hput _ _)) e
    · split at e
      · cases e
      · split at e
        · cases e
        · cases e
        · cases e
        · exact ih _ _ _ (every_put h (hput _ _)) e

theorem every_touch {P : TA → Prop} : ∀ (ss : List Seg) (A : Alignment), Every P A → Every P (ss.foldl touchAt A) := by
  intro ss
  induction ss with
  | nil => intro A h; exact h
  | cons s ss ih => intro A h; exact ih _ (every_put h (fun ts hts => hts))

theorem every_groups {P : TA → Prop} {key : Str} (hnew : ∀ r h, P (TA.add ⟨r, []⟩ key h))
    (hadd : ∀ t h, t.ref.isSome → P t → P (t.add key h)) : ∀ (gs : List Group) (A A' : Alignment), Every P A →
    addGroups key A gs = .stored A' → Every P A' := by
  intro gs
  induction gs with
  | nil => intro A A' h e; unfold addGroups at e; injection e with e; rw [← e]; exact h
  | cons g gs ih =>
    intro A A' h e
    unfold addGroups at e
    cases hg : addGroup A key g with
    | stored A1 =>
      rw [hg] at e
      refine ih A1 A' ?_ e
      unfold addGroup at hg
      by_cases c : g.cols = []
      · rw [if_pos c] at hg
        injection hg with hg
        rw [← hg]
        exact every_touch _ _ h
      · rw [if_neg c] at hg
        exact every_cols hnew hadd _ _ _ _ _ _ h hg
    | exit => rw [hg] at e; cases e
    | hang => rw [hg] at e; cases e
    | crash => rw [hg] at e; cases e

theorem every_systems {P : TA → Prop} : ∀ (ss : List (Str × List Group)) (A A' : Alignment),
    (∀ key ∈ ss.map Prod.fst, ∀ r h, P (TA.add ⟨r, []⟩ key h)) →
    (∀ key ∈ ss.map Prod.fst, ∀ t h, t.ref.isSome → P t → P (t.add key h)) → Every P A →
    addSystems A ss = .stored A' → Every P A' := by
  intro ss
  induction ss with
  | nil => intro A A' _ _ h e; unfold addSystems at e; injection e with e; rw [← e]; exact h
  | cons s ss ih =>
    intro A A' hnew hadd h e
    obtain ⟨key, gs⟩ := s
    unfold addSystems at e
    cases hg : addGroups key A gs with
    | stored A1 =>
      rw [hg] at e
      exact ih A1 A' (fun k hk => hnew k (List.mem_cons_of_mem _ hk)) (fun k hk => hadd k (List.mem_cons_of_mem _ hk))
        (every_groups (hnew key (by simp)) (hadd key (by simp)) _ _ _ h hg) e
    | exit => rw [hg] at e; cases e
    | hang => rw [hg] at e; cases e
    | crash => rw [hg] at e; cases e

/-- A superfluous word has an entry for one system only. -/
def Lone (t : TA) : Prop := t.ref = none → ∀ k k', k ≠ refKey → k' ≠ refKey → t.get k ≠ none → t.get k' ≠ none → k = k'

theorem lone_new (key : Str) (r h : Option Token) : Lone (TA.add ⟨r, []⟩ key h) := by
  intro _ k k' hk hk' h1 h2
  have : ∀ j, j ≠ refKey → (TA.add ⟨r, []⟩ key h).get j ≠ none → j = key := by
    intro j hj hg
    refine Classical.byContradiction fun hne => hg ?_
    rw [get_add_other hne, get_new hj]
  rw [this k hk h1, this k' hk' h2]

theorem lone_add (key : Str) (t : TA) (h : Option Token) (hr : t.ref.isSome) (_ : Lone t) : Lone (t.add key h) := by
  intro e
  rw [add_ref] at e
  rw [e] at hr; cases hr

/-- Every stored token has an entry for the system. -/
def Has (k : Str) (t : TA) : Prop := t.get k ≠ none

theorem has_new (key : Str) (r h : Option Token) : Has key (TA.add ⟨r, []⟩ key h) := by
  unfold Has
  by_cases e : key = refKey
  · unfold TA.get; rw [if_pos e]; intro c; cases c
  · rw [get_add_same (get_new e)]; intro c; cases c

theorem has_add (key : Str) (t : TA) (h : Option Token) (hr : Has key t) : Has key (t.add key h) := by
  unfold TA.add
  cases hg : t.get key with
  | some x => exact hr
  | none => exact absurd hg hr

/-! ### The report -/

theorem results_rows (S : Setting) (k spk : Str) (A : Alignment) (h : Every (Has k) A) :
    resultsOf (scored S k A) spk =
      ((rowsOf k A).filter fun w => w.1.speaker = spk).map fun w => verdictOf S w.2 := by
  unfold resultsOf scored rowsOf
  unfold Every at h
  generalize segsOf A = as at h ⊢
  induction as with
  | nil => rfl
  | cons a as ih =>
    have ih := ih (fun b hb => h b (by simp [hb]))
    have hj : a.toks.map (judge S k) = (rowsOfToks k a.toks).map (verdictOf S) := by
      have ha := h a (by simp)
      generalize a.toks = ts at ha ⊢
      induction ts with
      | nil => rfl
      | cons t ts iht =>
        have iht := iht (fun x hx => ha x (by simp [hx]))
        unfold rowsOfToks at iht ⊢
        have ht := ha t (by simp)
        cases hg : t.get k with
        | none => exact absurd hg ht
        | some x =>
          rw [List.map_cons, iht, List.filterMap_cons, hg]
          simp only [Option.map_some, List.map_cons]
          unfold judge verdictOf
          rw [hg]
    rw [List.map_cons, List.flatMap_cons, List.filter_append, List.map_append]
    by_cases c : a.seg.speaker = spk
    · rw [List.filter_cons_of_pos (by simp [c]), List.map_cons, List.flatten_cons, ih]
      congr 1
      show a.toks.map (judge S k) = _
      rw [hj, List.filter_eq_self.2]
      · rw [List.map_map]; rfl
      · intro w hw
        obtain ⟨p, _, e⟩ := List.mem_map.1 hw
        rw [← e]; simp [c]
    · rw [List.filter_cons_of_neg (by simp [c]), ih]
      have : ((rowsOfToks k a.toks).map fun p => (a.seg, p)).filter (fun w => decide (w.1.speaker = spk)) = [] := by
        rw [List.filter_eq_nil_iff]
        intro w hw
        obtain ⟨p, _, e⟩ := List.mem_map.1 hw
        rw [← e]; simp [c]
      rw [this]; rfl

theorem howMany_rows (S : Setting) (k spk : Str) (v : Verdict) (A : Alignment) (rows : List Row)
    (h : Every (Has k) A) (hp : (rowsOf k A).Perm rows) :
    howMany v (scored S k A) spk = tallyRows S v spk rows := by
  unfold howMany tallyRows
  rw [results_rows S k spk A h, ← hp.countP_eq]
  generalize rowsOf k A = l
  induction l with
  | nil => rfl
  | cons w l ih =>
    rw [List.countP_cons, ← ih]
    by_cases c : w.1.speaker = spk
    · rw [List.filter_cons_of_pos (by simp [c]), List.map_cons, List.count_cons]
      simp only [c, true_and, beq_iff_eq, decide_eq_true_eq]
    · rw [List.filter_cons_of_neg (by simp [c])]
      simp [c]

end Verif.Store
