import Verif.Valid.Spec
set_option autoImplicit false
namespace Verif.Valid

theorem mem_group {sort : List Obj → List Obj} (hs : Sorts sort) {data : List Obj} {s c p : Nat} {t : Ty} {o : Obj} :
    o ∈ group sort data s c p t ↔ o ∈ data ∧ o.src = s ∧ o.chnl = c ∧ o.spkr = p ∧ o.ty = t := by
  rw [group, (hs.perm _).mem_iff]
  simp [and_assoc]

theorem milli_lt {a b : Int} (ha : Milli a) (hb : Milli b) : a + thr < b ↔ a < b := by
  obtain ⟨k, rfl⟩ := ha
  obtain ⟨m, rfl⟩ := hb
  simp only [thr]; omega

theorem milli_near {a b : Int} (ha : Milli a) (hb : Milli b) : (a - b < thr ∧ b - a < thr) ↔ a = b := by
  obtain ⟨k, rfl⟩ := ha
  obtain ⟨m, rfl⟩ := hb
  simp only [thr]; omega

theorem milli_ge {a b : Int} (ha : Milli a) (hb : Milli b) : a + thr ≥ b ↔ b ≤ a := by
  obtain ⟨k, rfl⟩ := ha
  obtain ⟨m, rfl⟩ := hb
  simp only [thr]; omega

theorem milli_le {a b : Int} (ha : Milli a) (hb : Milli b) : a - thr ≤ b ↔ a ≤ b := by
  obtain ⟨k, rfl⟩ := ha
  obtain ⟨m, rfl⟩ := hb
  simp only [thr]; omega

theorem milli_add {a b : Int} (ha : Milli a) (hb : Milli b) : Milli (a + b) := by
  obtain ⟨k, rfl⟩ := ha
  obtain ⟨m, rfl⟩ := hb
  exact ⟨k + m, by omega⟩

theorem milli_zero : Milli 0 := ⟨0, rfl⟩

theorem lessThan_milli {a b : Int} (ha : Milli a) (hb : Milli b) : lessThan a b = decide (a < b) := by
  simp only [lessThan, milli_lt ha hb]

theorem greaterThan_milli {a b : Int} (ha : Milli a) (hb : Milli b) : greaterThan a b = decide (b < a) := by
  simp only [greaterThan, gt_iff_lt, milli_lt hb ha]

theorem equalTo_milli {a b : Int} (ha : Milli a) (hb : Milli b) : equalTo a b = decide (a = b) := by
  simp only [equalTo, milli_near ha hb]

/-! ## Overlap -/

theorem overlapLoop_iff (l : List Obj) : ∀ (prev : Int), l.Pairwise (fun a b => a.beg ≤ b.beg) →
    (overlapLoop false prev l = true ↔ (∀ a ∈ l, ¬ prev - a.beg > thr) ∧ l.Pairwise (fun a b => ¬ (a.beg + a.dur) - b.beg > thr)) := by
  induction l with
  | nil => intro prev _; simp [overlapLoop]
  | cons o l ih =>
    intro prev hs
    rw [List.pairwise_cons] at hs
    simp only [overlapLoop, Bool.and_eq_true, Bool.not_eq_true', decide_eq_false_iff_not, Bool.false_eq_true, if_false,
      ih _ hs.2, List.mem_cons, forall_eq_or_imp, List.pairwise_cons]
    constructor
    · rintro ⟨h1, h2, h3⟩
      exact ⟨⟨h1, fun a ha => by have := hs.1 a ha; omega⟩, h2, h3⟩
    · rintro ⟨⟨h1, _⟩, h2, h3⟩
      exact ⟨h1, h2, h3⟩

theorem overlapLoop_point (l : List Obj) : ∀ (prev : Int), l.Pairwise (fun a b => a.beg ≤ b.beg) → (∀ a ∈ l, prev ≤ a.beg) →
    overlapLoop true prev l = true := by
  induction l with
  | nil => intro prev _ _; rfl
  | cons o l ih =>
    intro prev hs hp
    rw [List.pairwise_cons] at hs
    have h := hp o (List.mem_cons_self ..)
    simp only [overlapLoop, Bool.and_eq_true, Bool.not_eq_true', decide_eq_false_iff_not, if_true]
    exact ⟨by simp only [thr]; omega, ih _ hs.2 hs.1⟩

/-- Overlap of more than the tolerance. -/
def Clash (a b : Obj) : Prop := a.beg + thr < b.beg + b.dur ∧ b.beg + thr < a.beg + a.dur

theorem Clash.symm {a b : Obj} (h : Clash a b) : Clash b a := ⟨h.2, h.1⟩

theorem overlap_group {sort : List Obj → List Obj} (hs : Sorts sort) (l : List Obj) (hb : ∀ o ∈ l, 0 ≤ o.beg) (hd : ∀ o ∈ l, thr < o.dur) :
    overlapLoop false 0 (sort l) = true ↔ l.Pairwise (fun a b => ¬ Clash a b) := by
  have hsym : ∀ {a b : Obj}, (¬ Clash a b) → ¬ Clash b a := fun h h' => h h'.symm
  rw [overlapLoop_iff _ _ (hs.sorted l), ← (hs.perm l).pairwise_iff hsym]
  constructor
  · rintro ⟨_, h⟩
    refine h.imp ?_
    rintro a b h1 ⟨_, h2⟩
    omega
  · intro h
    refine ⟨fun a ha => by have := hb a ((hs.perm l).mem_iff.1 ha); simp only [thr]; omega, ?_⟩
    refine List.Pairwise.imp_of_mem ?_ (h.and (hs.sorted l))
    rintro a b _ hbm ⟨h1, h2⟩ h3
    have := hd b ((hs.perm l).mem_iff.1 hbm)
    exact h1 ⟨by omega, by omega⟩

/-! ## Coverage -/

theorem findWord_iff (l : List Obj) (b e : Int) :
    findWord l b e = true ↔ ∃ t ∈ l, t.beg + thr ≥ b ∧ t.beg + t.dur - thr ≤ e := by
  simp [findWord]

theorem findType_iff (l : List Obj) (b e : Int) :
    findType l b e = true ↔ ∃ m ∈ l, b + thr ≥ m.beg ∧ e - thr ≤ m.beg + m.dur := by
  simp [findType]

/-- What one object does to `findPartial`. -/
def Crosses (b e : Int) (o : Obj) : Prop :=
  ¬ (lessThan e o.beg || equalTo e o.beg) = true ∧ ¬ (greaterThan b (o.beg + o.dur) || equalTo b (o.beg + o.dur)) = true ∧
    ¬ ((greaterThan b o.beg || equalTo b o.beg) && (lessThan e (o.beg + o.dur) || equalTo e (o.beg + o.dur))) = true

theorem findPartial_iff (l : List Obj) (b e : Int) : findPartial l b e = true ↔ ∃ o ∈ l, Crosses b e o := by
  induction l with
  | nil => simp [findPartial]
  | cons o l ih =>
    simp only [findPartial, List.mem_cons, exists_eq_or_imp, Crosses]
    split
    · rename_i h; simp only [h, ih, Crosses, not_true_eq_false, false_and, false_or]
    · rename_i h
      split
      · rename_i h2; simp only [h2, ih, Crosses, not_true_eq_false, false_and, and_false, false_or]
      · rename_i h2
        split
        · rename_i h3; simp only [h3, ih, Crosses, not_true_eq_false, and_false, false_or]
        · rename_i h3; simp only [true_iff]; exact Or.inl ⟨h, h2, h3⟩

theorem crosses_milli {b e : Int} {o : Obj} (hb : Milli b) (he : Milli e) (ho : Milli o.beg) (hd : Milli o.dur) :
    Crosses b e o ↔ (b < o.beg + o.dur ∧ o.beg < e) ∧ ¬ (o.beg ≤ b ∧ e ≤ o.beg + o.dur) := by
  have hf := milli_add ho hd
  simp only [Crosses, lessThan_milli he ho, equalTo_milli he ho, greaterThan_milli hb hf, equalTo_milli hb hf,
    greaterThan_milli hb ho, equalTo_milli hb ho, lessThan_milli he hf, equalTo_milli he hf, Bool.or_eq_true, Bool.and_eq_true,
    decide_eq_true_eq]
  omega

/-! ## Interruption points -/

/-- The two things of a mark that never change. -/
def Mark.key (m : Mark) : Int × Sub := (m.time, m.sub)

theorem setDone_key (i : Nat) (l : List Mark) : (setDone i l).map Mark.key = l.map Mark.key := by
  apply List.ext_getElem?
  intro j
  simp only [setDone, List.getElem?_map, List.getElem?_modify]
  split
  · cases l[j]? <;> rfl
  · cases l[j]? <;> rfl

theorem mem_setDone {i : Nat} {l : List Mark} {m : Mark} (h : m ∈ setDone i l) :
    m ∈ l ∨ ∃ a, l[i]? = some a ∧ m = { a with done := true } := by
  obtain ⟨j, hj⟩ := List.mem_iff_getElem?.1 h
  simp only [setDone, List.getElem?_modify] at hj
  split at hj
  · rename_i hij
    subst hij
    cases hl : l[i]? with
    | none => rw [hl] at hj; simp at hj
    | some a =>
      rw [hl] at hj
      right
      exact ⟨a, rfl, by simpa using hj.symm⟩
  · left
    cases hl : l[j]? with
    | none => rw [hl] at hj; simp at hj
    | some a =>
      rw [hl] at hj
      have : a = m := by simpa using hj
      subst this
      exact List.mem_of_getElem? hl

/-- Within the tolerance. -/
def Near (a b : Int) : Prop := a - b < thr ∧ b - a < thr

theorem findObject_spec {t : Int} {l : List Mark} {i : Nat} (h : findObject t l = some i) :
    ∃ m, l[i]? = some m ∧ Near m.time t := by
  rw [findObject, List.findIdx?_eq_some_iff_getElem] at h
  obtain ⟨hi, h, _⟩ := h
  simp only [Bool.and_eq_true, decide_eq_true_eq] at h
  exact ⟨l[i], by simp, h.1⟩

/-- Invariant of the loops: what is marked has a reason. -/
def Just (P : Int → Sub → Prop) (l : List Mark) : Prop := ∀ m ∈ l, m.done = true → P m.time m.sub

theorem Just.set {P : Int → Sub → Prop} {l : List Mark} (h : Just P l) {i : Nat} (hi : ∀ a, l[i]? = some a → P a.time a.sub) :
    Just P (setDone i l) := by
  intro m hm hd
  rcases mem_setDone hm with hm | ⟨a, ha, rfl⟩
  · exact h m hm hd
  · exact hi a ha

theorem fillerLoop_spec (P : Int → Sub → Prop) (t : Int) (n : Nat) : ∀ (fs : List Mark) (found : Bool), Just P fs →
    (∀ m ∈ fs, Near m.time t → P m.time m.sub) →
    Just P (fillerLoop t n fs found).1 ∧ (fillerLoop t n fs found).1.map Mark.key = fs.map Mark.key ∧
      ((fillerLoop t n fs found).2 = true → found = true ∨ ∃ k ∈ fs.map Mark.key, Near k.1 t) := by
  induction n with
  | zero => intro fs found hj _; exact ⟨hj, rfl, Or.inl⟩
  | succ n ih =>
    intro fs found hj hP
    rw [fillerLoop]
    cases hf : findObject t fs with
    | none => exact ih fs found hj hP
    | some k =>
      obtain ⟨m, hm, hn⟩ := findObject_spec hf
      have hmem := List.mem_of_getElem? hm
      have hP' : ∀ m ∈ setDone k fs, Near m.time t → P m.time m.sub := by
        intro m' hm' hn'
        rcases mem_setDone hm' with h | ⟨a, ha, rfl⟩
        · exact hP m' h hn'
        · exact hP a (List.mem_of_getElem? ha) hn'
      obtain ⟨h1, h2, h3⟩ := ih (setDone k fs) true (hj.set (fun a ha => by
        rw [hm] at ha
        cases ha
        exact hP m hmem hn)) hP'
      exact ⟨h1, by rw [h2, setDone_key], fun _ => Or.inr ⟨m.key, List.mem_map_of_mem hmem, hn⟩⟩

/-- Why an edit may be marked. -/
def EditWhy (ipK fK : List (Int × Sub)) (t : Int) : Prop :=
  ∃ k ∈ ipK, Near k.1 t ∧ (k.2 = .edit ∨ (k.2 = .editFiller ∧ ∃ f ∈ fK, Near f.1 t))

/-- Why a point may be marked. -/
def IpWhy (eK fK : List (Int × Sub)) (t : Int) (s : Sub) : Prop :=
  (s = .edit ∧ ∃ e ∈ eK, Near t e.1) ∨ (s = .filler ∧ ∃ f ∈ fK, Near t f.1) ∨
    (s = .editFiller ∧ ∃ e ∈ eK, Near t e.1 ∧ ∃ f ∈ fK, Near f.1 e.1)

/-- Why a filler may be marked. -/
def FillWhy (eK ipK : List (Int × Sub)) (t : Int) : Prop :=
  (∃ k ∈ ipK, Near k.1 t ∧ k.2 = .filler) ∨ ∃ e ∈ eK, Near t e.1 ∧ ∃ k ∈ ipK, Near k.1 e.1 ∧ k.2 = .editFiller

theorem editLoop_spec (eK ipK fK : List (Int × Sub)) (es : List Mark) : ∀ (ips fs : List Mark),
    (∀ e ∈ es, e.key ∈ eK ∧ e.done = false) → ips.map Mark.key = ipK → fs.map Mark.key = fK →
    Just (IpWhy eK fK) ips → Just (fun t _ => FillWhy eK ipK t) fs →
    (editLoop es ips fs).1.map Mark.key = es.map Mark.key ∧ (editLoop es ips fs).2.1.map Mark.key = ipK ∧
    (editLoop es ips fs).2.2.map Mark.key = fK ∧ Just (fun t _ => EditWhy ipK fK t) (editLoop es ips fs).1 ∧
    Just (IpWhy eK fK) (editLoop es ips fs).2.1 ∧ Just (fun t _ => FillWhy eK ipK t) (editLoop es ips fs).2.2 := by
  induction es with
  | nil =>
    intro ips fs _ hi hf hji hjf
    exact ⟨rfl, hi, hf, (fun m hm => nomatch hm), hji, hjf⟩
  | cons e es ih =>
    intro ips fs he hi hf hji hjf
    have he1 := he e (List.mem_cons_self ..)
    have he2 : ∀ e ∈ es, e.key ∈ eK ∧ e.done = false := fun x hx => he x (List.mem_cons_of_mem _ hx)
    have key : ∀ (e' : Mark) (ips' fs' : List Mark), e'.key = e.key → (e'.done = true → EditWhy ipK fK e'.time) →
        ips'.map Mark.key = ipK → fs'.map Mark.key = fK → Just (IpWhy eK fK) ips' → Just (fun t _ => FillWhy eK ipK t) fs' →
        (e' :: (editLoop es ips' fs').1).map Mark.key = (e :: es).map Mark.key ∧ (editLoop es ips' fs').2.1.map Mark.key = ipK ∧
        (editLoop es ips' fs').2.2.map Mark.key = fK ∧ Just (fun t _ => EditWhy ipK fK t) (e' :: (editLoop es ips' fs').1) ∧
        Just (IpWhy eK fK) (editLoop es ips' fs').2.1 ∧ Just (fun t _ => FillWhy eK ipK t) (editLoop es ips' fs').2.2 := by
      intro e' ips' fs' hk hw hi' hf' hji' hjf'
      obtain ⟨h1, h2, h3, h4, h5, h6⟩ := ih ips' fs' he2 hi' hf' hji' hjf'
      refine ⟨by simp only [List.map_cons, hk, h1], h2, h3, ?_, h5, h6⟩
      intro m hm hd
      rcases List.mem_cons.1 hm with rfl | hm
      · exact hw hd
      · exact h4 m hm hd
    have keep : (e.done = true → EditWhy ipK fK e.time) := fun h => by rw [he1.2] at h; cases h
    rw [editLoop]
    cases hfo : findObject e.time ips with
    | none => exact key e ips fs rfl keep hi hf hji hjf
    | some i =>
      obtain ⟨m, hm, hn⟩ := findObject_spec hfo
      have hmem : m.key ∈ ipK := by rw [← hi]; exact List.mem_map_of_mem (List.mem_of_getElem? hm)
      have hn' : Near e.time m.time := ⟨hn.2, hn.1⟩
      simp only [hm, Option.map_some]
      have hset : ∀ (_ : IpWhy eK fK m.time m.sub), Just (IpWhy eK fK) (setDone i ips) := fun hw =>
        hji.set (fun a ha => by rw [hm] at ha; cases ha; exact hw)
      cases hsub : m.sub with
      | edit =>
        exact key { e with done := true } (setDone i ips) fs rfl (fun _ => ⟨m.key, hmem, hn, Or.inl hsub⟩)
          (by rw [setDone_key, hi]) hf (hset (Or.inl ⟨hsub, e.key, he1.1, hn⟩)) hjf
      | filler => exact key e ips fs rfl keep hi hf hji hjf
      | other => exact key e ips fs rfl keep hi hf hji hjf
      | editFiller =>
        obtain ⟨h1, h2, h3⟩ := fillerLoop_spec (fun t _ => FillWhy eK ipK t) e.time fs.length fs false hjf
          (fun f _ hfn => Or.inr ⟨e.key, he1.1, hfn, m.key, hmem, hn, hsub⟩)
        cases hp : (fillerLoop e.time fs.length fs false).2 with
        | true =>
          simp only [if_true]
          rcases h3 hp with h3 | ⟨f, hf1, hf2⟩
          · cases h3
          · rw [hf] at hf1
            exact key { e with done := true } (setDone i ips) _ rfl
              (fun _ => ⟨m.key, hmem, hn, Or.inr ⟨hsub, f, hf1, hf2⟩⟩) (by rw [setDone_key, hi]) (by rw [h2, hf])
              (hset (Or.inr (Or.inr ⟨hsub, e.key, he1.1, hn, f, hf1, hf2⟩))) h1
        | false =>
          simp only [Bool.false_eq_true, if_false]
          exact key e ips _ rfl keep hi (by rw [h2, hf]) hji h1

theorem fillLoop_spec (eK ipK fK : List (Int × Sub)) (fs : List Mark) : ∀ (ips : List Mark),
    (∀ f ∈ fs, f.key ∈ fK) → ips.map Mark.key = ipK → Just (IpWhy eK fK) ips → Just (fun t _ => FillWhy eK ipK t) fs →
    (fillLoop fs ips).1.map Mark.key = fs.map Mark.key ∧ (fillLoop fs ips).2.map Mark.key = ipK ∧
    Just (fun t _ => FillWhy eK ipK t) (fillLoop fs ips).1 ∧ Just (IpWhy eK fK) (fillLoop fs ips).2 := by
  induction fs with
  | nil => intro ips _ hi hji hjf; exact ⟨rfl, hi, hjf, hji⟩
  | cons f fs ih =>
    intro ips hfk hi hji hjf
    have hf1 := hfk f (List.mem_cons_self ..)
    have hf2 : ∀ x ∈ fs, x.key ∈ fK := fun x hx => hfk x (List.mem_cons_of_mem _ hx)
    have hjf2 : Just (fun t _ => FillWhy eK ipK t) fs := fun m hm => hjf m (List.mem_cons_of_mem _ hm)
    have key : ∀ (f' : Mark) (ips' : List Mark), f'.key = f.key → (f'.done = true → FillWhy eK ipK f'.time) →
        ips'.map Mark.key = ipK → Just (IpWhy eK fK) ips' →
        (f' :: (fillLoop fs ips').1).map Mark.key = (f :: fs).map Mark.key ∧ (fillLoop fs ips').2.map Mark.key = ipK ∧
        Just (fun t _ => FillWhy eK ipK t) (f' :: (fillLoop fs ips').1) ∧ Just (IpWhy eK fK) (fillLoop fs ips').2 := by
      intro f' ips' hk hw hi' hji'
      obtain ⟨h1, h2, h3, h4⟩ := ih ips' hf2 hi' hji' hjf2
      refine ⟨by simp only [List.map_cons, hk, h1], h2, ?_, h4⟩
      intro m hm hd
      rcases List.mem_cons.1 hm with rfl | hm
      · exact hw hd
      · exact h3 m hm hd
    have keep : f.done = true → FillWhy eK ipK f.time := hjf f (List.mem_cons_self ..)
    rw [fillLoop]
    cases hfo : findObject f.time ips with
    | none => exact key f ips rfl keep hi hji
    | some i =>
      obtain ⟨m, hm, hn⟩ := findObject_spec hfo
      have hmem : m.key ∈ ipK := by rw [← hi]; exact List.mem_map_of_mem (List.mem_of_getElem? hm)
      simp only [hm, Option.map_some]
      cases hsub : m.sub with
      | filler =>
        exact key { f with done := true } (setDone i ips) rfl (fun _ => Or.inl ⟨m.key, hmem, hn, hsub⟩)
          (by rw [setDone_key, hi]) (hji.set (fun a ha => by
            rw [hm] at ha
            cases ha
            exact Or.inr (Or.inl ⟨hsub, f.key, hf1, hn⟩)))
      | edit => exact key f ips rfl keep hi hji
      | editFiller => exact key f ips rfl keep hi hji
      | other => exact key f ips rfl keep hi hji

/-- What a unit that passes has. -/
theorem checkUnit_sound {edits fillers ips : List Obj} {u : Int × Int} {next : Option Int}
    (h : checkUnit edits fillers ips u next = true) :
    (∀ k ∈ (editsIn u.1 u.2 edits).map Mark.key,
      EditWhy ((ipsIn u.1 u.2 next ips).map Mark.key) ((fillersIn u.1 u.2 fillers).map Mark.key) k.1) ∧
    (∀ k ∈ (fillersIn u.1 u.2 fillers).map Mark.key,
      FillWhy ((editsIn u.1 u.2 edits).map Mark.key) ((ipsIn u.1 u.2 next ips).map Mark.key) k.1) ∧
    (∀ k ∈ (ipsIn u.1 u.2 next ips).map Mark.key,
      IpWhy ((editsIn u.1 u.2 edits).map Mark.key) ((fillersIn u.1 u.2 fillers).map Mark.key) k.1 k.2) := by
  rw [checkUnit] at h
  simp only [Bool.and_eq_true, List.all_eq_true] at h
  have n1 : ∀ e ∈ editsIn u.1 u.2 edits, e.done = false := by
    intro e he
    obtain ⟨o, _, rfl⟩ := List.mem_map.1 he
    rfl
  have n2 : ∀ e ∈ fillersIn u.1 u.2 fillers, e.done = false := by
    intro e he
    obtain ⟨o, _, rfl⟩ := List.mem_map.1 he
    rfl
  have n3 : ∀ e ∈ ipsIn u.1 u.2 next ips, e.done = false := by
    intro e he
    obtain ⟨o, _, rfl⟩ := List.mem_map.1 he
    rfl
  obtain ⟨a1, a2, a3, a4, a5, a6⟩ := editLoop_spec ((editsIn u.1 u.2 edits).map Mark.key) ((ipsIn u.1 u.2 next ips).map Mark.key)
    ((fillersIn u.1 u.2 fillers).map Mark.key) (editsIn u.1 u.2 edits) (ipsIn u.1 u.2 next ips) (fillersIn u.1 u.2 fillers)
    (fun e he => ⟨List.mem_map_of_mem he, n1 e he⟩) rfl rfl (fun m hm hd => by rw [n3 m hm] at hd; cases hd)
    (fun m hm hd => by rw [n2 m hm] at hd; cases hd)
  obtain ⟨b1, b2, b3, b4⟩ := fillLoop_spec ((editsIn u.1 u.2 edits).map Mark.key) ((ipsIn u.1 u.2 next ips).map Mark.key)
    ((fillersIn u.1 u.2 fillers).map Mark.key) _ _ (fun f hf => by rw [← a3]; exact List.mem_map_of_mem hf) a2 a5 a6
  refine ⟨fun k hk => ?_, fun k hk => ?_, fun k hk => ?_⟩
  · rw [← a1] at hk
    obtain ⟨m, hm, rfl⟩ := List.mem_map.1 hk
    exact a4 m hm (h.1.1 m hm)
  · rw [← a3, ← b1] at hk
    obtain ⟨m, hm, rfl⟩ := List.mem_map.1 hk
    exact b3 m hm (h.1.2 m hm)
  · rw [← b2] at hk
    obtain ⟨m, hm, rfl⟩ := List.mem_map.1 hk
    exact b4 m hm (h.2 m hm)

theorem checkUnits_at {edits fillers ips : List Obj} (us : List (Int × Int)) (h : checkUnits edits fillers ips us = true)
    (i : Nat) (u : Int × Int) (hu : us[i]? = some u) : checkUnit edits fillers ips u (us[i + 1]?.map Prod.fst) = true := by
  induction us generalizing i with
  | nil => simp at hu
  | cons v us ih =>
    simp only [checkUnits, Bool.and_eq_true] at h
    cases i with
    | zero =>
      simp only [List.getElem?_cons_zero, Option.some.injEq] at hu
      subst hu
      rw [List.head?_eq_getElem?] at h
      simpa using h.1
    | succ i => exact ih h.2 i (by simpa using hu)

end Verif.Valid
