import Verif.Rttm.Spec
set_option autoImplicit false
namespace Verif.Rttm

theorem nodup_eraseDups {α : Type} [BEq α] [LawfulBEq α] : ∀ (n : Nat) (l : List α), l.length ≤ n → l.eraseDups.Nodup
  | _, [], _ => by simp
  | 0, a :: l, h => by simp at h
  | n + 1, a :: l, h => by
    rw [List.eraseDups_cons, List.nodup_cons]
    refine ⟨?_, nodup_eraseDups n _ ?_⟩
    · rw [List.mem_eraseDups, List.mem_filter]
      simp
    · have := List.length_filter_le (fun b => !b == a) l
      simp only [List.length_cons] at h
      omega

/-! ## Smoothing -/

theorem merge_beg (a b : Seg) : (merge a b).beg = a.beg := rfl

theorem merge_fin (a b : Seg) : (merge a b).fin = if a.fin < b.fin then b.fin else a.fin := by
  have : (merge a b).fin = a.beg + ((if a.fin < b.fin then b.fin else a.fin) - a.beg) := rfl
  rw [this]; omega

theorem fin_ge {a : Seg} (h : 0 ≤ a.dur) : a.beg ≤ a.fin := by simp only [Seg.fin]; omega

theorem dur_nonneg {a : Seg} (h : a.beg ≤ a.fin) : 0 ≤ a.dur := by simp only [Seg.fin] at h; omega

theorem merge_dur {a b : Seg} (ha : 0 ≤ a.dur) : 0 ≤ (merge a b).dur := by
  apply dur_nonneg; rw [merge_fin, merge_beg]; have := fin_ge ha; split <;> omega

theorem smoothFrom_cov (th : Int) (x : Int) (l : List Seg) : ∀ (a : Seg),
    (a :: l).Pairwise (fun a b => a.beg ≤ b.beg) → (∀ s ∈ a :: l, 0 ≤ s.dur) →
    (Cov (smoothFrom th a l) x ↔ Cov (a :: l) x ∨ InPause th (a :: l) x) := by
  induction l with
  | nil =>
    intro a hs hd
    have h0 := fin_ge (hd a (by simp))
    simp only [smoothFrom]
    constructor
    · exact Or.inl
    · rintro (h | ⟨p, hp, q, hq, h1, h2, _⟩)
      · exact h
      · simp only [List.mem_singleton] at hp hq
        subst hp; subst hq; omega
  | cons b l ih =>
    intro a hs hd
    have ha := fin_ge (hd a (by simp))
    have hb := fin_ge (hd b (by simp))
    rw [List.pairwise_cons] at hs
    have hab := hs.1 b (by simp)
    simp only [smoothFrom]
    split
    · rename_i hc
      have hs' : (merge a b :: l).Pairwise (fun a b => a.beg ≤ b.beg) := by
        rw [List.pairwise_cons]
        exact ⟨fun c hc => hs.1 c (by simp [hc]), (List.pairwise_cons.1 hs.2).2⟩
      have hd' : ∀ s ∈ merge a b :: l, 0 ≤ s.dur := by
        intro s hm
        rcases List.mem_cons.1 hm with rfl | hm
        · exact merge_dur (hd a (by simp))
        · exact hd s (by simp [hm])
      rw [ih _ hs' hd']
      have hf := merge_fin a b
      have hg := merge_beg a b
      constructor
      · rintro (⟨p, hp, h1, h2⟩ | ⟨p, hp, q, hq, h1, h2, h3⟩)
        · rcases List.mem_cons.1 hp with rfl | hp
          · rw [hg] at h1; rw [hf] at h2
            by_cases h4 : x < a.fin
            · exact Or.inl ⟨a, by simp, h1, h4⟩
            · by_cases h5 : x < b.beg
              · exact Or.inr ⟨a, by simp, b, by simp, by omega, h5, by omega⟩
              · refine Or.inl ⟨b, by simp, by omega, ?_⟩
                split at h2 <;> omega
          · exact Or.inl ⟨p, by simp [hp], h1, h2⟩
        · have hq' : ∃ q' ∈ a :: b :: l, q'.beg = q.beg := by
            rcases List.mem_cons.1 hq with rfl | hq
            · exact ⟨a, by simp, rfl⟩
            · exact ⟨q, by simp [hq], rfl⟩
          have hp' : ∃ p' ∈ a :: b :: l, p'.fin = p.fin := by
            rcases List.mem_cons.1 hp with rfl | hp
            · rw [hf]; split
              · exact ⟨b, by simp, rfl⟩
              · exact ⟨a, by simp, rfl⟩
            · exact ⟨p, by simp [hp], rfl⟩
          obtain ⟨q', hq1, hq2⟩ := hq'
          obtain ⟨p', hp1, hp2⟩ := hp'
          exact Or.inr ⟨p', hp1, q', hq1, by omega, by omega, by omega⟩
      · have key : a.beg ≤ x → x < (merge a b).fin → Cov (merge a b :: l) x := fun h1 h2 => ⟨merge a b, by simp, h1, h2⟩
        have hfa : a.fin ≤ (merge a b).fin := by rw [hf]; split <;> omega
        have hfb : b.fin ≤ (merge a b).fin := by rw [hf]; split <;> omega
        rintro (⟨p, hp, h1, h2⟩ | ⟨p, hp, q, hq, h1, h2, h3⟩)
        · simp only [List.mem_cons] at hp
          rcases hp with rfl | rfl | hp
          · exact Or.inl (key h1 (by omega))
          · exact Or.inl (key (by omega) (by omega))
          · exact Or.inl ⟨p, by simp [hp], h1, h2⟩
        · have hpx : a.beg ≤ x := by
            have h4 : a.beg ≤ p.beg := by
              rcases List.mem_cons.1 hp with rfl | hp
              · exact Int.le_refl _
              · exact hs.1 p hp
            have := fin_ge (hd p hp)
            omega
          by_cases hxm : x < (merge a b).fin
          · exact Or.inl (key hpx hxm)
          · have hp' : ∃ p' ∈ merge a b :: l, p'.fin ≤ x ∧ p.fin ≤ p'.fin := by
              simp only [List.mem_cons] at hp
              rcases hp with rfl | rfl | hp
              · exact ⟨merge p b, by simp, by omega, by omega⟩
              · exact ⟨merge a p, by simp, by omega, by omega⟩
              · exact ⟨p, by simp [hp], h1, Int.le_refl _⟩
            obtain ⟨p', hp1, hp2, hp3⟩ := hp'
            simp only [List.mem_cons] at hq
            rcases hq with rfl | rfl | hq
            · omega
            · omega
            · exact Or.inr ⟨p', hp1, q, by simp [hq], hp2, h2, by omega⟩
    · rename_i hc
      have hb' := ih b hs.2 (fun s hm => hd s (by simp [hm]))
      have e : Cov (a :: smoothFrom th b l) x ↔ (a.beg ≤ x ∧ x < a.fin) ∨ Cov (smoothFrom th b l) x := by
        constructor
        · rintro ⟨p, hp, h⟩
          rcases List.mem_cons.1 hp with rfl | hp
          · exact Or.inl h
          · exact Or.inr ⟨p, hp, h⟩
        · rintro (h | ⟨p, hp, h⟩)
          · exact ⟨a, by simp, h⟩
          · exact ⟨p, by simp [hp], h⟩
      rw [e, hb']
      constructor
      · rintro (h | ⟨p, hp, h⟩ | ⟨p, hp, q, hq, h⟩)
        · exact Or.inl ⟨a, by simp, h⟩
        · exact Or.inl ⟨p, by simp only [List.mem_cons] at hp ⊢; exact Or.inr hp, h⟩
        · refine Or.inr ⟨p, ?_, q, ?_, h⟩
          · simp only [List.mem_cons] at hp ⊢; exact Or.inr hp
          · simp only [List.mem_cons] at hq ⊢; exact Or.inr hq
      · rintro (⟨p, hp, h⟩ | ⟨p, hp, q, hq, h1, h2, h3⟩)
        · rcases List.mem_cons.1 hp with rfl | hp
          · exact Or.inl h
          · exact Or.inr (Or.inl ⟨p, hp, h⟩)
        · have hq' : q ∈ b :: l := by
            rcases List.mem_cons.1 hq with rfl | hq
            · have h4 : q.beg ≤ p.beg := by
                rcases List.mem_cons.1 hp with rfl | hp
                · exact Int.le_refl _
                · exact hs.1 p hp
              have := fin_ge (hd p hp)
              omega
            · exact hq
          have hqb : b.beg ≤ q.beg := by
            rcases List.mem_cons.1 hq' with rfl | h4
            · exact Int.le_refl _
            · exact (List.pairwise_cons.1 hs.2).1 q h4
          have hp' : p ∈ b :: l := by
            rcases List.mem_cons.1 hp with rfl | hp
            · omega
            · exact hp
          exact Or.inr (Or.inr ⟨p, hp', q, hq', h1, h2, h3⟩)

theorem smoothFrom_beg (th : Int) (l : List Seg) : ∀ (a : Seg), (a :: l).Pairwise (fun a b => a.beg ≤ b.beg) →
    ∀ s ∈ smoothFrom th a l, a.beg ≤ s.beg := by
  induction l with
  | nil => intro a _ s hs; simp only [smoothFrom, List.mem_singleton] at hs; subst hs; exact Int.le_refl _
  | cons b l ih =>
    intro a hp s hs
    rw [List.pairwise_cons] at hp
    simp only [smoothFrom] at hs
    split at hs
    · have := ih (merge a b) (by
        rw [List.pairwise_cons]
        exact ⟨fun c hc => hp.1 c (by simp [hc]), (List.pairwise_cons.1 hp.2).2⟩) s hs
      exact this
    · rcases List.mem_cons.1 hs with rfl | hs
      · exact Int.le_refl _
      · have := ih b hp.2 s hs
        have := hp.1 b (by simp)
        omega

theorem smoothFrom_sep (th : Int) (l : List Seg) : ∀ (a : Seg), (a :: l).Pairwise (fun a b => a.beg ≤ b.beg) →
    (smoothFrom th a l).Pairwise (fun a b => a.fin + th < b.beg) := by
  induction l with
  | nil => intro a _; simp [smoothFrom]
  | cons b l ih =>
    intro a hp
    rw [List.pairwise_cons] at hp
    simp only [smoothFrom]
    split
    · exact ih (merge a b) (by
        rw [List.pairwise_cons]
        exact ⟨fun c hc => hp.1 c (by simp [hc]), (List.pairwise_cons.1 hp.2).2⟩)
    · rename_i h
      rw [List.pairwise_cons]
      refine ⟨fun s hs => ?_, ih b hp.2⟩
      have := smoothFrom_beg th l b hp.2 s hs
      omega

theorem smoothFrom_bounds (th : Int) (l : List Seg) : ∀ (a : Seg), ∀ s ∈ smoothFrom th a l,
    (∃ p ∈ a :: l, s.beg = p.beg) ∧ ∃ q ∈ a :: l, s.fin = q.fin := by
  induction l with
  | nil =>
    intro a s hs
    simp only [smoothFrom, List.mem_singleton] at hs
    subst hs; exact ⟨⟨s, by simp, rfl⟩, ⟨s, by simp, rfl⟩⟩
  | cons b l ih =>
    intro a s hs
    simp only [smoothFrom] at hs
    split at hs
    · obtain ⟨⟨p, hp, e1⟩, ⟨q, hq, e2⟩⟩ := ih _ s hs
      constructor
      · rcases List.mem_cons.1 hp with rfl | hp
        · exact ⟨a, by simp, e1⟩
        · exact ⟨p, by simp [hp], e1⟩
      · rcases List.mem_cons.1 hq with rfl | hq
        · rw [merge_fin] at e2
          split at e2
          · exact ⟨b, by simp, e2⟩
          · exact ⟨a, by simp, e2⟩
        · exact ⟨q, by simp [hq], e2⟩
    · rcases List.mem_cons.1 hs with rfl | hs
      · exact ⟨⟨s, by simp, rfl⟩, ⟨s, by simp, rfl⟩⟩
      · obtain ⟨⟨p, hp, e1⟩, ⟨q, hq, e2⟩⟩ := ih b s hs
        exact ⟨⟨p, List.mem_cons_of_mem _ hp, e1⟩, ⟨q, List.mem_cons_of_mem _ hq, e2⟩⟩

theorem smoothFrom_contains (th : Int) (l : List Seg) : ∀ (a : Seg), (a :: l).Pairwise (fun a b => a.beg ≤ b.beg) →
    ∀ p ∈ a :: l, ∃ s ∈ smoothFrom th a l, s.beg ≤ p.beg ∧ p.fin ≤ s.fin := by
  induction l with
  | nil => intro a _ p hp; exact ⟨p, by simpa [smoothFrom] using hp, Int.le_refl _, Int.le_refl _⟩
  | cons b l ih =>
    intro a hp p hm
    rw [List.pairwise_cons] at hp
    simp only [smoothFrom]
    split
    · have ih' := ih (merge a b) (by
        rw [List.pairwise_cons]
        exact ⟨fun c hc => hp.1 c (by simp [hc]), (List.pairwise_cons.1 hp.2).2⟩)
      have hab := hp.1 b (by simp)
      simp only [List.mem_cons] at hm
      rcases hm with rfl | rfl | hm
      · obtain ⟨s, hs, h1, h2⟩ := ih' (merge p b) (by simp)
        rw [merge_beg] at h1; rw [merge_fin] at h2
        exact ⟨s, hs, h1, by split at h2 <;> omega⟩
      · obtain ⟨s, hs, h1, h2⟩ := ih' (merge a p) (by simp)
        rw [merge_beg] at h1; rw [merge_fin] at h2
        exact ⟨s, hs, by omega, by split at h2 <;> omega⟩
      · exact ih' p (by simp [hm])
    · rcases List.mem_cons.1 hm with rfl | hm
      · exact ⟨p, by simp, Int.le_refl _, Int.le_refl _⟩
      · obtain ⟨s, hs, h⟩ := ih b hp.2 p hm
        exact ⟨s, by simp [hs], h⟩

theorem smoothLines_seg (th : Int) (l : List Line) : ∀ (a : Line),
    (smoothLines th a l).map Line.seg = smoothFrom th a.seg (l.map Line.seg) := by
  induction l with
  | nil => intro a; simp [smoothLines, smoothFrom]
  | cons b l ih =>
    intro a
    simp only [smoothLines, smoothFrom, List.map_cons]
    split
    · rw [ih]
    · rw [List.map_cons, ih]

theorem smoothLines_fields (th : Int) (l : List Line) : ∀ (a : Line), ∀ s ∈ smoothLines th a l,
    ∃ p ∈ a :: l, s.file = p.file ∧ s.chnl = p.chnl ∧ s.spkr = p.spkr := by
  induction l with
  | nil => intro a s hs; exact ⟨a, by simp, by simp only [smoothLines, List.mem_singleton] at hs; subst hs; exact ⟨rfl, rfl, rfl⟩⟩
  | cons b l ih =>
    intro a s hs
    simp only [smoothLines] at hs
    split at hs
    · obtain ⟨p, hp, e⟩ := ih _ s hs
      rcases List.mem_cons.1 hp with rfl | hp
      · exact ⟨a, by simp, e⟩
      · exact ⟨p, by simp [hp], e⟩
    · rcases List.mem_cons.1 hs with rfl | hs
      · exact ⟨s, by simp, rfl, rfl, rfl⟩
      · obtain ⟨p, hp, e⟩ := ih b s hs
        exact ⟨p, List.mem_cons_of_mem _ hp, e⟩

/-- The lines of one key. -/
def part (sort : List Line → List Line) (th : Int) (ls : List Line) (k : Nat × Nat) : List Line :=
  match sort (ls.filter (fun l => l.key == k)) with
  | [] => []
  | a :: l => smoothLines th a l

theorem part_key {sort : List Line → List Line} (h : Sorts sort) (th : Int) (ls : List Line) (k : Nat × Nat) :
    ∀ s ∈ part sort th ls k, ∃ p ∈ ls, p.key = k ∧ s.file = p.file ∧ s.chnl = p.chnl ∧ s.spkr = p.spkr := by
  intro s hs
  unfold part at hs
  split at hs
  · cases hs
  · rename_i a l e
    obtain ⟨p, hp, he⟩ := smoothLines_fields th l a s hs
    rw [← e] at hp
    have := (h.perm _).mem_iff.1 hp
    simp only [List.mem_filter, beq_iff_eq] at this
    exact ⟨p, this.1, this.2, he⟩

theorem filter_flatMap_part {sort : List Line → List Line} (h : Sorts sort) (th : Int) (ls : List Line) (k : Nat × Nat) (ks : List (Nat × Nat))
    (hn : ks.Nodup) :
    (ks.flatMap (part sort th ls)).filter (fun l => l.key == k) = if k ∈ ks then part sort th ls k else [] := by
  induction ks with
  | nil => simp
  | cons j ks ih =>
    rw [List.nodup_cons] at hn
    rw [List.flatMap_cons, List.filter_append, ih hn.2]
    have key : ∀ s ∈ part sort th ls j, s.key = j := by
      intro s hs
      obtain ⟨p, _, e, e1, _, e3⟩ := part_key h th ls j s hs
      rw [← e]; simp only [Line.key, e1, e3]
    by_cases hj : j = k
    · subst hj
      rw [List.filter_eq_self.2 (fun s hs => by simp [key s hs]), if_neg hn.1]
      simp
    · rw [List.filter_eq_nil_iff.2 (fun s hs => by simp [key s hs, hj])]
      simp only [List.nil_append, List.mem_cons]
      have : k ≠ j := fun e => hj e.symm
      simp [this]

theorem rttmSmooth_filter {sort : List Line → List Line} (h : Sorts sort) (th : Int) (ls : List Line) (k : Nat × Nat) :
    (rttmSmooth sort th ls).filter (fun l => l.key == k) = part sort th ls k := by
  have e : rttmSmooth sort th ls = (keys ls).flatMap (part sort th ls) := rfl
  rw [e, filter_flatMap_part h th ls k (keys ls) (nodup_eraseDups _ _ (Nat.le_refl _))]
  split
  · rfl
  · rename_i hk
    simp only [keys, List.mem_eraseDups, List.mem_map, not_exists, not_and] at hk
    have hf : ls.filter (fun l => l.key == k) = [] := List.filter_eq_nil_iff.2 (fun s hs => by simpa using hk s hs)
    unfold part
    rw [hf]
    have := (h.perm []).length_eq
    rw [List.length_nil, List.length_eq_zero_iff] at this
    rw [this]

theorem turnsOf_eq (f s : Nat) (ls : List Line) : turnsOf f s ls = (ls.filter (fun l => l.key == (f, s))).map Line.seg := by
  unfold turnsOf
  congr 1

theorem turnsOf_smooth {sort : List Line → List Line} (h : Sorts sort) (th : Int) (ls : List Line) (f s : Nat) :
    turnsOf f s (rttmSmooth sort th ls) = smooth th ((sort (ls.filter (fun l => l.key == (f, s)))).map Line.seg) := by
  rw [turnsOf_eq, rttmSmooth_filter h]
  unfold part
  split
  · rename_i e; rw [e]; rfl
  · rename_i a l e; rw [e, smoothLines_seg]; rfl

theorem sorted_segs {sort : List Line → List Line} (h : Sorts sort) (l : List Line) :
    ((sort l).map Line.seg).Pairwise (fun a b => a.beg ≤ b.beg) := by
  rw [List.pairwise_map]; exact h.sorted l

theorem smooth_cov {th : Int} {l : List Seg} (hs : l.Pairwise (fun a b => a.beg ≤ b.beg)) (hd : ∀ s ∈ l, 0 ≤ s.dur) (x : Int) :
    Cov (smooth th l) x ↔ Cov l x ∨ InPause th l x := by
  cases l with
  | nil => simp [smooth, Cov, InPause]
  | cons a l => exact smoothFrom_cov th x l a hs hd

theorem smooth_sep {th : Int} {l : List Seg} (hs : l.Pairwise (fun a b => a.beg ≤ b.beg)) :
    (smooth th l).Pairwise (fun a b => a.fin + th < b.beg) := by
  cases l with
  | nil => simp [smooth]
  | cons a l => exact smoothFrom_sep th l a hs

theorem smooth_bounds {th : Int} {l : List Seg} : ∀ s ∈ smooth th l, (∃ p ∈ l, s.beg = p.beg) ∧ ∃ q ∈ l, s.fin = q.fin := by
  cases l with
  | nil => simp [smooth]
  | cons a l => exact smoothFrom_bounds th l a

theorem smooth_contains {th : Int} {l : List Seg} (hs : l.Pairwise (fun a b => a.beg ≤ b.beg)) :
    ∀ p ∈ l, ∃ s ∈ smooth th l, s.beg ≤ p.beg ∧ p.fin ≤ s.fin := by
  cases l with
  | nil => simp
  | cons a l => exact smoothFrom_contains th l a hs

theorem smoothFrom_dur (th : Int) (l : List Seg) : ∀ (a : Seg), (∀ s ∈ a :: l, 0 ≤ s.dur) → ∀ s ∈ smoothFrom th a l, 0 ≤ s.dur := by
  induction l with
  | nil => intro a h s hs; exact h s hs
  | cons b l ih =>
    intro a h s hs
    rw [smoothFrom] at hs
    split at hs
    · refine ih _ (fun c hc => ?_) s hs
      rcases List.mem_cons.1 hc with rfl | hc
      · exact merge_dur (h a (by simp))
      · exact h c (by simp [hc])
    · rcases List.mem_cons.1 hs with rfl | hs
      · exact h s (by simp)
      · exact ih b (fun c hc => h c (List.mem_cons_of_mem _ hc)) s hs

theorem smooth_dur {th : Int} {l : List Seg} (h : ∀ s ∈ l, 0 ≤ s.dur) : ∀ s ∈ smooth th l, 0 ≤ s.dur := by
  cases l with
  | nil => simp [smooth]
  | cons a l => exact smoothFrom_dur th l a h

theorem smooth_of_sep {th : Int} {l : List Seg} (hs : l.Pairwise (fun a b => a.fin + th < b.beg)) : smooth th l = l := by
  cases l with
  | nil => rfl
  | cons a l =>
    show smoothFrom th a l = a :: l
    induction l generalizing a with
    | nil => rfl
    | cons b l ih =>
      rw [List.pairwise_cons] at hs
      rw [smoothFrom, if_neg (by have := hs.1 b (by simp); omega), ih b hs.2]

theorem Cov.congr {l l' : List Seg} (h : l.Perm l') (x : Int) : Cov l x ↔ Cov l' x := by
  simp only [Cov, h.mem_iff]

theorem InPause.congr {th : Int} {l l' : List Seg} (h : l.Perm l') (x : Int) : InPause th l x ↔ InPause th l' x := by
  simp only [InPause, h.mem_iff]

/-! ## From STM to RTTM -/

theorem UCov_append (l l' : List Utt) (x : Int) : UCov (l ++ l') x ↔ UCov l x ∨ UCov l' x := by
  simp only [UCov, List.mem_append, or_and_right, exists_or]

theorem UCov_cons (a : Utt) (l : List Utt) (x : Int) : UCov (a :: l) x ↔ (a.beg ≤ x ∧ x < a.fin) ∨ UCov l x := by
  simp only [UCov, List.mem_cons, or_and_right, exists_or, exists_eq_left]

theorem uttLoop_cov {th : Int} (x : Int) (p : Utt) (sk l : List Utt) : ∀ r, uttLoop th p sk l = some r → (∀ s ∈ p :: l, s.beg ≤ s.fin) →
    (UCov (p :: sk ++ l) x → UCov r x) ∧ (UCov r x → UCov (p :: sk ++ l) x ∨ UPause th (p :: sk ++ l) x) := by
  fun_induction uttLoop th p sk l with
  | case1 p sk =>
    intro r h _
    cases h
    rw [List.append_nil]; exact ⟨id, Or.inl⟩
  | case2 => intro r h; cases h
  | case3 p sk y a b l h1 h2 ih =>
    intro r h hd
    have hp := hd p (by simp)
    have hy := hd y (by simp)
    obtain ⟨i1, i2⟩ := ih r h (fun s hs => by
      rcases List.mem_cons.1 hs with rfl | hs
      · show p.beg ≤ y.fin; omega
      · exact hd s (by simp [hs]))
    have mem : ∀ s, s ∈ sk ++ [a, b] ++ l → s ∈ p :: sk ++ y :: a :: b :: l := by
      intro s hs; simp only [List.mem_append, List.mem_cons, List.not_mem_nil, or_false] at hs ⊢
      rcases hs with (h | h | h) | h <;> simp [h]
    constructor
    · rintro ⟨s, hs, h3, h4⟩
      apply i1
      by_cases e : s ∈ sk ++ [a, b] ++ l
      · exact ⟨s, by rw [List.cons_append]; exact List.mem_cons_of_mem _ e, h3, h4⟩
      · have : s = p ∨ s = y := by
          simp only [List.mem_append, List.mem_cons, List.not_mem_nil, or_false, not_or, List.cons_append] at hs e
          rcases hs with h | h | h | h | h | h
          · exact Or.inl h
          · exact absurd h e.1.1
          · exact Or.inr h
          · exact absurd h e.1.2.1
          · exact absurd h e.1.2.2
          · exact absurd h e.2
        refine ⟨{ p with fin := y.fin }, by simp, ?_, ?_⟩
        · show p.beg ≤ x
          rcases this with rfl | rfl <;> omega
        · show x < y.fin
          rcases this with rfl | rfl <;> omega
    · intro hr
      rcases i2 hr with ⟨s, hs, h3, h4⟩ | ⟨s, hs, t, ht, h3, h4, h5⟩
      · rw [List.cons_append] at hs
        rcases List.mem_cons.1 hs with rfl | hs
        · by_cases h6 : x < p.fin
          · exact Or.inl ⟨p, by simp, h3, h6⟩
          · by_cases h7 : x < y.beg
            · exact Or.inr ⟨p, by simp, y, by simp, by omega, h7, h2⟩
            · exact Or.inl ⟨y, by simp, by omega, h4⟩
        · exact Or.inl ⟨s, mem s hs, h3, h4⟩
      · have hs' : ∃ s' ∈ p :: sk ++ y :: a :: b :: l, s'.fin = s.fin := by
          rw [List.cons_append] at hs
          rcases List.mem_cons.1 hs with rfl | hs
          · exact ⟨y, by simp, rfl⟩
          · exact ⟨s, mem s hs, rfl⟩
        have ht' : ∃ t' ∈ p :: sk ++ y :: a :: b :: l, t'.beg = t.beg := by
          rw [List.cons_append] at ht
          rcases List.mem_cons.1 ht with rfl | ht
          · exact ⟨p, by simp, rfl⟩
          · exact ⟨t, mem t ht, rfl⟩
        obtain ⟨s', hs1, hs2⟩ := hs'
        obtain ⟨t', ht1, ht2⟩ := ht'
        exact Or.inr ⟨s', hs1, t', ht1, by omega, by omega, by omega⟩
  | case4 p sk y a b l h1 h2 ih =>
    intro r h hd
    rw [Option.map_eq_some_iff] at h
    obtain ⟨q, hq, rfl⟩ := h
    obtain ⟨i1, i2⟩ := ih q hq (fun s hs => hd s (List.mem_cons_of_mem _ hs))
    rw [UCov_append, UCov_append]
    refine ⟨fun h => h.imp id i1, fun h => ?_⟩
    rcases h with h | h
    · exact Or.inl (Or.inl h)
    · rcases i2 h with h | ⟨s, hs, t, ht, h⟩
      · exact Or.inl (Or.inr h)
      · exact Or.inr ⟨s, List.mem_append_right _ hs, t, List.mem_append_right _ ht, h⟩
  | case5 => intro r h; cases h
  | case6 p sk y l hne h1 h2 =>
    intro r h hd
    cases h
    have hp := hd p (by simp)
    have hy := hd y (by simp)
    constructor
    · rintro ⟨s, hs, h3, h4⟩
      simp only [List.cons_append, List.mem_cons, List.mem_append] at hs
      rcases hs with rfl | h | rfl | h
      · exact ⟨{ s with fin := y.fin }, by simp, h3, by show x < y.fin; omega⟩
      · exact ⟨s, by simp [h], h3, h4⟩
      · exact ⟨{ p with fin := s.fin }, by simp, by show p.beg ≤ x; omega, h4⟩
      · exact ⟨s, by simp [h], h3, h4⟩
    · rintro ⟨s, hs, h3, h4⟩
      simp only [List.mem_cons, List.mem_append] at hs
      rcases hs with rfl | h | h
      · by_cases h6 : x < p.fin
        · exact Or.inl ⟨p, by simp, h3, h6⟩
        · by_cases h7 : x < y.beg
          · exact Or.inr ⟨p, by simp, y, by simp, by omega, h7, h2⟩
          · exact Or.inl ⟨y, by simp, by omega, h4⟩
      · exact Or.inl ⟨s, by simp [h], h3, h4⟩
      · exact Or.inl ⟨s, by simp [h], h3, h4⟩
  | case7 p sk y l hne h1 h2 ih =>
    intro r h hd
    rw [Option.map_eq_some_iff] at h
    obtain ⟨q, hq, rfl⟩ := h
    obtain ⟨i1, i2⟩ := ih q hq (fun s hs => hd s (List.mem_cons_of_mem _ hs))
    rw [UCov_append, UCov_append]
    refine ⟨fun h => h.imp id i1, fun h => ?_⟩
    rcases h with h | h
    · exact Or.inl (Or.inl h)
    · rcases i2 h with h | ⟨s, hs, t, ht, h⟩
      · exact Or.inl (Or.inr h)
      · exact Or.inr ⟨s, List.mem_append_right _ hs, t, List.mem_append_right _ ht, h⟩

theorem uttLoop_some {th : Int} (p : Utt) (sk l : List Utt) : (p :: l).Pairwise (fun a b => a.fin ≤ b.beg) → (uttLoop th p sk l).isSome := by
  fun_induction uttLoop th p sk l with
  | case1 => intro _; rfl
  | case2 p sk y a b l h1 => intro h; have := (List.pairwise_cons.1 h).1 y (by simp); omega
  | case3 p sk y a b l h1 h2 ih =>
    intro h
    apply ih
    have h3 := List.pairwise_cons.1 (List.pairwise_cons.1 h).2
    have h4 := List.pairwise_cons.1 (List.pairwise_cons.1 h3.2).2
    rw [List.pairwise_cons]
    exact ⟨fun c hc => h3.1 c (by simp [hc]), h4.2⟩
  | case4 p sk y a b l h1 h2 ih => intro h; rw [Option.isSome_map]; exact ih (List.pairwise_cons.1 h).2
  | case5 p sk y l _ h1 => intro h; have := (List.pairwise_cons.1 h).1 y (by simp); omega
  | case6 => intro _; rfl
  | case7 p sk y l _ h1 h2 ih => intro h; rw [Option.isSome_map]; exact ih (List.pairwise_cons.1 h).2

theorem uttLoop_apart {th : Int} (h0 : 0 ≤ th) (p : Utt) (sk l : List Utt) : (p :: l).Pairwise (fun a b => a.fin + th < b.beg) →
    uttLoop th p sk l = some (p :: sk ++ l) := by
  fun_induction uttLoop th p sk l with
  | case1 => intro _; simp
  | case2 p sk y a b l h1 => intro h; have := (List.pairwise_cons.1 h).1 y (by simp); omega
  | case3 p sk y a b l h1 h2 ih => intro h; have := (List.pairwise_cons.1 h).1 y (by simp); omega
  | case4 p sk y a b l h1 h2 ih => intro h; rw [ih (List.pairwise_cons.1 h).2]; simp
  | case5 p sk y l _ h1 => intro h; have := (List.pairwise_cons.1 h).1 y (by simp); omega
  | case6 p sk y l _ h1 h2 => intro h; have := (List.pairwise_cons.1 h).1 y (by simp); omega
  | case7 p sk y l _ h1 h2 ih => intro h; rw [ih (List.pairwise_cons.1 h).2]; simp

/-! ## Words and speakers -/

theorem firstsFrom_mem {α : Type} (beg : α → Int) (l : List α) : ∀ seen, ∀ a ∈ firstsFrom beg seen l, a ∈ l := by
  induction l with
  | nil => intro _ a h; exact h
  | cons b l ih =>
    intro seen a h
    rw [firstsFrom] at h
    split at h
    · exact List.mem_cons_of_mem _ (ih _ a h)
    · rcases List.mem_cons.1 h with rfl | h
      · simp
      · exact List.mem_cons_of_mem _ (ih _ a h)

theorem firsts_mem {α : Type} (beg : α → Int) (l : List α) : ∀ a ∈ firsts beg l, a ∈ l := firstsFrom_mem beg l []

theorem firstsFrom_eq {α : Type} (beg : α → Int) (l : List α) : ∀ seen, (l.map beg).Nodup → (∀ a ∈ l, beg a ∉ seen) → firstsFrom beg seen l = l := by
  induction l with
  | nil => intro _ _ _; rfl
  | cons b l ih =>
    intro seen hn hs
    rw [List.map_cons, List.nodup_cons] at hn
    rw [firstsFrom, if_neg (by rw [List.contains_iff_mem]; exact hs b (by simp)), ih _ hn.2]
    intro a ha hm
    rcases List.mem_cons.1 hm with e | hm
    · exact hn.1 (e ▸ List.mem_map_of_mem ha)
    · exact hs a (List.mem_cons_of_mem _ ha) hm

theorem firsts_eq {α : Type} (beg : α → Int) (l : List α) (h : (l.map beg).Nodup) : firsts beg l = l :=
  firstsFrom_eq beg l [] h (fun _ _ => List.not_mem_nil)

/-! ## Sorting -/

theorem ksort_perm {α : Type} (le : α → α → Bool) (l : List α) : (ksort le l).Perm l := by
  induction l with
  | nil => exact List.Perm.refl _
  | cons a l ih =>
    show List.Perm ((ksort le l).takeWhile (fun b => !le a b) ++ a :: (ksort le l).dropWhile (fun b => !le a b)) (a :: l)
    refine List.perm_middle.trans (List.Perm.cons a ?_)
    rw [List.takeWhile_append_dropWhile]
    exact ih

theorem insert_sorted {α : Type} (le : α → α → Bool) (ht : ∀ a b, le a b ∨ le b a) (htr : ∀ a b c, le a b → le b c → le a c) (a : α) (l : List α) :
    l.Pairwise (fun x y => le x y) → (l.takeWhile (fun b => !le a b) ++ a :: l.dropWhile (fun b => !le a b)).Pairwise (fun x y => le x y) := by
  induction l with
  | nil => intro _; simp
  | cons b l ih =>
    intro h
    rw [List.pairwise_cons] at h
    by_cases e : le a b
    · rw [List.takeWhile_cons_of_neg (by simp [e]), List.dropWhile_cons_of_neg (by simp [e]), List.nil_append, List.pairwise_cons]
      refine ⟨fun c hc => ?_, List.pairwise_cons.2 h⟩
      rcases List.mem_cons.1 hc with rfl | hc
      · exact e
      · exact htr _ _ _ e (h.1 c hc)
    · rw [List.takeWhile_cons_of_pos (by simp [e]), List.dropWhile_cons_of_pos (by simp [e]), List.cons_append, List.pairwise_cons]
      refine ⟨fun c hc => ?_, ih h.2⟩
      have : c ∈ a :: l := by
        have hp := (List.perm_middle (a := a) (l₁ := l.takeWhile (fun b => !le a b)) (l₂ := l.dropWhile (fun b => !le a b))).mem_iff.1 hc
        rw [List.takeWhile_append_dropWhile] at hp
        exact hp
      rcases List.mem_cons.1 this with rfl | hc
      · exact (ht _ _).resolve_left e
      · exact h.1 c hc

theorem ksort_sorted {α : Type} (le : α → α → Bool) (ht : ∀ a b, le a b ∨ le b a) (htr : ∀ a b c, le a b → le b c → le a c) (l : List α) :
    (ksort le l).Pairwise (fun x y => le x y) := by
  induction l with
  | nil => exact List.Pairwise.nil
  | cons a l ih => exact insert_sorted le ht htr a _ ih

theorem split_perm {α : Type} (p : α → Bool) (l : List α) : (l.filter p ++ l.filter (fun a => !p a)).Perm l := by
  induction l with
  | nil => exact List.Perm.refl _
  | cons a l ih =>
    cases h : p a
    · rw [List.filter_cons_of_neg (by simp [h]), List.filter_cons_of_pos (by simp [h])]
      exact List.perm_middle.trans (List.Perm.cons a ih)
    · rw [List.filter_cons_of_pos (by simp [h]), List.filter_cons_of_neg (by simp [h])]
      exact List.Perm.cons a ih

theorem group_perm {α κ : Type} [BEq κ] [LawfulBEq κ] (key : α → κ) (ks : List κ) (g : κ → List α) : ∀ (l : List α), ks.Nodup →
    (∀ a ∈ l, key a ∈ ks) → (∀ k ∈ ks, (g k).Perm (l.filter (fun a => key a == k))) → (ks.flatMap g).Perm l := by
  induction ks with
  | nil =>
    intro l _ hm _
    cases l with
    | nil => exact List.Perm.refl _
    | cons a l => exact absurd (hm a (by simp)) List.not_mem_nil
  | cons k ks ih =>
    intro l hn hm hg
    rw [List.nodup_cons] at hn
    rw [List.flatMap_cons]
    refine (List.Perm.append (hg k (by simp)) (ih (l.filter (fun a => !(key a == k))) hn.2 ?_ ?_)).trans (split_perm _ l)
    · intro a ha
      rw [List.mem_filter] at ha
      rcases List.mem_cons.1 (hm a ha.1) with e | h
      · simp [e] at ha
      · exact h
    · intro j hj
      rw [List.filter_filter]
      refine (hg j (List.mem_cons_of_mem _ hj)).trans (List.Perm.of_eq (List.filter_congr (fun a _ => ?_)))
      have : j ≠ k := fun e => hn.1 (e ▸ hj)
      cases h : key a == j
      · rfl
      · have := beq_iff_eq.1 h
        subst this
        simpa using ‹key a ≠ k›

theorem keys_ok {α κ : Type} [BEq κ] [LawfulBEq κ] (le : κ → κ → Bool) (key : α → κ) (l : List α) :
    (ksort le (l.map key).eraseDups).Nodup ∧ ∀ a ∈ l, key a ∈ ksort le (l.map key).eraseDups := by
  refine ⟨(ksort_perm _ _).nodup_iff.2 (nodup_eraseDups _ _ (Nat.le_refl _)), fun a ha => ?_⟩
  rw [(ksort_perm _ _).mem_iff, List.mem_eraseDups]
  exact List.mem_map_of_mem ha

end Verif.Rttm
