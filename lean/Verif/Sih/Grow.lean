import Verif.Sih.Lemmas
/-!
# Lemmas on adding to the table
-/
set_option autoImplicit false
namespace Verif.Sih

theorem mem_entries (l : List Slot) (s : List Char) (v : Int) : (s, v) ∈ entries l ↔ ∃ i : Nat, l[i]? = some ⟨some s, v⟩ := by
  unfold entries
  rw [List.mem_filterMap]
  constructor
  · rintro ⟨x, hx, e⟩
    obtain ⟨i, hi⟩ := List.mem_iff_getElem?.1 hx
    refine ⟨i, ?_⟩
    rw [hi]
    obtain ⟨xs, xv⟩ := x
    cases xs with
    | none => cases e
    | some u =>
      simp only [Option.map_some, Option.some.injEq, Prod.mk.injEq] at e
      rw [e.1, e.2]
  · rintro ⟨i, hi⟩
    exact ⟨⟨some s, v⟩, List.mem_of_getElem? hi, rfl⟩

theorem entries_distinct {l : List Slot}
    (u : ∀ (i i' : Nat) (s : List Char) (v v' : Int), l[i]? = some ⟨some s, v⟩ → l[i']? = some ⟨some s, v'⟩ → i = i') :
    (entries l).Pairwise (fun a b => a.1 ≠ b.1) := by
  induction l with
  | nil => exact List.Pairwise.nil
  | cons y l ih =>
    have hl := ih (fun i i' s v v' h1 h2 => by
      have := u (i + 1) (i' + 1) s v v' h1 h2
      omega)
    obtain ⟨ys, yv⟩ := y
    cases ys with
    | none =>
      have : entries (⟨none, yv⟩ :: l) = entries l := by simp [entries]
      rw [this]
      exact hl
    | some s =>
      have : entries (⟨some s, yv⟩ :: l) = (s, yv) :: entries l := by simp [entries]
      rw [this, List.pairwise_cons]
      refine ⟨?_, hl⟩
      rintro ⟨s', v'⟩ hb e
      change s = s' at e
      rw [← e] at hb
      obtain ⟨i, hi⟩ := (mem_entries l s v').1 hb
      have := u 0 (i + 1) s yv v' rfl hi
      omega

theorem saidAll_not {m : List Char → Option Int} {es : List (List Char × Int)} {s : List Char} (h : ∀ v, (s, v) ∉ es) : saidAll m es s = m s := by
  induction es generalizing m with
  | nil => rfl
  | cons o es ih =>
    obtain ⟨s', v'⟩ := o
    unfold saidAll
    rw [ih (fun v hv => h v (List.mem_cons_of_mem _ hv))]
    unfold said
    rw [if_neg]
    rintro rfl
    exact h v' List.mem_cons_self

theorem saidAll_mem {m : List Char → Option Int} {es : List (List Char × Int)} {s : List Char} {v : Int}
    (hp : es.Pairwise (fun a b => a.1 ≠ b.1)) (h : (s, v) ∈ es) : saidAll m es s = some v := by
  induction es generalizing m with
  | nil => cases h
  | cons o es ih =>
    obtain ⟨s', v'⟩ := o
    rw [List.pairwise_cons] at hp
    unfold saidAll
    rcases List.mem_cons.1 h with e | h
    · injection e with e1 e2
      rw [saidAll_not, said, if_pos e1, e2]
      intro w hw
      exact hp.1 _ hw e1.symm
    · exact ih hp.2 h

theorem Good.distinct {h : List Char → Nat} {l : List Slot} {m : List Char → Option Int} (g : Good h l m) :
    (entries l).Pairwise (fun a b => a.1 ≠ b.1) := entries_distinct (fun _ _ _ _ _ h1 h2 => g.unique h1 h2)

theorem Good.copied {h : List Char → Nat} {l : List Slot} {m : List Char → Option Int} (g : Good h l m) : saidAll silent (entries l) = m := by
  funext s
  cases e : m s with
  | none =>
    rw [saidAll_not]
    · rfl
    · intro v hv
      have := (g.says s v).1 ((mem_entries l s v).1 hv)
      rw [e] at this
      cases this
  | some v => exact saidAll_mem g.distinct ((mem_entries l s v).2 ((g.says s v).2 e))

theorem fresh_good (h : List Char → Nat) (n : Nat) (hn : 0 < n) : Good h (fresh n) silent := by
  have he : entries (fresh n) = [] := by
    unfold entries fresh
    rw [List.filterMap_eq_nil_iff]
    intro x hx
    rw [List.eq_of_mem_replicate hx]
    rfl
  have hno : ∀ (i : Nat) (s : List Char) (v : Int), (fresh n)[i]? ≠ some ⟨some s, v⟩ := by
    intro i s v e
    have := (mem_entries (fresh n) s v).2 ⟨i, e⟩
    rw [he] at this
    cases this
  refine ⟨fun i s v e => absurd e (hno i s v), fun s v => ⟨?_, ?_⟩, ?_⟩
  · rintro ⟨i, e⟩
    exact absurd e (hno i s v)
  · intro e
    cases e
  · rw [he]
    simpa [fresh] using hn

/-- A table with rates the program allows that says what a dictionary says. -/
structure Ok (h : List Char → Nat) (t : Table) (m : List Char → Option Int) : Prop where
  good : Good h t.slots m
  count : t.nentries = (entries t.slots).length
  occ : t.on < t.od
  gd : 0 < t.gd
  gn : t.gd ≤ t.gn
  nonempty : m [] = none

theorem grown_spec {h : List Char → Nat} {t : Table} {m : List Char → Option Int} (ok : Ok h t m) : ∃ n, grown t = some n ∧ t.slots.length + 3 ≤ n := by
  have h1 : t.slots.length ≤ t.slots.length * t.gn / t.gd := by
    rw [Nat.le_div_iff_mul_le ok.gd]
    exact Nat.mul_le_mul_left _ ok.gn
  have h2 : (t.on + t.od) / t.od = 1 := by
    have := ok.occ
    rw [Nat.add_div_right _ (by omega), Nat.div_eq_of_lt this]
  unfold grown
  dsimp only
  rw [h2, Nat.mul_one]
  have : t.slots.length + 3 ≤ (if over t t.nentries (t.slots.length * t.gn / t.gd + 3) = true then t.slots.length * t.gn / t.gd + 3 + 3
      else t.slots.length * t.gn / t.gd + 3) := by
    split <;> omega
  obtain ⟨r, hr, _, hle, _⟩ := nearest_spec _ (Nat.le_trans (by omega) this)
  exact ⟨r, hr, by omega⟩

/-- What adding does. -/
def Adds (h : List Char → Nat) (f : Nat) (add : Table → List Char → Int → Option Table) : Prop :=
  ∀ (t : Table) (m : List Char → Option Int) (s : List Char) (v : Int), Ok h t m → t.nentries < f → s ≠ [] →
    ∃ t', add t s v = some t' ∧ Ok h t' (said m s v) ∧ t'.nentries = (if (m s).isNone then t.nentries + 1 else t.nentries) ∧
      t.slots.length ≤ t'.slots.length ∧ (over t (t.nentries + 1) t.slots.length = true → t.slots.length + 3 ≤ t'.slots.length) ∧
      t'.on = t.on ∧ t'.od = t.od

theorem each_distinct {h : List Char → Nat} {f : Nat} {add : Table → List Char → Int → Option Table} (ha : Adds h f add)
    (ops : List (List Char × Int)) (t : Table) (m : List Char → Option Int) (ok : Ok h t m) (hf : t.nentries + ops.length ≤ f)
    (hne : ∀ o ∈ ops, o.1 ≠ []) (hp : ops.Pairwise (fun a b => a.1 ≠ b.1)) (hm : ∀ o ∈ ops, m o.1 = none) :
    ∃ t', each add t ops = some t' ∧ Ok h t' (saidAll m ops) ∧ t'.nentries = t.nentries + ops.length ∧ t.slots.length ≤ t'.slots.length ∧
      t'.on = t.on ∧ t'.od = t.od := by
  induction ops generalizing t m with
  | nil => exact ⟨t, rfl, ok, rfl, Nat.le_refl _, rfl, rfl⟩
  | cons o ops ih =>
    obtain ⟨s, v⟩ := o
    rw [List.length_cons] at hf
    rw [List.pairwise_cons] at hp
    obtain ⟨t1, h1, ok1, h2, h3, _, h5, h6⟩ := ha t m s v ok (by omega) (hne _ List.mem_cons_self)
    rw [show m s = none from hm (s, v) List.mem_cons_self] at h2
    have h2 : t1.nentries = t.nentries + 1 := h2
    obtain ⟨t2, e1, ok2, e2, e3, e4, e5⟩ := ih t1 (said m s v) ok1 (by omega) (fun o ho => hne o (List.mem_cons_of_mem _ ho)) hp.2 (by
      intro o ho
      unfold said
      rw [if_neg (fun e => hp.1 o ho e.symm)]
      exact hm o (List.mem_cons_of_mem _ ho))
    refine ⟨t2, ?_, ok2, by rw [List.length_cons]; omega, by omega, by rw [e4, h5], by rw [e5, h6]⟩
    unfold each
    rw [h1]
    exact e1

theorem not_over {t : Table} (ho : t.on < t.od) {n k : Nat} (h : over t (n + 1) k = false) : n + 1 < k := by
  unfold over at h
  rw [decide_eq_false_iff_not] at h
  apply Classical.byContradiction
  intro hk
  have h1 : t.on * k ≤ t.on * (n + 1) := Nat.mul_le_mul_left _ (by omega)
  have h2 : t.on * (n + 1) < t.od * (n + 1) := Nat.mul_lt_mul_of_pos_right ho (by omega)
  rw [Nat.mul_comm t.od] at h2
  omega

theorem said_nonempty {m : List Char → Option Int} {s : List Char} {v : Int} (hm : m [] = none) (hs : s ≠ []) : said m s v [] = none := by
  unfold said
  rw [if_neg (fun e => hs e.symm), hm]

theorem addF_spec (h : List Char → Nat) (f : Nat) : Adds h f (addF h f) := by
  induction f with
  | zero => intro t m s v _ hlt; omega
  | succ f ih =>
    intro t m s v ok hlt hs
    have hse : s.isEmpty = false := by cases s with
      | nil => exact absurd rfl hs
      | cons => rfl
    unfold addF
    rw [hse, if_neg Bool.false_ne_true]
    cases hov : over t (t.nentries + 1) t.slots.length
    · rw [if_neg Bool.false_ne_true]
      obtain ⟨t', h1, h2, h3, h4, h5, h6, h7, h8, h9⟩ := insert_good ok.good ok.count (not_over ok.occ hov) s v
      exact ⟨t', h1, ⟨h2, h3, by rw [h6, h7]; exact ok.occ, by rw [h9]; exact ok.gd, by rw [h8, h9]; exact ok.gn, said_nonempty ok.nonempty hs⟩, h4,
        by omega, fun e => (Bool.false_ne_true e).elim, h6, h7⟩
    · rw [if_pos rfl]
      obtain ⟨n, hn, hle⟩ := grown_spec ok
      rw [hn]
      dsimp only
      have hroom := ok.good.room
      have hf0 : Good h (fresh n) silent := fresh_good h n (by omega)
      have hcnt : (entries (fresh n)).length = 0 := by
        have : entries (fresh n) = [] := by
          unfold entries fresh
          rw [List.filterMap_eq_nil_iff]
          intro x hx
          rw [List.eq_of_mem_replicate hx]
          rfl
        rw [this]
        rfl
      have ok0 : Ok h { t with nentries := 0, slots := fresh n } silent := ⟨hf0, hcnt.symm, ok.occ, ok.gd, ok.gn, rfl⟩
      have hcount := ok.count
      obtain ⟨t1, e1, ok1, e2, e3, e4, e5⟩ := each_distinct ih (entries t.slots) _ silent ok0 (by
          change 0 + (entries t.slots).length ≤ f
          omega) (by
          rintro ⟨u, w⟩ ho e
          change u = [] at e
          have := (ok.good.says u w).1 ((mem_entries _ _ _).1 ho)
          rw [e, ok.nonempty] at this
          cases this) ok.good.distinct (fun _ _ => rfl)
      rw [ok.good.copied] at ok1
      have e2' : t1.nentries = t.nentries := by
        rw [e2, hcount]
        exact Nat.zero_add _
      have e3' : n ≤ t1.slots.length := by simpa [fresh] using e3
      rw [e1]
      dsimp only
      obtain ⟨t', h1, h2, h3, h4, h5, h6, h7, h8, h9⟩ := insert_good ok1.good ok1.count (by omega) s v
      refine ⟨t', h1, ⟨h2, h3, by rw [h6, h7]; exact ok1.occ, by rw [h9]; exact ok1.gd, by rw [h8, h9]; exact ok1.gn, said_nonempty ok.nonempty hs⟩, ?_,
        by omega, fun _ => by omega, by rw [h6, e4], by rw [h7, e5]⟩
      rw [h4, e2']

theorem add_spec {h : List Char → Nat} {t : Table} {m : List Char → Option Int} (ok : Ok h t m) {s : List Char} (hs : s ≠ []) (v : Int) :
    ∃ t', add h t s v = some t' ∧ Ok h t' (said m s v) ∧ t'.nentries = (if (m s).isNone then t.nentries + 1 else t.nentries) ∧
      t.slots.length ≤ t'.slots.length ∧ (over t (t.nentries + 1) t.slots.length = true → t.slots.length + 3 ≤ t'.slots.length) ∧
      t'.on = t.on ∧ t'.od = t.od := addF_spec h (t.nentries + 1) t m s v ok (by omega) hs

theorem each_spec {h : List Char → Nat} (ops : List (List Char × Int)) (hne : ∀ o ∈ ops, o.1 ≠ []) {t : Table} {m : List Char → Option Int} (ok : Ok h t m) :
    ∃ t', each (add h) t ops = some t' ∧ Ok h t' (saidAll m ops) := by
  induction ops generalizing t m with
  | nil => exact ⟨t, rfl, ok⟩
  | cons o ops ih =>
    obtain ⟨s, v⟩ := o
    obtain ⟨t1, h1, ok1, _⟩ := add_spec ok (hne (s, v) List.mem_cons_self) v
    obtain ⟨t2, h2, ok2⟩ := ih (fun o ho => hne o (List.mem_cons_of_mem _ ho)) ok1
    refine ⟨t2, ?_, ok2⟩
    unfold each
    rw [h1]
    exact h2

theorem each_append {add : Table → List Char → Int → Option Table} (a b : List (List Char × Int)) (t : Table) :
    each add t (a ++ b) = (each add t a).bind (fun t => each add t b) := by
  induction a generalizing t with
  | nil => rfl
  | cons o a ih =>
    obtain ⟨s, v⟩ := o
    have e : ∀ r, each add t ((s, v) :: r) = (add t s v).bind (fun t => each add t r) := by
      intro r
      rw [each]
      cases add t s v <;> rfl
    rw [List.cons_append, e, e]
    cases add t s v with
    | none => rfl
    | some t1 => exact ih t1

theorem create_ok (h : List Char → Nat) {size : Int} {on od gn gd : Nat} {t : Table} (hd : 0 < od) (hg : 0 < gd) (hc : create size on od gn gd = some t) :
    Ok h t silent ∧ t.on = on ∧ t.od = od ∧ t.nentries = 0 := by
  unfold create at hc
  obtain ⟨n, hn, _, hle, _⟩ := nearest_spec (max size 11).toNat (by omega)
  rw [hn] at hc
  dsimp only at hc
  split at hc
  · cases hc
  · rename_i h1
    split at hc
    · cases hc
    · rename_i h2
      injection hc with hc
      subst hc
      simp only [Bool.or_eq_true, decide_eq_true_eq, not_or] at h1 h2
      refine ⟨⟨fresh_good h n (by omega), ?_, ?_, hg, ?_, rfl⟩, rfl, rfl, rfl⟩
      · have : entries (fresh n) = [] := by
          unfold entries fresh
          rw [List.filterMap_eq_nil_iff]
          intro x hx
          rw [List.eq_of_mem_replicate hx]
          rfl
        change 0 = (entries (fresh n)).length
        rw [this]
        rfl
      · change on < od
        omega
      · change gd ≤ gn
        omega

theorem lookup_spec {h : List Char → Nat} {t : Table} {m : List Char → Option Int} (ok : Ok h t m) {s : List Char} (hs : s ≠ []) :
    lookup h t s = some (match m s with
      | none => (false, 0)
      | some v => (true, v)) := by
  have hse : s.isEmpty = false := by cases s with
    | nil => exact absurd rfl hs
    | cons => rfl
  obtain ⟨i, x, hf, hx, _, hc⟩ := ok.good.found s
  unfold lookup
  rw [hse, if_neg Bool.false_ne_true, hf]
  dsimp only
  rw [hx]
  dsimp only
  rcases hc with ⟨h1, h2⟩ | ⟨h1, h2⟩ <;> rw [h1, h2] <;> rfl

/-! ## Files -/

theorem take_null {s b : List Char} (hs : ∀ c ∈ s, c ≠ '\x00') :
    (s ++ '\x00' :: b).takeWhile (fun c => c != '\x00') = s ∧ (s ++ '\x00' :: b).dropWhile (fun c => c != '\x00') = '\x00' :: b := by
  induction s with
  | nil => exact ⟨rfl, rfl⟩
  | cons c s ih =>
    have hc := hs c List.mem_cons_self
    obtain ⟨h1, h2⟩ := ih (fun d hd => hs d (List.mem_cons_of_mem _ hd))
    rw [List.cons_append, List.takeWhile_cons, List.dropWhile_cons, if_pos (by simpa using hc), if_pos (by simpa using hc), h1, h2]
    exact ⟨rfl, rfl⟩

theorem readSlots_written (l : List Slot) (hl : ∀ x ∈ l, ∀ s, x.str = some s → s ≠ [] ∧ ∀ c ∈ s, c ≠ '\x00') :
    readSlots (l.map Slot.val) (l.flatMap bytes) = .ok l := by
  induction l with
  | nil => rfl
  | cons x l ih =>
    have ih := ih (fun y hy => hl y (List.mem_cons_of_mem _ hy))
    have hx := hl x List.mem_cons_self
    obtain ⟨xs, xv⟩ := x
    rw [List.map_cons, List.flatMap_cons]
    cases xs with
    | none =>
      change readSlots (xv :: l.map Slot.val) ('\x00' :: l.flatMap bytes) = _
      unfold readSlots
      rw [if_pos (by decide), ih]
    | some s =>
      obtain ⟨h1, h2⟩ := hx s rfl
      cases s with
      | nil => exact absurd rfl h1
      | cons c s =>
        have e : bytes ⟨some (c :: s), xv⟩ ++ l.flatMap bytes = c :: (s ++ '\x00' :: l.flatMap bytes) := by simp [bytes]
        obtain ⟨t1, t2⟩ := take_null (b := l.flatMap bytes) h2
        rw [List.cons_append] at t1 t2
        rw [e]
        unfold readSlots
        rw [if_neg (by simpa using h2 c List.mem_cons_self), t2]
        dsimp only
        rw [ih, t1]

end Verif.Sih
