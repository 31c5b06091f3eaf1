import Verif.Diar.Lemmas
/-!
# Collars, zones of overlap, and their removal
-/
set_option autoImplicit false
namespace Verif.Diar

theorem net_perm {k : Ev → Bool} {L L' : List Ev} (h : L.Perm L') : net k L = net k L' := by
  unfold net; rw [h.countP_eq, h.countP_eq]

/-! ## Shape of a scan -/

theorem scan_low {σ : Type} (step : σ → Ev → σ) (on : σ → Bool) (m : Int) :
    ∀ (es : List Ev) (s : σ) (tb : Int), (on s = true → m ≤ tb) → (∀ e ∈ es, m ≤ e.time) → ∀ u ∈ scan step on s tb es, m ≤ u.1
  | [], _, _, _, _, u, hu => by simp [scan] at hu
  | e :: es, s, tb, h1, h2, u, hu => by
    have he := h2 e (List.mem_cons_self ..)
    have hes : ∀ a ∈ es, m ≤ a.time := fun a ha => h2 a (List.mem_cons_of_mem _ ha)
    rw [scan] at hu
    cases hs : on s
    · rw [hs, if_neg (by decide)] at hu
      split at hu
      · exact scan_low step on m es _ _ (fun _ => he) hes u hu
      · rename_i hn
        exact scan_low step on m es _ _ (fun h => absurd h hn) hes u hu
    · rw [hs, if_pos rfl] at hu
      split at hu
      · exact scan_low step on m es _ _ (fun _ => h1 hs) hes u hu
      · rename_i hn
        split at hu
        · rcases List.mem_cons.1 hu with rfl | hu
          · exact h1 hs
          · exact scan_low step on m es _ _ (fun h => absurd h hn) hes u hu
        · exact scan_low step on m es _ _ (fun h => absurd h hn) hes u hu

/-- The intervals of a scan are not empty and in order. -/
theorem scan_order {σ : Type} (step : σ → Ev → σ) (on : σ → Bool) :
    ∀ (es : List Ev) (s : σ) (tb : Int), es.Pairwise (fun a b => a.time ≤ b.time) →
      (∀ u ∈ scan step on s tb es, u.1 < u.2) ∧ (scan step on s tb es).Pairwise (fun u v => u.2 ≤ v.1)
  | [], _, _, _ => by simp [scan]
  | e :: es, s, tb, hs => by
    have hs' := List.pairwise_cons.1 hs
    have ih := fun tb' => scan_order step on es (step s e) tb' hs'.2
    rw [scan]
    split
    · split
      · exact ih _
      · rename_i hn
        split
        · rename_i ht
          refine ⟨fun u hu => ?_, List.pairwise_cons.2 ⟨fun v hv => ?_, (ih tb).2⟩⟩
          · rcases List.mem_cons.1 hu with rfl | hu
            · exact ht
            · exact (ih tb).1 u hu
          · exact scan_low step on e.time es _ _ (fun h => absurd h hn) hs'.1 v hv
        · exact ih _
    · split
      · exact ih _
      · exact ih _

theorem ordered_apart {l : List (Int × Int)} (h : l.Pairwise (fun u v => u.2 ≤ v.1)) : Apart l :=
  h.imp (fun {u v} huv x hx => by omega)

/-! ## Collars -/

theorem collarLoop_scan : ∀ (es : List Ev) (n tb : Int),
    collarLoop n tb es = scan (fun n e => if e.beg then n + 1 else n - 1) (fun n => decide (1 ≤ n)) n tb es
  | [], _, _ => rfl
  | e :: es, n, tb => by
    rw [collarLoop, scan]
    cases hb : e.beg
    · simp only [Bool.false_eq_true, if_false]
      rw [collarLoop_scan es]
      by_cases h1 : 1 ≤ n
      · rw [if_pos (show decide (1 ≤ n) = true by simpa using h1)]
        by_cases h2 : n - 1 = 0
        · rw [if_neg (show ¬ (decide (1 ≤ n - 1) = true) by simp; omega)]
          by_cases h3 : tb < e.time
          · rw [if_pos ⟨h2, h3⟩, if_pos h3]
          · rw [if_neg (fun h => h3 h.2), if_neg h3]
        · rw [if_pos (show decide (1 ≤ n - 1) = true by simp; omega), if_neg (fun h => h2 h.1)]
      · rw [if_neg (show ¬ (decide (1 ≤ n) = true) by simpa using h1), if_neg (show ¬ (decide (1 ≤ n - 1) = true) by simp; omega), if_neg (by omega)]
    · simp only [if_true]
      rw [collarLoop_scan es]
      by_cases h1 : 1 ≤ n
      · rw [if_pos (show decide (1 ≤ n) = true by simpa using h1), if_pos (show decide (1 ≤ n + 1) = true by simp; omega), if_neg (by omega)]
      · rw [if_neg (show ¬ (decide (1 ≤ n) = true) by simpa using h1)]
        by_cases h2 : n + 1 = 1
        · rw [if_pos h2, if_pos (show decide (1 ≤ n + 1) = true by simp; omega)]
        · rw [if_neg h2, if_neg (show ¬ (decide (1 ≤ n + 1) = true) by simp; omega)]

theorem fold_net : ∀ (es : List Ev) (n : Int),
    es.foldl (fun n e => if e.beg then n + 1 else n - 1) n = n + net (fun _ => true) es
  | [], n => by rw [net_nil]; simp
  | e :: es, n => by
    rw [List.foldl_cons, fold_net es, net_cons]
    cases e.beg <;> simp <;> omega

/-- The ends of the turns, where collars are. -/
def ends (ref : List Turn) : List Int := ref.flatMap (fun t => [t.tb, t.te])

theorem collar_net (c : Int) (hc : 0 < c) (uem : List (Int × Int)) (ref : List Turn) (hpos : ∀ u ∈ uem, u.1 < u.2) (x : Int) :
    net (fun _ => true) ((collarEvents c uem ref).filter (fun e => decide (e.time ≤ x))) =
      (uem.countP (fun u => decide (u.1 ≤ x ∧ x < u.2)) : Nat) - ((ends ref).countP (fun b => decide (b - c ≤ x ∧ x < b + c)) : Nat) := by
  unfold collarEvents
  rw [List.filter_append, net_append]
  have h1 : net (fun _ => true) ((uem.flatMap (fun u => both .uem u.1 u.2)).filter (fun e => decide (e.time ≤ x))) =
      (uem.countP (fun u => decide (u.1 ≤ x ∧ x < u.2)) : Nat) := by
    have h := Of.flat (k := fun _ => true) uem (fun _ => Kind.uem) (fun u => u) (fun _ _ _ => rfl)
    rw [List.map_id'] at h
    exact net_at h hpos x
  rw [h1]
  have h2 : net (fun _ => true) ((ref.flatMap (fun t => [⟨.nsz, false, t.tb - c⟩, ⟨.nsz, true, t.tb + c⟩, ⟨.nsz, false, t.te - c⟩, ⟨.nsz, true, t.te + c⟩] : Turn → List Ev)).filter
      (fun e => decide (e.time ≤ x))) = -((ends ref).countP (fun b => decide (b - c ≤ x ∧ x < b + c)) : Nat) := by
    clear h1
    induction ref with
    | nil => rfl
    | cons t ref ih =>
      have e : ends (t :: ref) = [t.tb, t.te] ++ ends ref := by simp [ends]
      rw [List.flatMap_cons, List.filter_append, net_append, ih, e, List.countP_append]
      have : net (fun _ => true) (([⟨.nsz, false, t.tb - c⟩, ⟨.nsz, true, t.tb + c⟩, ⟨.nsz, false, t.te - c⟩, ⟨.nsz, true, t.te + c⟩] : List Ev).filter
          (fun e => decide (e.time ≤ x))) = -(([t.tb, t.te].countP (fun b => decide (b - c ≤ x ∧ x < b + c)) : Nat) : Int) := by
        by_cases a1 : t.tb - c ≤ x <;> by_cases a2 : t.tb + c ≤ x <;> by_cases a3 : t.te - c ≤ x <;> by_cases a4 : t.te + c ≤ x <;>
          first
          | omega
          | (have b2 : (x < t.tb + c) = ¬ (t.tb + c ≤ x) := by simp
             have b4 : (x < t.te + c) = ¬ (t.te + c ≤ x) := by simp
             simp [List.filter_cons, List.countP_cons, net, a1, a2, a3, a4, b2, b4])
      rw [this]
      omega
  rw [h2]
  omega

theorem collar_net_all (c : Int) (uem : List (Int × Int)) (ref : List Turn) : net (fun _ => true) (collarEvents c uem ref) = 0 := by
  unfold collarEvents
  rw [net_append]
  have h1 : net (fun _ => true) (uem.flatMap (fun u => both .uem u.1 u.2)) = 0 := by
    induction uem with
    | nil => rfl
    | cons u uem ih => rw [List.flatMap_cons, net_append, ih]; rfl
  have h2 : net (fun _ => true) (ref.flatMap (fun t => [⟨.nsz, false, t.tb - c⟩, ⟨.nsz, true, t.tb + c⟩, ⟨.nsz, false, t.te - c⟩, ⟨.nsz, true, t.te + c⟩] : Turn → List Ev)) = 0 := by
    induction ref with
    | nil => rfl
    | cons t ref ih => rw [List.flatMap_cons, net_append, ih]; rfl
  rw [h1, h2]
  rfl

theorem addCollars_inside (sort : List Ev → List Ev) (hs : Sorts begFirst sort) (c : Int) (hc : 0 < c) (uem : List (Int × Int))
    (ref : List Turn) (hpos : ∀ u ∈ uem, u.1 < u.2) (hap : Apart uem) (x : Int) :
    Inside (addCollars sort c uem ref) x ↔ Inside uem x ∧ ∀ b ∈ ends ref, ¬ (b - c ≤ x ∧ x < b + c) := by
  obtain ⟨hp, ho⟩ := hs (collarEvents c uem ref)
  unfold addCollars
  rw [collarLoop_scan, scan_inside _ _ x _ _ _ (beg_time ho) ?_ (by intro h; simp at h)]
  · rw [fold_net, net_perm (hp.filter _), collar_net c hc uem ref hpos x]
    have h1 := apart_one hap x
    have h2 := inside_pos (iv := uem) (x := x)
    have h3 : (ends ref).countP (fun b => decide (b - c ≤ x ∧ x < b + c)) = 0 ↔ ∀ b ∈ ends ref, ¬ (b - c ≤ x ∧ x < b + c) := by
      rw [List.countP_eq_zero]; simp
    rw [← h2, ← h3]
    simp only [decide_eq_true_eq]
    constructor
    · rintro ⟨h, _⟩; constructor <;> omega
    · rintro ⟨h, h'⟩; exact ⟨by omega, fun h => by omega⟩
  · rw [fold_net, net_perm hp, collar_net_all]
    rfl

theorem addCollars_apart (sort : List Ev → List Ev) (hs : Sorts begFirst sort) (c : Int) (uem : List (Int × Int)) (ref : List Turn) :
    (∀ u ∈ addCollars sort c uem ref, u.1 < u.2) ∧ Apart (addCollars sort c uem ref) := by
  obtain ⟨_, ho⟩ := hs (collarEvents c uem ref)
  unfold addCollars
  rw [collarLoop_scan]
  have h := scan_order (fun (n : Int) (e : Ev) => if e.beg then n + 1 else n - 1) (fun n => decide (1 ≤ n)) _ 0 0 (beg_time ho)
  exact ⟨h.1, ordered_apart h.2⟩

/-! ## Zones of overlap -/

theorem zoneLoop_scan : ∀ (es pre : List Ev) (n tb : Int), (pre ++ es).Pairwise (fun a b => endFirst a b = true) →
    (2 ≤ n → ∃ e ∈ pre, e.beg = true ∧ e.time = tb) →
    zoneLoop n tb es = scan (fun n e => if e.beg then n + 1 else n - 1) (fun n => decide (2 ≤ n)) n tb es ∧
      (∀ z ∈ zoneLoop n tb es, (∃ e ∈ pre ++ es, e.beg = true ∧ e.time = z.1) ∧ (∃ e ∈ pre ++ es, e.beg = false ∧ e.time = z.2))
  | [], _, _, _, _, _ => ⟨rfl, by simp [zoneLoop]⟩
  | e :: es, pre, n, tb, ho, hn => by
    have hpre : pre ++ e :: es = (pre ++ [e]) ++ es := by simp
    have ho' : ((pre ++ [e]) ++ es).Pairwise (fun a b => endFirst a b = true) := by rw [← hpre]; exact ho
    have hle := (List.pairwise_append.1 ho).2.2
    rw [zoneLoop, scan, hpre]
    cases hb : e.beg
    · simp only [Bool.false_eq_true, if_false]
      obtain ⟨ih1, ih2⟩ := zoneLoop_scan es (pre ++ [e]) (n - 1) tb ho' (fun h => by
        obtain ⟨a, ha, h'⟩ := hn (by omega)
        exact ⟨a, List.mem_append_left _ ha, h'⟩)
      rw [← ih1]
      by_cases h1 : 2 ≤ n
      · rw [if_pos (show decide (2 ≤ n) = true by simpa using h1)]
        by_cases h2 : n - 1 = 1
        · obtain ⟨a, ha, hab, hat⟩ := hn h1
          have hlt : tb < e.time := by
            rcases (endFirst_iff a e).1 (hle a ha e (List.mem_cons_self ..)) with h | ⟨h, h'⟩
            · omega
            · rw [h' hb] at hab; cases hab
          rw [if_neg (show ¬ (decide (2 ≤ n - 1) = true) by simp; omega), if_pos h2, if_pos hlt]
          refine ⟨rfl, fun z hz => ?_⟩
          rcases List.mem_cons.1 hz with rfl | hz
          · exact ⟨⟨a, by simp [ha], hab, hat⟩, ⟨e, by simp, hb, rfl⟩⟩
          · exact ih2 z hz
        · rw [if_pos (show decide (2 ≤ n - 1) = true by simp; omega), if_neg h2]
          exact ⟨rfl, ih2⟩
      · rw [if_neg (show ¬ (decide (2 ≤ n) = true) by simpa using h1), if_neg (show ¬ (decide (2 ≤ n - 1) = true) by simp; omega), if_neg (by omega)]
        exact ⟨rfl, ih2⟩
    · simp only [if_true]
      obtain ⟨ih1, ih2⟩ := zoneLoop_scan es (pre ++ [e]) (n + 1) (if n + 1 = 2 then e.time else tb) ho' (fun h => by
        by_cases h2 : n + 1 = 2
        · rw [if_pos h2]; exact ⟨e, by simp, hb, rfl⟩
        · rw [if_neg h2]
          obtain ⟨a, ha, h'⟩ := hn (by omega)
          exact ⟨a, List.mem_append_left _ ha, h'⟩)
      refine ⟨?_, ih2⟩
      rw [ih1]
      by_cases h1 : 2 ≤ n
      · rw [if_pos (show decide (2 ≤ n) = true by simpa using h1), if_pos (show decide (2 ≤ n + 1) = true by simp; omega), if_neg (by omega)]
      · rw [if_neg (show ¬ (decide (2 ≤ n) = true) by simpa using h1)]
        by_cases h2 : n + 1 = 2
        · rw [if_pos h2, if_pos (show decide (2 ≤ n + 1) = true by simp; omega)]
        · rw [if_neg h2, if_neg (show ¬ (decide (2 ≤ n + 1) = true) by simp; omega)]

/-- The events of the turns. -/
def turnEvents (ref : List Turn) : List Ev := (ref.filter (fun t => t.tb < t.te)).flatMap (fun t => both (.ref t.spkr) t.tb t.te)

theorem turnEvents_of (ref : List Turn) :
    Of (fun _ => true) (turnEvents ref) ((ref.filter (fun t => t.tb < t.te)).map (fun t => (t.tb, t.te))) :=
  Of.flat (k := fun _ => true) _ (fun t : Turn => Kind.ref t.spkr) (fun t => (t.tb, t.te)) (fun _ _ _ => rfl)

theorem countP_turns (ref : List Turn) (x : Int) :
    ((ref.filter (fun t => t.tb < t.te)).map (fun t => (t.tb, t.te))).countP (fun u => decide (u.1 ≤ x ∧ x < u.2)) =
      ref.countP (fun t => decide (t.tb ≤ x ∧ x < t.te)) := by
  rw [List.countP_map, List.countP_filter]
  congr 1
  funext t
  rw [Function.comp]
  by_cases h : t.tb ≤ x ∧ x < t.te
  · have : t.tb < t.te := by omega
    simp [h, this]
  · simp only [h]; simp

theorem of_net_zero {k : Ev → Bool} {L : List Ev} {iv : List (Int × Int)} (h : Of k L iv) : net k L = 0 := by
  have h1 := h true (fun _ => true)
  have h2 := h false (fun _ => true)
  unfold net
  have e1 : L.countP (fun e => k e && e.beg) = iv.length := by
    refine Eq.trans ?_ (h1.trans ?_)
    · congr 1; funext e; cases e.beg <;> simp
    · simp
  have e2 : L.countP (fun e => k e && !e.beg) = iv.length := by
    refine Eq.trans ?_ (h2.trans ?_)
    · congr 1; funext e; cases e.beg <;> simp
    · simp
  rw [e1, e2]; omega

theorem mem_turnEvents {ref : List Turn} {e : Ev} (h : e ∈ turnEvents ref) :
    ∃ t ∈ ref, e.time = if e.beg then t.tb else t.te := by
  unfold turnEvents both at h
  rw [List.mem_flatMap] at h
  obtain ⟨t, ht, he⟩ := h
  refine ⟨t, (List.mem_filter.1 ht).1, ?_⟩
  rcases List.mem_cons.1 he with rfl | he
  · rfl
  · rcases List.mem_cons.1 he with rfl | he
    · rfl
    · cases he

/-- The zones: where two turns or more are; they begin where a turn begins and end where one ends. -/
theorem overlapZones_spec (sort : List Ev → List Ev) (hs : Sorts endFirst sort) (ref : List Turn) :
    (∀ x, Inside (overlapZones sort ref) x ↔ 2 ≤ ref.countP (fun t => decide (t.tb ≤ x ∧ x < t.te))) ∧
    (∀ z ∈ overlapZones sort ref, z.1 < z.2 ∧ (∃ t ∈ ref, t.tb = z.1) ∧ (∃ t ∈ ref, t.te = z.2)) := by
  obtain ⟨hp, ho⟩ := hs (turnEvents ref)
  obtain ⟨h1, h2⟩ := zoneLoop_scan (sort (turnEvents ref)) [] 0 0 (by simpa using ho) (fun h => by omega)
  have hz : overlapZones sort ref = zoneLoop 0 0 (sort (turnEvents ref)) := rfl
  have hpos : ∀ u ∈ (ref.filter (fun t => t.tb < t.te)).map (fun t => (t.tb, t.te)), u.1 < u.2 := by
    intro u hu
    obtain ⟨t, ht, rfl⟩ := List.mem_map.1 hu
    simpa using (List.mem_filter.1 ht).2
  refine ⟨fun x => ?_, fun z hzm => ?_⟩
  · rw [hz, h1, scan_inside _ _ x _ _ _ (end_time ho) ?_ (by intro h; simp at h)]
    · rw [fold_net, net_perm (hp.filter _), net_at (turnEvents_of ref) hpos, countP_turns]
      simp only [decide_eq_true_eq]
      constructor
      · rintro ⟨h, _⟩; omega
      · intro h; exact ⟨by omega, fun h => by omega⟩
    · rw [fold_net, net_perm hp, of_net_zero (turnEvents_of ref)]
      rfl
  · rw [hz] at hzm
    have hlt : z.1 < z.2 := by
      rw [h1] at hzm
      exact (scan_order _ _ _ _ _ (end_time ho)).1 z hzm
    obtain ⟨⟨e, he, hb, ht⟩, ⟨e', he', hb', ht'⟩⟩ := h2 z hzm
    obtain ⟨t, htm, hh⟩ := mem_turnEvents (hp.mem_iff.1 (by simpa using he))
    obtain ⟨t', htm', hh'⟩ := mem_turnEvents (hp.mem_iff.1 (by simpa using he'))
    rw [hb, if_pos rfl] at hh
    rw [hb', if_neg (by decide)] at hh'
    exact ⟨hlt, ⟨t, htm, by omega⟩, ⟨t', htm', by omega⟩⟩

/-! ## Taking zones out -/

def isU (e : Ev) : Bool := decide (e.kind = .uem)
def isZ (e : Ev) : Bool := decide (e.kind = .nsz)

/-- The counters alone. -/
def mstep (s : Int × Int) (e : Ev) : Int × Int :=
  (s.1 + (if isU e then (if e.beg then 1 else -1) else 0), s.2 + (if isZ e then (if e.beg then 1 else -1) else 0))

theorem mstep_fold : ∀ (es : List Ev) (s : Int × Int), es.foldl mstep s = (s.1 + net isU es, s.2 + net isZ es)
  | [], s => by simp [net_nil]
  | e :: es, s => by
    rw [List.foldl_cons, mstep_fold es, net_cons, net_cons]
    unfold mstep
    refine Prod.ext ?_ ?_ <;> simp only <;> omega

def mon (s : Int × Int) : Bool := decide (0 < s.1 ∧ s.2 = 0)

/-- When no zone begins where a zone ends or an interval begins, and none ends where an interval ends, the loop is a scan. -/
theorem mergeLoop_scan (L : List Ev) (zones uem : List (Int × Int)) (hu : Of isU L uem) (hz : Of isZ L zones)
    (hk : ∀ e ∈ L, isU e = true ∨ isZ e = true)
    (hposu : ∀ u ∈ uem, u.1 < u.2) (hposz : ∀ u ∈ zones, u.1 < u.2) (hap : Apart uem)
    (ho : L.Pairwise (fun a b => endFirst a b = true))
    (H : ∀ a ∈ L, ∀ b ∈ L, isZ a = true → a.beg = true → (isZ b = true ∧ b.beg = false ∨ isU b = true ∧ b.beg = true) → a.time ≠ b.time)
    (H' : ∀ a ∈ L, ∀ b ∈ L, isZ a = true → a.beg = false → isU b = true → b.beg = false → a.time ≠ b.time) :
    ∀ (es pre : List Ev) (st : MergeSt), L = pre ++ es → st.evl = net isU pre → st.nsz = net isZ pre →
      (st.on = mon (st.evl, st.nsz)) →
      (st.on = true → ∃ p0 e0, pre = p0 ++ [e0] ∧ st.tb = e0.time ∧ (isU e0 = true ∧ e0.beg = true ∨ isZ e0 = true ∧ e0.beg = false)) →
      mergeLoop st es = scan mstep mon (st.evl, st.nsz) st.tb es
  | [], _, _, _, _, _, _, _ => rfl
  | e :: es, pre, st, hL, hE, hZ, hon, hlast => by
    have hL' : L = (pre ++ [e]) ++ es := by rw [hL]; simp
    have heL : e ∈ L := by rw [hL]; simp
    have uz : ¬ (isU e = true ∧ isZ e = true) := by
      rintro ⟨a, b⟩
      simp [isU] at a; simp [isZ, a] at b
    have lo0 : 0 ≤ net isU (pre ++ [e]) := prefix_lower hu hposu hL ho
    have hi0 : net isU (pre ++ [e]) ≤ 1 := prefix_upper hu hposu hap hL ho
    have lz0 : 0 ≤ net isZ (pre ++ [e]) := prefix_lower hz hposz hL ho
    have pl : 0 ≤ net isU pre ∧ net isU pre ≤ 1 ∧ 0 ≤ net isZ pre := by
      rcases List.eq_nil_or_concat pre with rfl | ⟨p, a, hpa⟩
      · simp [net_nil]
      · rw [hpa, List.concat_eq_append]
        have hLa : L = p ++ a :: (e :: es) := by rw [hL, hpa]; simp
        exact ⟨prefix_lower hu hposu hLa ho, prefix_upper hu hposu hap hLa ho, prefix_lower hz hposz hLa ho⟩
    have nU : net isU (pre ++ [e]) = net isU pre + (if isU e then (if e.beg then 1 else -1) else 0) := by
      rw [net_append, net_cons, net_nil]; omega
    have nZ : net isZ (pre ++ [e]) = net isZ pre + (if isZ e then (if e.beg then 1 else -1) else 0) := by
      rw [net_append, net_cons, net_nil]; omega
    have hcount : st.count e = { st with evl := net isU (pre ++ [e]), nsz := net isZ (pre ++ [e]) } := by
      unfold MergeSt.count
      have a1 : (if e.kind = .uem then st.evl + (if e.beg then 1 else -1) else st.evl) = net isU (pre ++ [e]) := by
        rw [nU, hE]
        by_cases h : e.kind = .uem <;> simp [isU, h]
      have a2 : (if e.kind = .nsz then st.nsz + (if e.beg then 1 else -1) else st.nsz) = net isZ (pre ++ [e]) := by
        rw [nZ, hZ]
        by_cases h : e.kind = .nsz <;> simp [isZ, h]
      rw [a1, a2]
    have hstep : mstep (st.evl, st.nsz) e = (net isU (pre ++ [e]), net isZ (pre ++ [e])) := by
      unfold mstep; rw [nU, nZ, hE, hZ]
    rw [mergeLoop, scan, hcount, hstep]
    dsimp only
    cases hst : st.on
    · -- off before
      rw [hst] at hon
      rw [← hon, if_neg (show ¬ (false = true ∧ _) from fun h => absurd h.1 (by decide)), if_neg (show ¬ (false = true) by decide)]
      by_cases hc : net isU (pre ++ [e]) > 0 ∧ net isZ (pre ++ [e]) = 0
      · have hm : mon (net isU (pre ++ [e]), net isZ (pre ++ [e])) = true := by simp [mon]; omega
        rw [if_pos hc, if_pos hm]
        refine mergeLoop_scan L zones uem hu hz hk hposu hposz hap ho H H' es (pre ++ [e]) _ hL' rfl rfl hm.symm (fun _ => ?_)
        refine ⟨pre, e, rfl, rfl, ?_⟩
        have hof : ¬ (0 < net isU pre ∧ net isZ pre = 0) := by
          rw [hE, hZ] at hon
          intro h
          simp [mon, h] at hon
        rcases hk e heL with h | h
        · left
          refine ⟨h, ?_⟩
          have h0 : isZ e = false := by cases hh : isZ e; rfl; exact absurd ⟨h, hh⟩ uz
          rw [h, if_pos rfl] at nU
          rw [h0, if_neg (by decide)] at nZ
          cases hb : e.beg
          · rw [hb] at nU; simp at nU; omega
          · rfl
        · right
          refine ⟨h, ?_⟩
          have h0 : isU e = false := by cases hh : isU e; rfl; exact absurd ⟨hh, h⟩ uz
          rw [h, if_pos rfl] at nZ
          rw [h0, if_neg (by decide)] at nU
          cases hb : e.beg
          · rfl
          · rw [hb] at nZ; simp at nZ; omega
      · have hm : mon (net isU (pre ++ [e]), net isZ (pre ++ [e])) = false := by
          cases hh : mon (net isU (pre ++ [e]), net isZ (pre ++ [e]))
          · rfl
          · simp [mon] at hh; exact absurd ⟨hh.1, hh.2⟩ hc
        rw [if_neg hc, hm, if_neg (by decide)]
        refine mergeLoop_scan L zones uem hu hz hk hposu hposz hap ho H H' es (pre ++ [e]) _ hL' rfl rfl ?_ (fun h => ?_)
        · rw [hm]
        · cases h
    · -- on before
      obtain ⟨p0, e0, hp0, htb, h0⟩ := hlast hst
      have hon' : 0 < net isU pre ∧ net isZ pre = 0 := by
        rw [hst, hE, hZ] at hon
        have := hon.symm
        simpa [mon] using this
      rw [hst] at hon
      rw [← hon, if_pos rfl]
      have he0 : endFirst e0 e = true := by
        have := (List.pairwise_append.1 (hL ▸ ho)).2.2 e0 (by rw [hp0]; simp) e (List.mem_cons_self ..)
        exact this
      have he0L : e0 ∈ L := by rw [hL, hp0]; simp
      have hoff : ¬ (0 < net isU (pre ++ [e]) ∧ net isZ (pre ++ [e]) = 0) := by
        intro h
        rcases hk e heL with hh | hh
        · rw [hh, if_pos rfl] at nU
          cases hb : e.beg <;> rw [hb] at nU <;> simp at nU <;> omega
        · rw [hh, if_pos rfl] at nZ
          cases hb : e.beg <;> rw [hb] at nZ <;> simp at nZ <;> omega
      have hlt : st.tb < e.time := by
        rw [htb]
        rcases (endFirst_iff e0 e).1 he0 with h | ⟨h, h'⟩
        · exact h
        · exfalso
          rcases hk e heL with hh | hh
          · rw [hh, if_pos rfl] at nU
            cases hb : e.beg
            · have hb0 := h' hb
              rcases h0 with ⟨_, hc⟩ | ⟨hc, _⟩
              · rw [hb0] at hc; cases hc
              · exact H' e0 he0L e heL hc hb0 hh hb h
            · rw [hb] at nU; simp at nU; omega
          · rw [hh, if_pos rfl] at nZ
            cases hb : e.beg
            · rw [hb] at nZ; simp at nZ; omega
            · refine H e heL e0 he0L hh hb ?_ h.symm
              rcases h0 with h0 | h0
              · exact Or.inr h0
              · exact Or.inl h0
      have hm : mon (net isU (pre ++ [e]), net isZ (pre ++ [e])) = false := by
        cases hh : mon (net isU (pre ++ [e]), net isZ (pre ++ [e]))
        · rfl
        · simp [mon] at hh; exact absurd hh hoff
      rw [hm, if_neg (show ¬ (false = true) by decide), if_pos hlt, if_pos ⟨rfl, by omega, hlt⟩]
      congr 1
      refine mergeLoop_scan L zones uem hu hz hk hposu hposz hap ho H H' es (pre ++ [e]) _ hL' rfl rfl ?_ (fun h => ?_)
      · rw [hm]
      · cases h

theorem takeOut_inside (sort : List Ev → List Ev) (hs : Sorts endFirst sort) (zones uem : List (Int × Int))
    (hposu : ∀ u ∈ uem, u.1 < u.2) (hposz : ∀ u ∈ zones, u.1 < u.2) (hap : Apart uem)
    (H1 : ∀ z ∈ zones, ∀ z' ∈ zones, z.1 ≠ z'.2) (H2 : ∀ z ∈ zones, ∀ u ∈ uem, z.1 ≠ u.1) (H3 : ∀ z ∈ zones, ∀ u ∈ uem, z.2 ≠ u.2) :
    (∀ x, Inside (takeOut sort zones uem) x ↔ Inside uem x ∧ ¬ Inside zones x) ∧
    (∀ u ∈ takeOut sort zones uem, u.1 < u.2) ∧ Apart (takeOut sort zones uem) := by
  obtain ⟨hp, ho⟩ := hs (mergeEvents zones uem)
  have huf : uem.filter (fun u => decide (u.1 < u.2)) = uem := by
    rw [List.filter_eq_self]; intro u hu; simpa using hposu u hu
  have hE : mergeEvents zones uem = zones.flatMap (fun z => both .nsz z.1 z.2) ++ uem.flatMap (fun u => both .uem u.1 u.2) := by
    unfold mergeEvents; rw [huf]
  have kz : ∀ e ∈ zones.flatMap (fun z => both .nsz z.1 z.2), isZ e = true ∧ isU e = false ∧ ∃ z ∈ zones, e.time = if e.beg then z.1 else z.2 := by
    intro e he
    obtain ⟨z, hz, he⟩ := List.mem_flatMap.1 he
    unfold both at he
    rcases List.mem_cons.1 he with rfl | he
    · exact ⟨rfl, rfl, z, hz, rfl⟩
    · rcases List.mem_cons.1 he with rfl | he
      · exact ⟨rfl, rfl, z, hz, rfl⟩
      · cases he
  have ku : ∀ e ∈ uem.flatMap (fun z => both .uem z.1 z.2), isZ e = false ∧ isU e = true ∧ ∃ z ∈ uem, e.time = if e.beg then z.1 else z.2 := by
    intro e he
    obtain ⟨z, hz, he⟩ := List.mem_flatMap.1 he
    unfold both at he
    rcases List.mem_cons.1 he with rfl | he
    · exact ⟨rfl, rfl, z, hz, rfl⟩
    · rcases List.mem_cons.1 he with rfl | he
      · exact ⟨rfl, rfl, z, hz, rfl⟩
      · cases he
  have hU : Of isU (mergeEvents zones uem) uem := by
    rw [hE]
    have h := Of.flat (k := isU) uem (fun _ => Kind.uem) (fun u => u) (fun _ _ _ => rfl)
    rw [List.map_id'] at h
    exact (Of.none (fun e he => (kz e he).2.1)).append h
  have hZ : Of isZ (mergeEvents zones uem) zones := by
    rw [hE]
    have h := Of.flat (k := isZ) zones (fun _ => Kind.nsz) (fun u => u) (fun _ _ _ => rfl)
    rw [List.map_id'] at h
    have := h.append (Of.none (k := isZ) (L := uem.flatMap (fun u => both .uem u.1 u.2)) (fun e he => (ku e he).1))
    rw [List.append_nil] at this
    exact this
  have tz : ∀ e ∈ sort (mergeEvents zones uem), isZ e = true → ∃ z ∈ zones, e.time = if e.beg then z.1 else z.2 := by
    intro e he hez
    rcases List.mem_append.1 (hE ▸ hp.mem_iff.1 he) with h | h
    · exact (kz e h).2.2
    · rw [(ku e h).1] at hez; cases hez
  have tu : ∀ e ∈ sort (mergeEvents zones uem), isU e = true → ∃ z ∈ uem, e.time = if e.beg then z.1 else z.2 := by
    intro e he hez
    rcases List.mem_append.1 (hE ▸ hp.mem_iff.1 he) with h | h
    · rw [(kz e h).2.1] at hez; cases hez
    · exact (ku e h).2.2
  have hscan : takeOut sort zones uem = scan mstep mon (0, 0) 0 (sort (mergeEvents zones uem)) := by
    refine mergeLoop_scan (sort (mergeEvents zones uem)) zones uem (hU.perm hp) (hZ.perm hp) ?_ hposu hposz hap ho ?_ ?_ _ []
      ⟨0, 0, 0, false⟩ rfl rfl rfl rfl (fun h => by cases h)
    · intro e he
      rcases List.mem_append.1 (hE ▸ hp.mem_iff.1 he) with h | h
      · exact Or.inr (kz e h).1
      · exact Or.inl (ku e h).2.1
    · intro a ha b hb haz hab hbk heq
      obtain ⟨z, hz, hzt⟩ := tz a ha haz
      rw [hab, if_pos rfl] at hzt
      rcases hbk with ⟨hbz, hbb⟩ | ⟨hbu, hbb⟩
      · obtain ⟨z', hz', hzt'⟩ := tz b hb hbz
        rw [hbb, if_neg (by decide)] at hzt'
        exact H1 z hz z' hz' (by omega)
      · obtain ⟨u, hu, hut⟩ := tu b hb hbu
        rw [hbb, if_pos rfl] at hut
        exact H2 z hz u hu (by omega)
    · intro a ha b hb haz hab hbu hbb heq
      obtain ⟨z, hz, hzt⟩ := tz a ha haz
      obtain ⟨u, hu, hut⟩ := tu b hb hbu
      rw [hab, if_neg (by decide)] at hzt
      rw [hbb, if_neg (by decide)] at hut
      exact H3 z hz u hu (by omega)
  rw [hscan]
  refine ⟨fun x => ?_, (scan_order _ _ _ _ _ (end_time ho)).1, ordered_apart (scan_order _ _ _ _ _ (end_time ho)).2⟩
  rw [scan_inside _ _ x _ _ _ (end_time ho) ?_ (by intro h; simp [mon] at h)]
  · rw [mstep_fold, net_perm (hp.filter _), net_perm (hp.filter _), net_at hU hposu, net_at hZ hposz]
    rw [← inside_pos (iv := uem), ← inside_pos (iv := zones)]
    simp only [mon, decide_eq_true_eq]
    constructor
    · rintro ⟨h, _⟩; constructor <;> omega
    · rintro ⟨h, h'⟩; exact ⟨by omega, fun h => by omega⟩
  · rw [mstep_fold, net_perm hp, net_perm hp, of_net_zero hU, of_net_zero hZ]
    rfl

end Verif.Diar
