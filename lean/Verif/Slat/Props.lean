import Verif.Slat.Lemmas
/-!
# What is proved of the report on latencies (C270 to C273)
-/
set_option autoImplicit false
namespace Verif.Slat

/-! ## C270: the histogram -/

theorem mem_freq {n : Nat} {l : List Int} {b : Bin} (h : b ∈ freq n l) : b.idx < n ∧ b.count ≠ 0 ∧
    b = ⟨b.idx, n * (srt l).head?.getD 0 + b.idx * ((srt l).getLast?.getD 0 - (srt l).head?.getD 0),
      n * (srt l).head?.getD 0 + b.idx * ((srt l).getLast?.getD 0 - (srt l).head?.getD 0) + ((srt l).getLast?.getD 0 - (srt l).head?.getD 0),
      (srt l).countP (inBin n ((srt l).head?.getD 0) ((srt l).getLast?.getD 0) b.idx)⟩ := by
  rw [freq_eq, List.mem_filterMap] at h
  obtain ⟨i, hi, h⟩ := h
  split at h
  · cases h
  · rename_i hc
    simp only [Option.some.injEq] at h
    subst h
    exact ⟨List.mem_range.1 hi, hc, rfl⟩

/-- For a value between the least and the greatest, the test of the program is that of the limits as printed, with the upper limit of the
last range included. -/
theorem inBin_belongs {n : Nat} {mn mx x : Int} {i c : Nat} (hD : mn < mx) (h2 : x ≤ mx) :
    inBin n mn mx i x = true ↔ Belongs n x ⟨i, n * mn + i * (mx - mn), n * mn + i * (mx - mn) + (mx - mn), c⟩ := by
  simp only [inBin, Bool.and_eq_true, decide_eq_true_eq, Belongs]
  split
  · rename_i hi
    have e : (n : Int) * mn + i * (mx - mn) + (mx - mn) = n * mx := by
      have : (n : Int) = i + 1 := by omega
      rw [this]
      simp only [Int.mul_sub, Int.add_mul]
      omega
    have : (n : Int) * x ≤ n * mx := Int.mul_le_mul_of_nonneg_left h2 (by omega)
    simp only [hi, true_and]
    omega
  · rename_i hi
    simp only [hi, false_and, or_false, ge_iff_le, Int.add_zero]

theorem srt_lt {l : List Int} {x y : Int} (hx : x ∈ l) (hy : y ∈ l) (hne : x ≠ y) : (srt l).head?.getD 0 < (srt l).getLast?.getD 0 := by
  have h1 := srt_bounds hx
  have h2 := srt_bounds hy
  omega

/-- If there are two different values, every value belongs to exactly one range of the histogram; the count of a range is the number of
the values that belong to it; and the counts add up to the number of values. -/
theorem freq_partition_partial {n : Nat} (hn : 0 < n) {l : List Int} {u v : Int} (hu : u ∈ l) (hv : v ∈ l) (hne : u ≠ v) :
    (∀ x ∈ l, ∃ b ∈ freq n l, Belongs n x b ∧ ∀ b' ∈ freq n l, Belongs n x b' → b' = b) ∧
    (∀ b ∈ freq n l, b.count = l.countP (fun x => decide (Belongs n x b))) ∧
    ((freq n l).map Bin.count).sum = l.length := by
  have hD := srt_lt hu hv hne
  have hb := fun {x : Int} (hx : x ∈ l) => srt_bounds hx
  refine ⟨fun x hx => ?_, fun b hbm => ?_, ?_⟩
  · obtain ⟨i, hi, huni⟩ := inBin_unique hn hD (hb hx).1 (hb hx).2
    have hin := (huni i hi).2 rfl
    have hc : (srt l).countP (inBin n ((srt l).head?.getD 0) ((srt l).getLast?.getD 0) i) ≠ 0 := by
      have : 0 < (srt l).countP (inBin n ((srt l).head?.getD 0) ((srt l).getLast?.getD 0) i) :=
        List.countP_pos_iff.2 ⟨x, (srt_perm l).mem_iff.2 hx, hin⟩
      omega
    refine ⟨_, ?_, (inBin_belongs (c := (srt l).countP (inBin n ((srt l).head?.getD 0) ((srt l).getLast?.getD 0) i)) hD (hb hx).2).1 hin, ?_⟩
    · rw [freq_eq, List.mem_filterMap]
      exact ⟨i, List.mem_range.2 hi, by rw [if_neg hc]⟩
    · intro b' hb' hbel
      obtain ⟨h1, _, h3⟩ := mem_freq hb'
      rw [h3] at hbel
      have := (huni _ h1).1 ((inBin_belongs hD (hb hx).2).2 hbel)
      rw [h3, this]
  · obtain ⟨_, _, h3⟩ := mem_freq hbm
    have : b.count = (srt l).countP (inBin n ((srt l).head?.getD 0) ((srt l).getLast?.getD 0) b.idx) := by rw [h3]
    rw [this, (srt_perm l).countP_eq]
    refine List.countP_congr (fun x hx => ?_)
    rw [decide_eq_true_eq, inBin_belongs (c := (srt l).countP (inBin n ((srt l).head?.getD 0) ((srt l).getLast?.getD 0) b.idx)) hD (hb hx).2, ← h3]
  · rw [freq_eq, sum_filterMap_count (fun i => (srt l).countP (inBin n ((srt l).head?.getD 0) ((srt l).getLast?.getD 0) i))
      (fun i => ⟨i, n * (srt l).head?.getD 0 + i * ((srt l).getLast?.getD 0 - (srt l).head?.getD 0),
        n * (srt l).head?.getD 0 + i * ((srt l).getLast?.getD 0 - (srt l).head?.getD 0) + ((srt l).getLast?.getD 0 - (srt l).head?.getD 0),
        (srt l).countP (inBin n ((srt l).head?.getD 0) ((srt l).getLast?.getD 0) i)⟩) (fun _ => rfl), sum_countP]
    · exact (srt_perm l).length_eq
    · intro x hx
      have hx' := (srt_perm l).mem_iff.1 hx
      obtain ⟨i, hi, huni⟩ := inBin_unique hn hD (hb hx').1 (hb hx').2
      exact countP_range_unique hi _ huni

/-- If all values are the same, the histogram has no range at all, however many values there are. -/
theorem freq_equal {n : Nat} {l : List Int} {c : Int} (h : ∀ x ∈ l, x = c) : freq n l = [] := by
  rw [freq_eq, List.filterMap_eq_nil_iff]
  intro i _
  rw [if_pos]
  rw [List.countP_eq_zero]
  intro x hx
  have hm : ∀ y ∈ srt l, y = c := fun y hy => h y ((srt_perm l).mem_iff.1 hy)
  have hne : srt l ≠ [] := List.ne_nil_of_mem hx
  have e1 : (srt l).head?.getD 0 = c := by
    cases hs : srt l with
    | nil => exact absurd hs hne
    | cons a s => exact hm a (by rw [hs]; exact List.mem_cons_self ..)
  have e2 : (srt l).getLast?.getD 0 = c := by
    rw [List.getLast?_eq_some_getLast hne, Option.getD_some]
    exact hm _ (List.getLast_mem hne)
  rw [e1, e2, hm x hx, inBin]
  simp

/-- The claim of C270 fails for three equal values. -/
theorem freq_counterexample : ((freq 10 [4, 4, 4]).map Bin.count).sum ≠ [(4 : Int), 4, 4].length := by
  rw [freq_equal (c := 4) (by simp)]
  decide

example : freq 4 [0, 1, 2, 8, 6, 8] = [⟨0, 0, 8, 2⟩, ⟨1, 8, 16, 1⟩, ⟨3, 24, 32, 3⟩] := by decide

/-! ## C271: every line with a latency counts -/

/-- The program dies exactly when a line does not have ten fields. -/
theorem load_dies (ls : List Line) : load ls = none ↔ ∃ l ∈ ls, l.nf ≠ 10 := by
  constructor
  · intro h
    refine Decidable.byContradiction (fun hn => ?_)
    have hall : ∀ l ∈ ls, l.nf = 10 := fun l hl => Decidable.byContradiction (fun h' => hn ⟨l, hl, h'⟩)
    rw [load, loadFrom_all ls [] hall] at h
    cases h
  · exact loadFrom_none ls []

/-- Of the lines with a latency that agree in type, file, channel, subtype, name and the text of the begin, the last one counts, and no
other. -/
theorem load_last {ls : List Line} {d : List Entry} (h : load ls = some d) :
    (d.map Entry.key).Nodup ∧ ∀ e, e ∈ d ↔ ∃ p q, ls.filterMap Line.entry = p ++ e :: q ∧ ∀ b ∈ q, b.key ≠ e.key := by
  have hall : ∀ l ∈ ls, l.nf = 10 := fun l hl => Decidable.byContradiction (fun h' => by
    rw [(load_dies ls).2 ⟨l, hl, h'⟩] at h; cases h)
  rw [load, loadFrom_all ls [] hall, Option.some.injEq] at h
  subst h
  refine ⟨foldl_put_nodup _ _ (by simp), fun e => ?_⟩
  rw [foldl_put_mem _ [] (by simp)]
  simp

/-- If no two lines with a latency agree in these, each counts once. -/
theorem load_all_partial {ls : List Line} (hall : ∀ l ∈ ls, l.nf = 10) (hn : ((ls.filterMap Line.entry).map Entry.key).Nodup) :
    load ls = some (ls.filterMap Line.entry) := by
  rw [load, loadFrom_all ls [] hall, foldl_put_fresh _ [] (by simpa using hn)]
  rfl

/-- Two words of one speaker that begin together: the latency of the first is lost. -/
theorem load_lost : ∃ ls : List Line, (∀ l ∈ ls, l.nf = 10 ∧ l.slat.isSome) ∧ ls.Nodup ∧
    ∃ d, load ls = some d ∧ d.length < ls.length :=
  ⟨[⟨10, ⟨0, 0, 0, 0, 0, 100⟩, 100, some 50, some 300⟩, ⟨10, ⟨0, 0, 0, 0, 0, 100⟩, 100, some 20, some 500⟩], by decide, by decide,
    [⟨⟨0, 0, 0, 0, 0, 100⟩, 100, 20, 500⟩], rfl, by decide⟩

example : load [⟨10, ⟨0, 0, 0, 0, 0, 100⟩, 100, some 50, some 300⟩, ⟨10, ⟨0, 0, 0, 0, 0, 200⟩, 200, none, none⟩,
    ⟨10, ⟨0, 0, 0, 0, 0, 300⟩, 300, none, some 400⟩] = some [⟨⟨0, 0, 0, 0, 0, 100⟩, 100, 50, 300⟩, ⟨⟨0, 0, 0, 0, 0, 300⟩, 300, 0, 400⟩] := by
  decide

/-! ## C272: conditions and means -/

theorem isElement_iff (x : Nat) (l : List Nat) : isElement x l = true ↔ Allows l x := by
  cases l with
  | nil => simp [isElement, Allows]
  | cons a l => simp [isElement, Allows]; simp only [eq_comm]

/-- The data used are those that satisfy all conditions; with none there is no report. -/
theorem compute_conditions (c : Cond) (n : Nat) (d : List Entry) :
    (compute c n d = none ↔ ∀ e ∈ d, ¬ (Allows c.types e.key.ty ∧ Allows c.files e.key.file ∧ Allows c.chans e.key.chan ∧
      Allows c.subs e.key.sub ∧ Allows c.names e.key.name)) ∧
    ∀ r, compute c n d = some r → ∃ u : List Entry, u.Sublist d ∧
      (∀ e, e ∈ u ↔ e ∈ d ∧ Allows c.types e.key.ty ∧ Allows c.files e.key.file ∧ Allows c.chans e.key.chan ∧
        Allows c.subs e.key.sub ∧ Allows c.names e.key.name) ∧
      r.1.num = u.length ∧ r.2.1.num = u.length ∧ r.2.2.num = u.length ∧
      r.1.sum = sumOf (u.map (fun e => 2 * (e.slat - e.beg))) ∧
      r.2.1.sum = sumOf (u.map (fun e => 2 * e.slat - (2 * e.beg + e.dur))) ∧
      r.2.2.sum = sumOf (u.map (fun e => 2 * (e.slat - (e.beg + e.dur)))) := by
  have hsat : ∀ e : Entry, c.sat e.key = true ↔ Allows c.types e.key.ty ∧ Allows c.files e.key.file ∧ Allows c.chans e.key.chan ∧
      Allows c.subs e.key.sub ∧ Allows c.names e.key.name := by
    intro e
    simp only [Cond.sat, Bool.and_eq_true, isElement_iff, and_assoc]
  have hstat : ∀ l : List Int, (stat n l).num = l.length ∧ (stat n l).sum = sumOf l := by
    intro l
    rw [stat]
    split <;> exact ⟨rfl, total_eq l⟩
  constructor
  · rw [compute]
    split
    · rename_i h0
      simp only [List.length_eq_zero_iff, List.filter_eq_nil_iff, hsat] at h0
      simp only [true_iff]
      exact h0
    · rename_i h0
      simp only [List.length_eq_zero_iff, List.filter_eq_nil_iff, hsat] at h0
      simp only [reduceCtorEq, false_iff]
      exact h0
  · intro r hr
    rw [compute] at hr
    split at hr
    · cases hr
    · simp only [Option.some.injEq] at hr
      subst hr
      refine ⟨d.filter (fun e => c.sat e.key), List.filter_sublist, fun e => ?_, ?_⟩
      · rw [List.mem_filter, hsat]
      · refine ⟨?_, ?_, ?_, ?_, ?_, ?_⟩
        · rw [(hstat _).1, List.length_map]
        · rw [(hstat _).1, List.length_map]
        · rw [(hstat _).1, List.length_map]
        · rw [(hstat _).2]; rfl
        · rw [(hstat _).2]; rfl
        · rw [(hstat _).2]; rfl

theorem sums (u : List Entry) : 2 * sumOf (u.map (fun e => 2 * e.slat - (2 * e.beg + e.dur))) =
    sumOf (u.map (fun e => 2 * (e.slat - e.beg))) + sumOf (u.map (fun e => 2 * (e.slat - (e.beg + e.dur)))) ∧
    ((∀ e ∈ u, 0 ≤ e.dur) → sumOf (u.map (fun e => 2 * (e.slat - (e.beg + e.dur)))) ≤ sumOf (u.map (fun e => 2 * (e.slat - e.beg)))) := by
  induction u with
  | nil => simp [sumOf]
  | cons e u ih =>
    obtain ⟨h1, h2⟩ := ih
    simp only [List.map_cons, sumOf_cons]
    refine ⟨by omega, fun h => ?_⟩
    have := h2 (fun x hx => h x (List.mem_cons_of_mem _ hx))
    have := h e (List.mem_cons_self ..)
    omega

/-- The mean latency from the middle is halfway between those from the begin and from the end; and with no negative duration the mean
from the begin is the greatest of the three. -/
theorem compute_means {c : Cond} {n : Nat} {d : List Entry} {r : Stat × Stat × Stat} (h : compute c n d = some r) :
    r.1.num = r.2.1.num ∧ r.2.1.num = r.2.2.num ∧ 2 * r.2.1.sum = r.1.sum + r.2.2.sum ∧
    ((∀ e ∈ d, 0 ≤ e.dur) → r.2.2.sum ≤ r.2.1.sum ∧ r.2.1.sum ≤ r.1.sum) := by
  obtain ⟨u, hs, hm, h1, h2, h3, h4, h5, h6⟩ := (compute_conditions c n d).2 r h
  obtain ⟨s1, s2⟩ := sums u
  rw [h1, h2, h3, h4, h5, h6]
  refine ⟨rfl, rfl, s1, fun hd => ?_⟩
  have := s2 (fun e he => hd e ((hm e).1 he).1)
  omega

example : (compute ⟨[], [], [], [0], []⟩ 10 [⟨⟨0, 0, 0, 0, 0, 1⟩, 100, 50, 300⟩, ⟨⟨1, 0, 0, 0, 0, 1⟩, 100, 50, 300⟩,
    ⟨⟨0, 0, 0, 0, 0, 3⟩, 200, 20, 400⟩]).isSome = true := by decide

/-! ## C273: the standard deviation -/

/-- The number under the root is a sum of squares; it is zero exactly when all values are the same. -/
theorem deviation_zero (l : List Int) : 0 ≤ deviation l ∧ (deviation l = 0 ↔ ∀ x ∈ l, ∀ y ∈ l, x = y) := by
  have hnn : ∀ z ∈ l.map (fun x => (l.length * x - total l) * (l.length * x - total l)), 0 ≤ z := by
    intro z hz
    obtain ⟨x, _, rfl⟩ := List.mem_map.1 hz
    exact sq_nonneg _
  rw [deviation_eq]
  refine ⟨sumOf_nonneg hnn, fun h0 x hx y hy => ?_, fun h => ?_⟩
  · have hz : ∀ x ∈ l, (l.length : Int) * x = total l := by
      intro x hx
      have := sumOf_zero hnn h0 _ (List.mem_map_of_mem hx)
      rcases Int.mul_eq_zero.1 this with h | h <;> omega
    have hpos : (0 : Int) < l.length := by
      have := List.length_pos_of_mem hx
      omega
    exact Int.eq_of_mul_eq_mul_left (by omega) ((hz x hx).trans (hz y hy).symm)
  · cases l with
    | nil => rfl
    | cons a l =>
      have hc : ∀ x ∈ a :: l, x = a := fun x hx => h x hx a (List.mem_cons_self ..)
      have ht : total (a :: l) = (a :: l).length * a := by rw [total_eq, sumOf_const hc]
      rw [sumOf_const (c := 0)]
      · simp
      · intro z hz
        obtain ⟨x, hx, rfl⟩ := List.mem_map.1 hz
        rw [ht, hc x hx]
        simp

/-- With at least two data the report has a standard deviation for each latency; with one it has none, and no histogram. -/
theorem compute_deviation {c : Cond} {n : Nat} {d : List Entry} {r : Stat × Stat × Stat} (h : compute c n d = some r) :
    (r.1.num = 1 → r.1.dev = none ∧ r.1.dist = none ∧ r.2.1.dev = none ∧ r.2.1.dist = none ∧ r.2.2.dev = none ∧ r.2.2.dist = none) ∧
    (r.1.num ≠ 1 → r.1.dev.isSome ∧ r.1.dist.isSome ∧ r.2.1.dev.isSome ∧ r.2.1.dist.isSome ∧ r.2.2.dev.isSome ∧ r.2.2.dist.isSome) := by
  rw [compute] at h
  split at h
  · cases h
  · simp only [Option.some.injEq] at h
    subst h
    simp only [stat, List.length_map]
    split
    · rename_i h1; exact ⟨fun _ => ⟨rfl, rfl, rfl, rfl, rfl, rfl⟩, fun h2 => absurd h1 h2⟩
    · rename_i h1; exact ⟨fun h2 => absurd h2 h1, fun _ => ⟨rfl, rfl, rfl, rfl, rfl, rfl⟩⟩

example : deviation [1, 2, 4] ≠ 0 ∧ deviation [3, 3] = 0 := by decide

end Verif.Slat
