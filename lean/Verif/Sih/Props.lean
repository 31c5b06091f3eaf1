import Verif.Sih.Grow
import Verif.Rttm2Ctm.Lemmas
/-!
# Properties of the hash table of words
-/
set_option autoImplicit false
namespace Verif.Sih
open Verif.TextVal (space)

/-! ## C305: the table is a dictionary -/

/-- Whatever the hash function, a table with rates that are allowed takes all words and values one after the other, no call runs for ever, and every word is
afterwards found with the value it was given last, and no other. -/
theorem dictionary (h : List Char → Nat) (size : Int) (on od gn gd : Nat) (hd : 0 < od) (hg : 0 < gd) (t : Table) (hc : create size on od gn gd = some t)
    (ops : List (List Char × Int)) (hne : ∀ o ∈ ops, o.1 ≠ []) :
    ∃ t', each (add h) t ops = some t' ∧ ∀ s, s ≠ [] → lookup h t' s = some (match saidAll silent ops s with
      | none => (false, 0)
      | some v => (true, v)) := by
  obtain ⟨t', h1, ok⟩ := each_spec ops hne (create_ok h hd hg hc).1
  exact ⟨t', h1, fun s hs => lookup_spec ok hs⟩

/-- A table is made exactly if the rates are from 0.01 to 0.99 and from 1.1 to 100. -/
theorem created (size : Int) (on od gn gd : Nat) :
    (∃ t, create size on od gn gd = some t) ↔ od ≤ 100 * on ∧ 100 * on ≤ 99 * od ∧ 11 * gd ≤ 10 * gn ∧ gn ≤ 100 * gd := by
  unfold create
  obtain ⟨n, hn, _⟩ := nearest_spec (max size 11).toNat (by omega)
  rw [hn]
  dsimp only
  by_cases h1 : (decide (100 * on < od) || decide (99 * od < 100 * on)) = true
  · rw [if_pos h1]
    simp only [Bool.or_eq_true, decide_eq_true_eq] at h1
    constructor
    · rintro ⟨_, h⟩
      cases h
    · rintro ⟨_, _, _, _⟩
      omega
  · rw [if_neg h1]
    simp only [Bool.or_eq_true, decide_eq_true_eq, not_or] at h1
    by_cases h2 : (decide (10 * gn < 11 * gd) || decide (100 * gd < gn)) = true
    · rw [if_pos h2]
      simp only [Bool.or_eq_true, decide_eq_true_eq] at h2
      constructor
      · rintro ⟨_, h⟩
        cases h
      · rintro ⟨_, _, _, _⟩
        omega
    · rw [if_neg h2]
      simp only [Bool.or_eq_true, decide_eq_true_eq, not_or] at h2
      exact ⟨fun _ => by omega, fun _ => ⟨_, rfl⟩⟩

/-- A hash function for the examples that gives all words the same slot. -/
def bad (_ : List Char) : Nat := 25

example : ((create 1 1 2 2 1).bind (fun t => each (add bad) t
      [("a".toList, 1), ("b".toList, 2), ("a".toList, 3), ("c".toList, 4), ("d".toList, 5), ("e".toList, 6), ("f".toList, 7)])).map
        (fun t => [(some (false, (t.slots.length : Int))), lookup bad t "a".toList, lookup bad t "f".toList, lookup bad t "g".toList]) =
    some [some (false, 29), some (true, 3), some (true, 7), some (false, 0)] := by decide +kernel

/-! ## C306: the number of entries -/

/-- The number of entries is the number of different words that were added, and there are always more slots than entries. -/
theorem entries_counted (h : List Char → Nat) (size : Int) (on od gn gd : Nat) (hd : 0 < od) (hg : 0 < gd) (t t' : Table)
    (hc : create size on od gn gd = some t) (ops : List (List Char × Int)) (hne : ∀ o ∈ ops, o.1 ≠ []) (ht : each (add h) t ops = some t') :
    t'.nentries < t'.slots.length ∧ ∃ words : List (List Char), words.Nodup ∧ (∀ s, s ∈ words ↔ ∃ v, (s, v) ∈ ops) ∧ t'.nentries = words.length := by
  obtain ⟨t1, h1, ok⟩ := each_spec ops hne (create_ok h hd hg hc).1
  rw [ht] at h1
  injection h1 with h1
  subst h1
  refine ⟨by rw [ok.count]; exact ok.good.room, (entries t'.slots).map Prod.fst, ?_, ?_, by rw [ok.count, List.length_map]⟩
  · exact List.pairwise_map.2 ok.good.distinct
  · intro s
    have key : (∃ v, saidAll silent ops s = some v) ↔ ∃ v, (s, v) ∈ ops := by
      clear ok ht hc hne
      have : ∀ m : List Char → Option Int, (∃ v, saidAll m ops s = some v) ↔ (∃ v, m s = some v) ∨ ∃ v, (s, v) ∈ ops := by
        induction ops with
        | nil => intro m; simp [saidAll]
        | cons o ops ih =>
          intro m
          obtain ⟨u, w⟩ := o
          unfold saidAll
          rw [ih]
          unfold said
          by_cases e : s = u
          · rw [if_pos e]
            exact ⟨fun _ => .inr ⟨w, by rw [e]; exact List.mem_cons_self⟩, fun _ => .inl ⟨w, rfl⟩⟩
          · rw [if_neg e]
            constructor
            · rintro (h | ⟨v, h⟩)
              · exact .inl h
              · exact .inr ⟨v, List.mem_cons_of_mem _ h⟩
            · rintro (h | ⟨v, h⟩)
              · exact .inl h
              · rcases List.mem_cons.1 h with h | h
                · injection h with h _
                  exact absurd h e
                · exact .inr ⟨v, h⟩
      rw [this]
      simp [silent]
    rw [← key, List.mem_map]
    constructor
    · rintro ⟨⟨u, v⟩, hm, rfl⟩
      exact ⟨v, (ok.good.says u v).1 ((mem_entries _ _ _).1 hm)⟩
    · rintro ⟨v, hv⟩
      exact ⟨(s, v), (mem_entries _ _ _).2 ((ok.good.says s v).2 hv), rfl⟩

/-! ## C307: the limit of the occupancy -/

/-- A limit of a third or more is never exceeded, by a table that does not exceed it. -/
theorem occupancy_partial (h : List Char → Nat) (size : Int) (on od gn gd : Nat) (hd : 0 < od) (hg : 0 < gd) (h3 : od ≤ 3 * on) (t t' : Table)
    (hc : create size on od gn gd = some t) (ops : List (List Char × Int)) (hne : ∀ o ∈ ops, o.1 ≠ []) (ht : each (add h) t ops = some t') :
    t'.nentries * od ≤ on * t'.slots.length := by
  obtain ⟨ok, ho, hdd, h0⟩ := create_ok h hd hg hc
  have gen : ∀ (ops : List (List Char × Int)) (t : Table) (m : List Char → Option Int), Ok h t m → t.on = on → t.od = od →
      t.nentries * od ≤ on * t.slots.length → (∀ o ∈ ops, o.1 ≠ []) → each (add h) t ops = some t' → t'.nentries * od ≤ on * t'.slots.length := by
    intro ops
    induction ops with
    | nil =>
      intro t m _ _ _ hle _ e
      injection e with e
      rw [← e]
      exact hle
    | cons o ops ih =>
      intro t m ok e1 e2 hle hne e
      obtain ⟨s, v⟩ := o
      obtain ⟨t1, a1, ok1, a2, a3, a4, a5, a6⟩ := add_spec ok (hne (s, v) List.mem_cons_self) v
      unfold each at e
      rw [a1] at e
      refine ih t1 _ ok1 (by rw [a5, e1]) (by rw [a6, e2]) ?_ (fun o ho => hne o (List.mem_cons_of_mem _ ho)) e
      have hn : t1.nentries ≤ t.nentries + 1 := by
        rw [a2]
        split <;> omega
      have hmul : t1.nentries * od ≤ (t.nentries + 1) * od := Nat.mul_le_mul_right _ hn
      cases hov : over t (t.nentries + 1) t.slots.length
      · unfold over at hov
        rw [decide_eq_false_iff_not, e1, e2] at hov
        have : on * t.slots.length ≤ on * t1.slots.length := Nat.mul_le_mul_left _ a3
        omega
      · have : on * (t.slots.length + 3) ≤ on * t1.slots.length := Nat.mul_le_mul_left _ (a4 hov)
        rw [Nat.mul_add] at this
        rw [Nat.add_mul, Nat.one_mul] at hmul
        omega
  exact gen ops t silent ok ho hdd (by rw [h0, Nat.zero_mul]; exact Nat.zero_le _) hne ht

/-- A small limit is exceeded by the first word: the table grows once, and the factor that should make it large enough is always one. -/
theorem occupancy_counterexample :
    ((create 11 1 100 11 10).bind (fun t => add bad t "a".toList 1)).map (fun t => (t.nentries, t.slots.length, over t t.nentries t.slots.length)) =
      some (1, 17, true) := by decide +kernel

/-! ## C308: the number of slots -/

/-- From three on the nearest prime is found, which is the smallest that is not smaller. -/
theorem nearest_prime_partial (n : Nat) (hn : 3 ≤ n) : ∃ r, nearestPrime n = some r ∧ Prime r ∧ n ≤ r ∧ ∀ q, Prime q → n ≤ q → r ≤ q := nearest_spec n hn

/-- Below three it is not: one is no prime, and two would be nearer than three. -/
theorem nearest_prime_counterexample : nearestPrime 0 = some 1 ∧ nearestPrime 1 = some 1 ∧ nearestPrime 2 = some 3 := by decide +kernel

example : nearestPrime 1000 = some 1009 ∧ nearestPrime 9 = some 11 := by decide +kernel

/-! ## C309: files -/

/-- A table of words that do not contain a null is written, and read again as it was. -/
theorem written_read (h : List Char → Nat) (size : Int) (on od gn gd : Nat) (hd : 0 < od) (hg : 0 < gd) (t t' : Table)
    (hc : create size on od gn gd = some t) (ops : List (List Char × Int)) (hne : ∀ o ∈ ops, o.1 ≠ [] ∧ ∀ c ∈ o.1, c ≠ '\x00')
    (ht : each (add h) t ops = some t') : ∃ f, write t' = some f ∧ read f = .ok t' := by
  obtain ⟨t1, h1, ok⟩ := each_spec ops (fun o ho => (hne o ho).1) (create_ok h hd hg hc).1
  rw [ht] at h1
  injection h1 with h1
  subst h1
  have hstr : ∀ x ∈ t'.slots, ∀ s, x.str = some s → s ≠ [] ∧ ∀ c ∈ s, c ≠ '\x00' := by
    intro x hx s hs
    obtain ⟨i, hi⟩ := List.mem_iff_getElem?.1 hx
    have hi' : t'.slots[i]? = some ⟨some s, x.val⟩ := by rw [hi, ← hs]
    have hv := (ok.good.says s x.val).1 ⟨i, hi'⟩
    have : ∃ v, (s, v) ∈ ops := by
      apply Classical.byContradiction
      intro hn
      rw [saidAll_not (fun v hv => hn ⟨v, hv⟩)] at hv
      cases hv
    obtain ⟨v, hv⟩ := this
    exact hne _ hv
  refine ⟨⟨t'.on, t'.od, t'.gn, t'.gd, t'.slots.length, t'.nentries, t'.slots.map Slot.val, t'.slots.flatMap bytes⟩, ?_, ?_⟩
  · unfold write
    rw [if_neg (by simp [ok.count])]
  · unfold read
    rw [if_neg (by simp)]
    dsimp only
    rw [List.take_of_length_le (by simp), readSlots_written _ hstr]

/-- A block with fewer strings than there are slots is looked at behind its end: a block of one null for two slots. -/
theorem read_counterexample : read ⟨1, 2, 2, 1, 2, 0, [0, 0], ['\x00']⟩ = .outside := by decide

example : ((create 1 1 2 2 1).bind (fun t => each (add bad) t [("a".toList, 1), ("b".toList, 2)])).map (fun t => decide ((write t).map read = some (.ok t))) =
    some true := by decide +kernel

/-! ## C310: lists of words -/

/-- A line with a word, perhaps after white space and before other words. -/
def HasWord (l w : List Char) : Prop :=
  ∃ a r, l = a ++ (w ++ r) ∧ (∀ c ∈ a, space c = true) ∧ w ≠ [] ∧ (∀ c ∈ w, space c = false) ∧ ∀ c r', r = c :: r' → space c = true

theorem firstWord_eq {l w : List Char} (h : HasWord l w) : firstWord l = w := by
  obtain ⟨a, r, rfl, ha, hw0, hw, hr⟩ := h
  unfold firstWord
  have h1 : (a ++ (w ++ r)).dropWhile space = w ++ r := by
    cases w with
    | nil => exact absurd rfl hw0
    | cons c w => exact (Verif.Rttm2Ctm.take_stop ha (hw c List.mem_cons_self)).2
  rw [h1]
  cases r with
  | nil =>
    rw [List.append_nil]
    exact (Verif.Rttm2Ctm.take_all (fun c hc => by rw [hw c hc]; rfl)).1
  | cons c r => exact (Verif.Rttm2Ctm.take_stop (fun c hc => by rw [hw c hc]; rfl) (by rw [hr c r rfl]; rfl)).1

/-- A file in which every line that does not begin with ## has a word: the words are given the numbers of their lines, those that begin with ## not counted. -/
theorem numbered_partial (lines : List (List Char)) (ps : List (List Char × List Char)) (prev : Option (List Char)) (n : Nat)
    (hl : lines.filter (fun l => !("##".toList.isPrefixOf l)) = ps.map Prod.fst) (hw : ∀ p ∈ ps, HasWord p.1 p.2) :
    wordList prev n lines = some (((ps.map Prod.snd).zipIdx (n + 1)).map (fun x => (x.1, (x.2 : Int)))) := by
  induction lines generalizing ps prev n with
  | nil =>
    have : ps = [] := List.map_eq_nil_iff.1 hl.symm
    rw [this]
    rfl
  | cons l lines ih =>
    unfold wordList
    cases hc : "##".toList.isPrefixOf l
    · rw [List.filter_cons, if_pos (by rw [hc]; rfl)] at hl
      cases ps with
      | nil => cases hl
      | cons p ps =>
        injection hl with h1 h2
        have hp := hw p List.mem_cons_self
        have hne : p.2 ≠ [] := by
          obtain ⟨_, _, _, _, h0, _⟩ := hp
          exact h0
        rw [h1, if_neg Bool.false_ne_true, firstWord_eq hp, if_neg (by simpa using hne)]
        dsimp only
        rw [ih ps (some p.2) (n + 1) h2 (fun q hq => hw q (List.mem_cons_of_mem _ hq))]
        rfl
    · rw [List.filter_cons, if_neg (by rw [hc]; decide)] at hl
      rw [if_pos rfl]
      exact ih ps prev n hl hw

/-- An empty line gives the word before it another number, so that it is no more found under the first; the first line must not be empty. -/
theorem numbered_counterexample :
    wordList none 0 ["a".toList, [], "b".toList] = some [("a".toList, 1), ("a".toList, 2), ("b".toList, 3)] ∧ wordList none 0 [[], "b".toList] = none ∧
      saidAll silent [("a".toList, 1), ("a".toList, 2), ("b".toList, 3)] "a".toList = some 2 := by decide +kernel

example : wordList none 0 ["## c".toList, "the 7".toList, "# x".toList] = some [("the".toList, 1), ("#".toList, 2)] := by decide +kernel

end Verif.Sih
