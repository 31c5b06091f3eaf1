import Verif.Rpg.Spec
import Verif.Rpg.Model
/-!
# Lemmas on the breaking of texts into lines
-/
set_option autoImplicit false
namespace Verif.Rpg

/-- No `//` starts in `x` when `p` follows. -/
def Clear : List Char → List Char → Prop
  | [], _ => True
  | c :: x, p => atBreak (c :: (x ++ p)) = false ∧ Clear x p

theorem Clear.prefix : ∀ (x y p : List Char), Clear (x ++ y) p → Clear x (y ++ p)
  | [], _, _, _ => trivial
  | c :: x, y, p, h => by
    have h1 : atBreak (c :: ((x ++ y) ++ p)) = false := h.1
    refine ⟨?_, Clear.prefix x y p h.2⟩
    rw [List.append_assoc] at h1; exact h1

theorem clear_noBreak : ∀ (x p : List Char), Clear x p → ¬ ['/', '/'] <:+: x
  | [], _, _ => fun h => by
    have := h.length_le
    simp at this
  | c :: x, p, h => fun hi => by
    obtain ⟨a, b, hab⟩ := hi
    cases a with
    | nil =>
      have hx : c :: x = '/' :: '/' :: b := by simpa using hab.symm
      have h1 := h.1
      injection hx with e1 e2
      subst e1; subst e2
      simp [atBreak] at h1
    | cons d a =>
      have hx : c = d ∧ x = a ++ ['/', '/'] ++ b := by
        have : d :: (a ++ ['/', '/'] ++ b) = c :: x := by simpa using hab
        injection this with e1 e2
        exact ⟨e1.symm, e2.symm⟩
      exact clear_noBreak x p h.2 ⟨a, b, hx.2.symm⟩

theorem copy_spec : ∀ (w : Nat) (s : List Char),
    s = (copy w s).1 ++ (copy w s).2 ∧ (copy w s).1.length ≤ w ∧ Clear (copy w s).1 (copy w s).2 ∧
    ((copy w s).2 ≠ [] → atBreak (copy w s).2 = false → (copy w s).1.length = w)
  | 0, s => ⟨rfl, Nat.le_refl 0, trivial, fun _ _ => rfl⟩
  | w + 1, [] => ⟨rfl, Nat.zero_le _, trivial, fun h => absurd rfl h⟩
  | w + 1, c :: q => by
    obtain ⟨h1, h2, h3, h4⟩ := copy_spec w q
    by_cases hb : atBreak (c :: q) = true
    · have e : copy (w + 1) (c :: q) = ([], c :: q) := by show (if _ then _ else _) = _; rw [if_pos hb]
      rw [e]
      exact ⟨rfl, Nat.zero_le _, trivial, fun _ h => by simp only [hb] at h; exact Bool.noConfusion h⟩
    · have e : copy (w + 1) (c :: q) = (c :: (copy w q).1, (copy w q).2) := by show (if _ then _ else _) = _; rw [if_neg hb]
      rw [e]
      refine ⟨?_, ?_, ⟨?_, h3⟩, ?_⟩
      · show c :: q = c :: ((copy w q).1 ++ (copy w q).2)
        rw [← h1]
      · exact Nat.succ_le_succ h2
      · rw [← h1]; simpa using hb
      · intro a b
        show (copy w q).1.length + 1 = w + 1
        rw [h4 a b]

theorem backup_spec : ∀ (rb p : List Char),
    ((∃ y, rb.reverse ++ p = (backup rb p).1 ++ ' ' :: (backup rb p).2 ∧ (backup rb p).1 ++ y = rb.reverse)) ∨
    (backup rb p = ([], rb.reverse ++ p) ∧ ' ' ∉ rb ∧ p.head? ≠ some ' ')
  | rb, [] => by
    cases rb with
    | nil => exact Or.inr ⟨rfl, by simp, by simp⟩
    | cons d rb =>
      have e : backup (d :: rb) [] = backup rb [d] := rfl
      rw [e]
      have ih := backup_spec rb [d]
      rcases ih with ⟨y, h1, h2⟩ | ⟨h1, h2, h3⟩
      · left
        refine ⟨y ++ [d], ?_, ?_⟩
        · rw [← h1]; simp
        · rw [← List.append_assoc, h2]; simp
      · right
        refine ⟨?_, ?_, by simp⟩
        · rw [h1]; simp
        · intro hm
          rcases List.mem_cons.mp hm with rfl | hm
          · exact h3 rfl
          · exact h2 hm
  | rb, c :: p => by
    by_cases hc : c = ' '
    · subst hc
      have e : backup rb (' ' :: p) = (rb.reverse, p) := by cases rb <;> rfl
      rw [e]
      exact Or.inl ⟨[], rfl, by simp⟩
    · cases rb with
      | nil =>
        have e : backup [] (c :: p) = ([], c :: p) := by
          unfold backup; split
          · rename_i hh; injection hh with h1 _; exact absurd h1 hc
          · rfl
          · rename_i hh _; cases hh
        rw [e]
        exact Or.inr ⟨rfl, by simp, by simp [hc]⟩
      | cons d rb =>
        have e : backup (d :: rb) (c :: p) = backup rb (d :: c :: p) := by
          rw [backup.eq_3]
          intro p' hh; injection hh with h1 _; exact hc h1
        rw [e]
        rcases backup_spec rb (d :: c :: p) with ⟨y, h1, h2⟩ | ⟨h1, h2, h3⟩
        · left
          refine ⟨y ++ [d], ?_, ?_⟩
          · rw [← h1]; simp
          · rw [← List.append_assoc, h2]; simp
        · right
          refine ⟨?_, ?_, by simp [hc]⟩
          · rw [h1]; simp
          · intro hm
            rcases List.mem_cons.mp hm with rfl | hm
            · exact h3 rfl
            · exact h2 hm

/-! ### The measure -/

theorem measure_best (up : Bool) : ∀ (s : List Char) (sk cur best : Nat), measure up sk cur best s = max best (measure up sk cur 0 s)
  | [], sk, cur, best => by
    cases sk <;> simp [measure]
  | c :: q, sk + 1, cur, best => by
    show measure up sk cur best q = max best (measure up sk cur 0 q)
    exact measure_best up q sk cur best
  | c :: q, 0, cur, best => by
    show (if _ then _ else if _ then _ else _) = max best (if _ then _ else if _ then _ else _)
    by_cases h1 : up = true ∧ c = ' '
    · rw [if_pos h1, if_pos h1, measure_best up q 0 0 (max best cur), measure_best up q 0 0 (max 0 cur)]; omega
    · rw [if_neg h1, if_neg h1]
      by_cases h2 : atBreak (c :: q) = true
      · rw [if_pos h2, if_pos h2, measure_best up q _ 0 (max best cur), measure_best up q _ 0 (max 0 cur)]; omega
      · rw [if_neg h2, if_neg h2]
        exact measure_best up q 0 (cur + 1) best

theorem measure_mono (up : Bool) : ∀ (s : List Char) (sk cur cur' : Nat), cur ≤ cur' → measure up sk cur 0 s ≤ measure up sk cur' 0 s
  | [], sk, cur, cur', h => by
    cases sk <;> simpa [measure] using h
  | c :: q, sk + 1, cur, cur', h => measure_mono up q sk cur cur' h
  | c :: q, 0, cur, cur', h => by
    show (if _ then _ else if _ then _ else _) ≤ (if _ then _ else if _ then _ else _)
    by_cases h1 : up = true ∧ c = ' '
    · rw [if_pos h1, if_pos h1, measure_best up q 0 0 (max 0 cur), measure_best up q 0 0 (max 0 cur')]; omega
    · rw [if_neg h1, if_neg h1]
      by_cases h2 : atBreak (c :: q) = true
      · rw [if_pos h2, if_pos h2, measure_best up q _ 0 (max 0 cur), measure_best up q _ 0 (max 0 cur')]; omega
      · rw [if_neg h2, if_neg h2]
        exact measure_mono up q 0 _ _ (Nat.succ_le_succ h)

/-- Words are no longer than the segments they are in. -/
theorem measure_words_le : ∀ (s : List Char) (sk cur : Nat), measure true sk cur 0 s ≤ measure false sk cur 0 s
  | [], sk, cur => by cases sk <;> exact Nat.le_refl _
  | c :: q, sk + 1, cur => measure_words_le q sk cur
  | c :: q, 0, cur => by
    show (if _ then _ else if _ then _ else _) ≤ (if _ then _ else if _ then _ else _)
    rw [if_neg (c := false = true ∧ c = ' ') (by simp)]
    by_cases h1 : true = true ∧ c = ' '
    · rw [if_pos h1]
      have hb : atBreak (c :: q) ≠ true := by
        rw [h1.2]; cases q <;> simp [atBreak]
      rw [if_neg hb, measure_best true q 0 0 (max 0 cur)]
      have i1 := measure_words_le q 0 0
      have i2 := measure_mono false q 0 0 (cur + 1) (Nat.zero_le _)
      have i3 : cur + 1 ≤ measure false 0 (cur + 1) 0 q := by
        clear i1 i2 hb h1
        generalize cur + 1 = n
        induction q generalizing n with
        | nil => simp [measure]
        | cons d q ih =>
          show n ≤ (if _ then _ else if _ then _ else _)
          rw [if_neg (c := false = true ∧ d = ' ') (by simp)]
          split
          · rw [measure_best]; omega
          · exact Nat.le_trans (Nat.le_succ n) (ih (n + 1))
      omega
    · rw [if_neg h1]
      by_cases h2 : atBreak (c :: q) = true
      · rw [if_pos h2, if_pos h2, measure_best true, measure_best false]
        have := measure_words_le q (if (q.drop 1).head? = some ' ' then 2 else 1) 0
        omega
      · rw [if_neg h2, if_neg h2]
        exact measure_words_le q 0 (cur + 1)

/-- The longest word of a text. -/
def word (s : List Char) : Nat := measure true 0 0 0 s

theorem word_le_size (j : Char) (s : List Char) : word s ≤ size j s := by
  unfold word size
  cases j.isUpper
  · exact measure_words_le s 0 0
  · exact Nat.le_refl _

theorem measure_blank (q : List Char) (cur : Nat) : measure true 0 cur 0 (' ' :: q) = max cur (word q) := by
  show (if _ then _ else _) = _
  rw [if_pos ⟨rfl, rfl⟩, measure_best]; simp [word]

theorem word_clear : ∀ (x r : List Char) (cur : Nat), Clear x (' ' :: r) → word r ≤ measure true 0 cur 0 (x ++ ' ' :: r)
  | [], r, cur, _ => by
    show _ ≤ measure true 0 cur 0 (' ' :: r)
    rw [measure_blank]; omega
  | c :: x, r, cur, h => by
    show _ ≤ (if _ then _ else if _ then _ else _)
    split
    · rw [measure_best]
      have h' := word_clear x r 0 h.2
      exact Nat.le_trans h' (Nat.le_max_right _ _)
    · rw [if_neg (by simpa using h.1)]
      exact word_clear x r (cur + 1) h.2

theorem word_slash : ∀ (x r : List Char) (cur : Nat), Clear x ('/' :: '/' :: r) → word r ≤ measure true 0 cur 0 (x ++ '/' :: '/' :: r)
  | [], r, cur, _ => by
    have e : measure true 0 cur 0 ('/' :: '/' :: r) = measure true (if r.head? = some ' ' then 2 else 1) 0 (max 0 cur) ('/' :: r) := rfl
    show _ ≤ measure true 0 cur 0 ('/' :: '/' :: r)
    rw [e, measure_best]
    have : word r ≤ measure true (if r.head? = some ' ' then 2 else 1) 0 0 ('/' :: r) := by
      by_cases h : r.head? = some ' '
      · rw [if_pos h]
        cases r with
        | nil => exact absurd h (by simp)
        | cons d r =>
          have : d = ' ' := by simpa using h
          subst this
          show measure true 0 0 0 (' ' :: r) ≤ measure true 0 0 0 r
          rw [measure_blank]; simp [word]
      · rw [if_neg h]; exact Nat.le_refl _
    omega
  | c :: x, r, cur, h => by
    show _ ≤ (if _ then _ else if _ then _ else _)
    split
    · rw [measure_best]
      have h' := word_slash x r 0 h.2
      exact Nat.le_trans h' (Nat.le_max_right _ _)
    · rw [if_neg (by simpa using h.1)]
      exact word_slash x r (cur + 1) h.2

theorem word_long : ∀ (x p : List Char) (cur : Nat), Clear x p → ' ' ∉ x → cur + x.length ≤ measure true 0 cur 0 (x ++ p)
  | [], p, cur, _, _ => by
    show cur ≤ measure true 0 cur 0 p
    cases p with
    | nil => simp [measure]
    | cons c q =>
      show cur ≤ (if _ then _ else if _ then _ else _)
      split
      · rw [measure_best]; omega
      · split
        · rw [measure_best]; omega
        · have key : ∀ (q : List Char) (n : Nat), n ≤ measure true 0 n 0 q := by
            intro q
            induction q with
            | nil => intro n; simp [measure]
            | cons d q ih =>
              intro n
              show n ≤ (if _ then _ else if _ then _ else _)
              split
              · rw [measure_best]; omega
              · split
                · rw [measure_best]; omega
                · exact Nat.le_trans (Nat.le_succ n) (ih (n + 1))
          exact Nat.le_trans (Nat.le_succ cur) (key q (cur + 1))
  | c :: x, p, cur, h, hn => by
    show cur + (x.length + 1) ≤ (if _ then _ else if _ then _ else _)
    rw [if_neg (by rintro ⟨_, e⟩; exact hn (by rw [e]; exact List.mem_cons_self ..)), if_neg (by simpa using h.1)]
    have h' := word_long x p (cur + 1) h.2 (fun hm => hn (List.mem_cons_of_mem _ hm))
    show _ ≤ measure true 0 (cur + 1) 0 (x ++ p)
    omega

/-! ### One piece -/

/-- What `getNext` does to a text. -/
structure Step (w : Nat) (t p r : List Char) : Prop where
  cut : (t = p ∧ r = []) ∨ t = p ++ ' ' :: r ∨ t = p ++ '/' :: '/' :: r
  short : p.length ≤ w
  free : ¬ ['/', '/'] <:+: p
  shrinks : t ≠ [] → r.length < t.length
  words : word r ≤ word t

theorem getNext_step (w : Nat) (t : List Char) (h : word t ≤ w) : Step w t (getNext w t).1 (getNext w t).2 := by
  obtain ⟨h1, h2, h3, h4⟩ := copy_spec w t
  have e : getNext w t = (if atBreak (copy w t).2 then ((copy w t).1, (copy w t).2.drop 2)
      else if (copy w t).2 = [] then copy w t else backup (copy w t).1.reverse (copy w t).2) := rfl
  generalize hb : (copy w t).1 = b at *
  generalize hp : (copy w t).2 = p at *
  have hcw : copy w t = (b, p) := by rw [← hb, ← hp]
  rw [e]
  by_cases hbr : atBreak p = true
  · rw [if_pos hbr]
    have ⟨r, hr⟩ : ∃ r, p = '/' :: '/' :: r := by
      match p, hbr with
      | c :: d :: r, hbr =>
        simp [atBreak] at hbr
        exact ⟨r, by rw [hbr.1, hbr.2]⟩
    subst hr
    refine ⟨Or.inr (Or.inr h1), h2, clear_noBreak b _ h3, fun _ => ?_, ?_⟩
    · show r.length < t.length
      rw [h1]; simp; omega
    · show word r ≤ word t
      rw [h1]
      exact word_slash b r 0 h3
  · rw [if_neg hbr]
    by_cases hn : p = []
    · rw [if_pos hn, hcw]
      subst hn
      rw [List.append_nil] at h1
      refine ⟨Or.inl ⟨h1, rfl⟩, h2, clear_noBreak b _ h3, fun ht => ?_, Nat.zero_le _⟩
      show 0 < t.length
      exact List.length_pos_iff.mpr ht
    · rw [if_neg hn]
      rcases backup_spec b.reverse p with ⟨y, g1, g2⟩ | ⟨g1, g2, g3⟩
      · rw [List.reverse_reverse] at g1 g2
        generalize hx : (backup b.reverse p).1 = x at *
        generalize hr : (backup b.reverse p).2 = r at *
        have hc : Clear x (' ' :: r) := by
          have : Clear (x ++ y) p := by rw [g2]; exact h3
          have := Clear.prefix x y p this
          have e2 : y ++ p = ' ' :: r := by
            have : x ++ (y ++ p) = x ++ ' ' :: r := by rw [← List.append_assoc, g2, g1]
            exact List.append_cancel_left this
          rw [e2] at this; exact this
        have ht : t = x ++ ' ' :: r := by rw [h1, g1]
        refine ⟨Or.inr (Or.inl ht), ?_, clear_noBreak x _ hc, fun _ => ?_, ?_⟩
        · have : x.length + y.length = b.length := by rw [← g2]; simp
          omega
        · rw [ht]; simp; omega
        · rw [ht]; exact word_clear x r 0 hc
      · exfalso
        cases p with
        | nil => exact hn rfl
        | cons c q =>
          have hl : b.length = w := h4 hn (by simpa using hbr)
          have hcl : Clear (b ++ [c]) q := by
            clear e hcw hb hp h g1 g2 h4 hl h2 h1
            induction b with
            | nil => exact ⟨by simpa using hbr, trivial⟩
            | cons d b ih =>
              refine ⟨?_, ih h3.2⟩
              have := h3.1
              simpa using this
          have hl2 := word_long (b ++ [c]) q 0 hcl (by
            intro hm
            rcases List.mem_append.mp hm with hm | hm
            · exact g2 (by simpa using hm)
            · exact g3 (by rw [List.mem_singleton] at hm; rw [← hm]; rfl))
          have e3 : t = (b ++ [c]) ++ q := by rw [h1]; simp
          rw [← e3] at hl2
          have : word t = measure true 0 0 0 t := rfl
          simp only [List.length_append, List.length_singleton] at hl2
          omega

theorem splits_step {w : Nat} {t p r : List Char} {ls : List (List Char)} (h : Step w t p r) (hs : Splits ls r) :
    Splits (p :: ls) t := by
  rcases h.cut with ⟨rfl, rfl⟩ | e | e
  · have : ∃ k, ls = List.replicate k [] := by
      generalize he : ([] : List Char) = z at hs
      cases hs with
      | done k => exact ⟨k, rfl⟩
      | last l k => subst he; exact ⟨k + 1, rfl⟩
      | blank l ls t _ => simp at he
      | slash l ls t _ => simp at he
    obtain ⟨k, rfl⟩ := this
    exact Splits.last _ k
  · rw [e]; exact Splits.blank _ _ _ hs
  · rw [e]; exact Splits.slash _ _ _ hs

theorem splits_one {w : Nat} {t p : List Char} (h : Step w t p []) : Splits [p] t := splits_step h (Splits.done 0)

/-! ### Lines with one piece for each part between the `//` -/

theorem segments_ne (s : List Char) : segments s ≠ [] := by
  cases s with
  | nil => simp [segments]
  | cons c q =>
    cases q with
    | nil => simp [segments]
    | cons d q =>
      show (if _ then _ else _) ≠ _
      split
      · simp
      · split <;> simp

theorem segments_cons {c : Char} {q : List Char} (h : atBreak (c :: q) = false) :
    ∃ s ss, segments q = s :: ss ∧ segments (c :: q) = (c :: s) :: ss := by
  cases q with
  | nil => exact ⟨[], [], rfl, rfl⟩
  | cons d q =>
    have hn : ¬ (c = '/' ∧ d = '/') := by simpa [atBreak] using h
    cases hs : segments (d :: q) with
    | nil => exact absurd hs (segments_ne _)
    | cons s ss =>
      refine ⟨s, ss, rfl, ?_⟩
      show (if _ then _ else _) = _
      rw [if_neg hn, hs]

/-- With room for the first part, `getNext` takes just that part. -/
theorem getNext_segment : ∀ (w : Nat) (t s : List Char) (ss : List (List Char)), segments t = s :: ss → s.length ≤ w →
    copy w t = (s, match ss with | [] => [] | _ => '/' :: '/' :: (getNext w t).2) ∧
    (ss = [] → (getNext w t).2 = []) ∧ (ss ≠ [] → segments (getNext w t).2 = ss) := by
  have key : ∀ (t : List Char) (w : Nat) (s : List Char) (ss : List (List Char)), segments t = s :: ss → s.length ≤ w →
      (ss = [] ∧ copy w t = (s, [])) ∨ ∃ r, copy w t = (s, '/' :: '/' :: r) ∧ segments r = ss ∧ ss ≠ [] := by
    intro t
    induction t with
    | nil =>
      intro w s ss h _
      have : s = [] ∧ ss = [] := by
        have h' : [([] : List Char)] = s :: ss := h
        injection h' with a b
        exact ⟨a.symm, b.symm⟩
      rw [this.1, this.2]
      exact Or.inl ⟨rfl, by cases w <;> rfl⟩
    | cons c q ih =>
      intro w s ss h hl
      by_cases hb : atBreak (c :: q) = true
      · have ⟨r, hr⟩ : ∃ r, c :: q = '/' :: '/' :: r := by
          match q, hb with
          | d :: r, hb =>
            simp [atBreak] at hb
            exact ⟨r, by rw [hb.1, hb.2]⟩
        rw [hr] at h ⊢
        have h' : [] :: segments r = s :: ss := h
        injection h' with e1 e2
        subst e1
        refine Or.inr ⟨r, ?_, e2, ?_⟩
        · cases w with
          | zero => rfl
          | succ w => rfl
        · rw [← e2]; exact segments_ne r
      · have hb' : atBreak (c :: q) = false := by simpa using hb
        obtain ⟨s', ss', e1, e2⟩ := segments_cons hb'
        rw [e2] at h
        injection h with e3 e4
        subst e3; subst e4
        cases w with
        | zero => exact absurd hl (by simp)
        | succ w =>
          have e5 : copy (w + 1) (c :: q) = (c :: (copy w q).1, (copy w q).2) := by show (if _ then _ else _) = _; rw [if_neg hb]
          rcases ih w s' ss' e1 (by simpa using hl) with ⟨a, b⟩ | ⟨r, a, b⟩
          · exact Or.inl ⟨a, by rw [e5, b]⟩
          · exact Or.inr ⟨r, by rw [e5, a], b⟩
  intro w t s ss h hl
  have e : getNext w t = (if atBreak (copy w t).2 then ((copy w t).1, (copy w t).2.drop 2)
      else if (copy w t).2 = [] then copy w t else backup (copy w t).1.reverse (copy w t).2) := rfl
  rcases key t w s ss h hl with ⟨a, b⟩ | ⟨r, a, b, c⟩
  · rw [e, b, a]; exact ⟨rfl, fun _ => rfl, fun hn => absurd rfl hn⟩
  · have e6 : getNext w t = (s, r) := by rw [e, a]; rfl
    rw [e6, a]
    refine ⟨?_, fun hn => absurd hn c, fun _ => b⟩
    cases ss with
    | nil => exact absurd rfl c
    | cons x y => rfl

theorem getNext_segment_fst (w : Nat) (t s : List Char) (ss : List (List Char)) (h : segments t = s :: ss) (hl : s.length ≤ w) :
    (getNext w t).1 = s := by
  obtain ⟨h1, _, _⟩ := getNext_segment w t s ss h hl
  have e : getNext w t = (if atBreak (copy w t).2 then ((copy w t).1, (copy w t).2.drop 2)
      else if (copy w t).2 = [] then copy w t else backup (copy w t).1.reverse (copy w t).2) := rfl
  cases ss with
  | nil => rw [e, h1]; rfl
  | cons x y => rw [e, h1]; rfl

theorem rmLf_segments : ∀ (n : Nat) (s : List Char), s.length ≤ n → rmLf s = withBlanks (segments s)
  | _, [], _ => rfl
  | _, [c], _ => rfl
  | 0, c :: d :: q, h => absurd h (by simp)
  | n + 1, c :: d :: q, h => by
    show (if _ then _ else _) = _
    by_cases hb : c = '/' ∧ d = '/'
    · have e : segments (c :: d :: q) = [] :: segments q := by show (if _ then _ else _) = _; rw [if_pos hb]
      rw [if_pos hb, e, rmLf_segments n q (by simp at h; omega)]
      cases hq : segments q with
      | nil => exact absurd hq (segments_ne q)
      | cons s ss => rfl
    · obtain ⟨s, ss, e1, e2⟩ := segments_cons (c := c) (q := d :: q) (by simpa [atBreak] using hb)
      rw [if_neg hb, e2, rmLf_segments n (d :: q) (by simp at h ⊢; omega), e1]
      cases ss <;> rfl

theorem rmLf_head (c : Char) (q : List Char) (h : atBreak (c :: q) = false) : rmLf (c :: q) = c :: rmLf q := by
  cases q with
  | nil => rfl
  | cons d q =>
    show (if _ then _ else _) = _
    rw [if_neg (by simpa [atBreak] using h)]

theorem rmLf_noBreak : ∀ (n : Nat) (s : List Char), s.length ≤ n →
    ¬ ['/', '/'] <:+: rmLf s ∧ (s.head? ≠ some '/' → (rmLf s).head? ≠ some '/') ∧
    (atBreak s = false → s.head? = some '/' → (rmLf s).tail.head? ≠ some '/')
  | _, [], _ => ⟨fun h => by simpa [rmLf] using h.length_le, fun h => h, fun _ h => absurd h (by simp)⟩
  | 0, c :: q, h => absurd h (by simp)
  | n + 1, c :: q, h => by
    by_cases hb : atBreak (c :: q) = true
    · have ⟨r, hr⟩ : ∃ r, c :: q = '/' :: '/' :: r := by
        match q, hb with
        | d :: r, hb =>
          simp [atBreak] at hb
          exact ⟨r, by rw [hb.1, hb.2]⟩
      rw [hr] at h hb ⊢
      have e : rmLf ('/' :: '/' :: r) = ' ' :: rmLf r := rfl
      obtain ⟨h1, _, _⟩ := rmLf_noBreak n r (by simp at h; omega)
      rw [e]
      refine ⟨?_, fun _ => by simp, fun hf => absurd hb (by simp [hf])⟩
      intro hi
      rw [List.infix_cons_iff] at hi
      rcases hi with hi | hi
      · obtain ⟨b, hb⟩ := hi; simp at hb
      · exact h1 hi
    · have hb' : atBreak (c :: q) = false := by simpa using hb
      rw [rmLf_head c q hb']
      obtain ⟨h1, h2, h3⟩ := rmLf_noBreak n q (by simp at h; omega)
      have key : c = '/' → (rmLf q).head? ≠ some '/' := by
        intro hc
        apply h2
        intro hq
        cases q with
        | nil => simp at hq
        | cons d q =>
          have : d = '/' := by simpa using hq
          rw [hc, this] at hb'
          simp [atBreak] at hb'
      refine ⟨?_, fun hc => by simpa using hc, fun _ hc => key (by simpa using hc)⟩
      intro hi
      rw [List.infix_cons_iff] at hi
      rcases hi with hi | hi
      · obtain ⟨b, hb⟩ := hi
        injection hb with e1 e2
        exact key e1.symm (by rw [← e2]; rfl)
      · exact h1 hi

end Verif.Rpg
