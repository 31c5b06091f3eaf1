import Verif.Nway.Lemmas
/-! The count of agreeing tokens. -/
set_option autoImplicit false
namespace Verif.Nway
open Verif.AscGraph

theorem Equiv.swap {eqv : Tok → Tok → Bool} (h : Equiv eqv) (a b : Tok) : eqv a b = eqv b a := by
  rcases Bool.eq_false_or_eq_true (eqv a b) with h1 | h1
  · rw [h1, h.symm a b h1]
  · rcases Bool.eq_false_or_eq_true (eqv b a) with h2 | h2
    · rw [h.symm b a h2] at h1; exact absurd h1 (by simp)
    · rw [h1, h2]

theorem Equiv.same {eqv : Tok → Tok → Bool} (h : Equiv eqv) {a b : Tok} (hab : eqv a b = true) (c : Tok) :
    eqv a c = eqv b c := by
  rcases Bool.eq_false_or_eq_true (eqv b c) with h1 | h1
  · rw [h1, h.trans a b c hab h1]
  · rcases Bool.eq_false_or_eq_true (eqv a c) with h2 | h2
    · rw [h.trans b a c (h.symm a b hab) h2] at h1; exact absurd h1 (by simp)
    · rw [h1, h2]

theorem bump_none {eqv : Tok → Tok → Bool} {a : Tok} : ∀ cls : List (Tok × Nat),
    bump eqv a cls = none ↔ ∀ x ∈ cls, eqv a x.1 = false
  | [] => by simp [bump]
  | (r, n) :: rest => by
    have ih := bump_none (eqv := eqv) (a := a) rest
    rw [bump]
    cases hb : bump eqv a rest with
    | some l =>
      simp only [reduceCtorEq, false_iff]
      intro h
      rw [ih.2 (fun x hx => h x (by simp [hx]))] at hb
      exact absurd hb (by simp)
    | none =>
      have := ih.1 hb
      rcases Bool.eq_false_or_eq_true (eqv a r) with h | h
      · simp [h]
      · simp only [h, Bool.false_eq_true, if_false, true_iff]
        intro x hx
        rcases List.mem_cons.1 hx with rfl | hx
        · exact h
        · exact this x hx

/-- The kept tokens are pairwise not equivalent. -/
def Apart (eqv : Tok → Tok → Bool) : List (Tok × Nat) → Prop
  | [] => True
  | x :: l => (∀ y ∈ l, eqv x.1 y.1 = false) ∧ Apart eqv l

theorem bump_some {eqv : Tok → Tok → Bool} (he : Equiv eqv) {a : Tok} : ∀ (cls l : List (Tok × Nat)), Apart eqv cls →
    bump eqv a cls = some l → l = cls.map (fun x => if eqv a x.1 then (x.1, x.2 + 1) else x)
  | [], l, _, h => by simp [bump] at h
  | (r, n) :: rest, l, hap, h => by
    rw [bump] at h
    cases hb : bump eqv a rest with
    | some l' =>
      rw [hb] at h
      injection h with h; subst h
      have := bump_some he rest l' hap.2 hb
      rw [List.map_cons, ← this]
      congr 1
      obtain ⟨x, hx, hax⟩ : ∃ x ∈ rest, eqv a x.1 = true := by
        apply Classical.byContradiction
        intro hno
        have : bump eqv a rest = none := (bump_none rest).2 (fun x hx => by
          rcases Bool.eq_false_or_eq_true (eqv a x.1) with h | h
          · exact absurd ⟨x, hx, h⟩ hno
          · exact h)
        rw [hb] at this; exact absurd this (by simp)
      have hrx := hap.1 x hx
      rw [if_neg]
      intro har
      rw [he.swap] at har
      have := he.trans _ _ _ har hax
      rw [this] at hrx; exact absurd hrx (by simp)
    | none =>
      rw [hb] at h
      dsimp only at h
      split at h
      · rename_i har
        injection h with h; subst h
        rw [List.map_cons, if_pos har]
        congr 1
        have := (bump_none rest).1 hb
        symm
        conv => rhs; rw [← List.map_id rest]
        apply List.map_congr_left
        intro x hx
        rw [if_neg (by rw [this x hx]; simp)]; rfl
      · exact absurd h (by simp)

/-- What the kept tokens say about the tokens seen. -/
structure Counted (eqv : Tok → Tok → Bool) (done : List Tok) (cls : List (Tok × Nat)) : Prop where
  apart : Apart eqv cls
  rep : ∀ x ∈ cls, x.1 ∈ done ∧ x.2 = done.countP (fun u => eqv x.1 u)
  all : ∀ t ∈ done, ∃ x ∈ cls, eqv t x.1 = true

theorem apart_map {eqv : Tok → Tok → Bool} {f : Tok × Nat → Tok × Nat} (hf : ∀ x, (f x).1 = x.1) :
    ∀ l : List (Tok × Nat), Apart eqv l → Apart eqv (l.map f)
  | [], _ => trivial
  | x :: l, h => ⟨by
      intro y hy
      obtain ⟨z, hz, rfl⟩ := List.mem_map.1 hy
      rw [hf, hf]; exact h.1 z hz, apart_map hf l h.2⟩

theorem apart_snoc {eqv : Tok → Tok → Bool} {x : Tok × Nat} : ∀ l : List (Tok × Nat), Apart eqv l →
    (∀ y ∈ l, eqv y.1 x.1 = false) → Apart eqv (l ++ [x])
  | [], _, _ => ⟨by simp, trivial⟩
  | y :: l, h, hx => ⟨by
      intro z hz
      rcases List.mem_append.1 hz with hz | hz
      · exact h.1 z hz
      · simp at hz; subst hz; exact hx y (by simp), apart_snoc l h.2 (fun z hz => hx z (by simp [hz]))⟩

theorem counted_step {eqv : Tok → Tok → Bool} (he : Equiv eqv) {done : List Tok} {cls : List (Tok × Nat)}
    (h : Counted eqv done cls) (a : Tok) : Counted eqv (done ++ [a]) (countTok eqv cls a) := by
  unfold countTok
  cases hb : bump eqv a cls with
  | none =>
    have hn := (bump_none cls).1 hb
    simp only [Option.getD_none]
    refine ⟨apart_snoc cls h.apart (fun y hy => by rw [he.swap]; exact hn y hy), ?_, ?_⟩
    · intro x hx
      rcases List.mem_append.1 hx with hx | hx
      · obtain ⟨h1, h2⟩ := h.rep x hx
        refine ⟨by simp [h1], ?_⟩
        rw [List.countP_append, ← h2]
        have : eqv x.1 a = false := by rw [he.swap]; exact hn x hx
        simp [this]
      · simp at hx; subst hx
        refine ⟨by simp, ?_⟩
        rw [List.countP_append]
        have h0 : done.countP (fun u => eqv a u) = 0 := by
          rw [List.countP_eq_zero]
          intro u hu hau
          obtain ⟨x, hx, hux⟩ := h.all u hu
          have := he.trans _ _ _ hau hux
          rw [hn x hx] at this; exact absurd this (by simp)
        simp [h0, he.refl a]
    · intro t ht
      rcases List.mem_append.1 ht with ht | ht
      · obtain ⟨x, hx, e⟩ := h.all t ht
        exact ⟨x, by simp [hx], e⟩
      · simp at ht; subst ht
        exact ⟨(t, 1), by simp, he.refl t⟩
  | some l =>
    have hl := bump_some he cls l h.apart hb
    simp only [Option.getD_some]
    subst hl
    have hf : ∀ x : Tok × Nat, (if eqv a x.1 then (x.1, x.2 + 1) else x).1 = x.1 := by
      intro x; split <;> rfl
    refine ⟨apart_map hf cls h.apart, ?_, ?_⟩
    · intro x hx
      obtain ⟨y, hy, rfl⟩ := List.mem_map.1 hx
      obtain ⟨h1, h2⟩ := h.rep y hy
      rw [hf]
      refine ⟨by simp [h1], ?_⟩
      rw [List.countP_append, ← h2]
      rcases Bool.eq_false_or_eq_true (eqv a y.1) with e | e
      · rw [if_pos e]
        have : eqv y.1 a = true := he.symm _ _ e
        simp [this]
      · rw [if_neg (by simp [e])]
        have : eqv y.1 a = false := by rw [he.swap]; exact e
        simp [this]
    · intro t ht
      rcases List.mem_append.1 ht with ht | ht
      · obtain ⟨x, hx, e⟩ := h.all t ht
        exact ⟨_, List.mem_map.2 ⟨x, hx, rfl⟩, by rw [hf]; exact e⟩
      · simp at ht; subst ht
        have : ∃ x ∈ cls, eqv t x.1 = true := by
          apply Classical.byContradiction
          intro hno
          have : bump eqv t cls = none := (bump_none cls).2 (fun x hx => by
            rcases Bool.eq_false_or_eq_true (eqv t x.1) with h | h
            · exact absurd ⟨x, hx, h⟩ hno
            · exact h)
          rw [hb] at this; exact absurd this (by simp)
        obtain ⟨x, hx, e⟩ := this
        exact ⟨_, List.mem_map.2 ⟨x, hx, rfl⟩, by rw [hf]; exact e⟩

theorem counted_all {eqv : Tok → Tok → Bool} (he : Equiv eqv) : ∀ (ts done : List Tok) (cls : List (Tok × Nat)),
    Counted eqv done cls → Counted eqv (done ++ ts) (ts.foldl (countTok eqv) cls)
  | [], done, cls, h => by simpa using h
  | t :: ts, done, cls, h => by
    have := counted_all he ts (done ++ [t]) _ (counted_step he h t)
    simpa using this

theorem maxCount_spec : ∀ (cls : List (Tok × Nat)) (m : Nat),
    m ≤ cls.foldl (fun m c => if c.2 > m then c.2 else m) m ∧
    (∀ x ∈ cls, x.2 ≤ cls.foldl (fun m c => if c.2 > m then c.2 else m) m) ∧
    (cls.foldl (fun m c => if c.2 > m then c.2 else m) m = m ∨
      ∃ x ∈ cls, cls.foldl (fun m c => if c.2 > m then c.2 else m) m = x.2)
  | [], m => by simp
  | y :: cls, m => by
    rw [List.foldl_cons]
    obtain ⟨h1, h2, h3⟩ := maxCount_spec cls (if y.2 > m then y.2 else m)
    generalize hg : (if y.2 > m then y.2 else m) = m' at *
    have hm : m ≤ m' ∧ y.2 ≤ m' ∧ (m' = m ∨ m' = y.2) := by
      rw [← hg]; split
      · omega
      · omega
    generalize cls.foldl (fun m c => if c.2 > m then c.2 else m) m' = r at *
    refine ⟨by omega, ?_, ?_⟩
    · intro x hx
      rcases List.mem_cons.1 hx with rfl | hx
      · omega
      · exact h2 x hx
    · rcases h3 with h3 | ⟨x, hx, h3⟩
      · rcases hm.2.2 with e | e
        · exact Or.inl (by omega)
        · exact Or.inr ⟨y, by simp, by omega⟩
      · exact Or.inr ⟨x, by simp [hx], h3⟩

theorem foldr_max : ∀ l : List Nat, (∀ x ∈ l, x ≤ l.foldr max 0) ∧ (l.foldr max 0 = 0 ∨ l.foldr max 0 ∈ l)
  | [] => by simp
  | a :: l => by
    obtain ⟨h1, h2⟩ := foldr_max l
    rw [List.foldr_cons]
    refine ⟨?_, ?_⟩
    · intro x hx
      rcases List.mem_cons.1 hx with rfl | hx
      · exact Nat.le_max_left _ _
      · exact Nat.le_trans (h1 x hx) (Nat.le_max_right _ _)
    · rcases Nat.le_total a (l.foldr max 0) with h | h
      · rw [Nat.max_eq_right h]
        rcases h2 with h2 | h2
        · exact Or.inl h2
        · exact Or.inr (by simp [h2])
      · rw [Nat.max_eq_left h]; exact Or.inr (by simp)

theorem agreeing_le {eqv : Tok → Tok → Bool} {ts : List Tok} {n : Nat} (h : ∀ t ∈ ts, ts.countP (fun u => eqv t u) ≤ n) :
    agreeing eqv ts ≤ n := by
  unfold agreeing
  rcases (foldr_max (ts.map (fun t => ts.countP (fun u => eqv t u)))).2 with e | e
  · rw [e]; exact Nat.zero_le _
  · obtain ⟨t, ht, e⟩ := List.mem_map.1 e
    rw [← e]; exact h t ht

theorem le_agreeing {eqv : Tok → Tok → Bool} {ts : List Tok} {t : Tok} (h : t ∈ ts) :
    ts.countP (fun u => eqv t u) ≤ agreeing eqv ts :=
  (foldr_max _).1 _ (List.mem_map.2 ⟨t, h, rfl⟩)

/-- The code's count is the size of the largest group of agreeing tokens. -/
theorem maxCount_agreeing {eqv : Tok → Tok → Bool} (he : Equiv eqv) (ts : List Tok) :
    maxCount (ts.foldl (countTok eqv) []) = agreeing eqv ts := by
  have hc : Counted eqv ts (ts.foldl (countTok eqv) []) := by
    simpa using counted_all he ts [] [] ⟨trivial, by simp, by simp⟩
  generalize ts.foldl (countTok eqv) [] = cls at hc
  obtain ⟨_, h2, h3⟩ := maxCount_spec cls 0
  unfold maxCount
  apply Nat.le_antisymm
  · rcases h3 with h3 | ⟨x, hx, h3⟩
    · rw [h3]; exact Nat.zero_le _
    · rw [h3, (hc.rep x hx).2]; exact le_agreeing (hc.rep x hx).1
  · apply agreeing_le
    intro t ht
    obtain ⟨x, hx, e⟩ := hc.all t ht
    have : ts.countP (fun u => eqv t u) = x.2 := by
      rw [(hc.rep x hx).2]
      congr 1
      funext u
      exact he.same e u
    rw [this]; exact h2 x hx

/-- The prices of a configuration. -/
def pricesOf (cfg : Cfg) : Prices := ⟨cfg.costIns, cfg.costOpt, cfg.costTrans⟩

theorem lastOptional_eq (ts : List Tok) : lastOptional ts = (ts.getLast?.map Tok.optional).getD false :=
  foldl_last Tok.optional ts false

theorem wordCost_eq {cfg : Cfg} (he : Equiv cfg.eqv) (dim : Nat) (ts : List Tok) :
    wordCost cfg dim ts = (pricesOf cfg).col cfg.eqv dim ts := by
  unfold wordCost Prices.col pricesOf
  rw [maxCount_agreeing he, lastOptional_eq]
  rfl

theorem totalG_eq {g : G} (he : Equiv g.cfg.eqv) (ht : g.cfg.typeCost ≠ 2) (cols : List Column) :
    totalG g cols = (pricesOf g.cfg).total g.cfg.eqv g cols := by
  unfold totalG Prices.total
  congr 1
  apply List.map_congr_left
  intro col _
  unfold colCostG stepCost
  rw [if_neg ht, wordCost_eq he]

theorem agreeing_perm {eqv : Tok → Tok → Bool} {ts us : List Tok} (h : ts.Perm us) : agreeing eqv ts = agreeing eqv us := by
  apply Nat.le_antisymm
  · apply agreeing_le
    intro t ht
    rw [h.countP_eq]
    exact le_agreeing (h.mem_iff.1 ht)
  · apply agreeing_le
    intro t ht
    rw [← h.countP_eq]
    exact le_agreeing (h.mem_iff.2 ht)

end Verif.Nway
