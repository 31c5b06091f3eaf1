import Verif.Topo.Lemmas
/-!
# C19: the listing of a segment's tokens
-/
set_option autoImplicit false
namespace Verif.Topo

/-- Some references: `a b c`; `{ a / @ } b`; `a { b / @ }`; `a { b / c } d`. -/
def plain : Seg := ⟨[1], fun t => if t = 1 then [2] else if t = 2 then [3] else [], fun t => t = 3⟩
/-- `{ a / @ } b`: both tokens can come first. -/
def optHead : Seg := ⟨[1, 2], fun t => if t = 1 then [2] else [], fun t => t = 2⟩
/-- `a { b / @ }`: both tokens can come last. -/
def optTail : Seg := ⟨[1], fun t => if t = 1 then [2] else [], fun t => t = 1 ∨ t = 2⟩
/-- `a { b / c } d`. -/
def fork : Seg := ⟨[1], fun t => if t = 1 then [2, 3] else if t = 2 ∨ t = 3 then [4] else [], fun t => t = 4⟩

/-- C19: the listing ends (whatever the graph, cycles included) and holds exactly the tokens that can be reached through tokens that
are not last tokens. -/
theorem listing_inner (s : Seg) (U : List Nat) (h : Within s U) (f : Nat) (hf : U.length < f) :
    ∃ l, listing s f = some l ∧ ∀ t, t ∈ l ↔ Inner s t := by
  obtain ⟨l, h1, h2⟩ := roots_spec s U h.2 f hf s.first [] h.1
  refine ⟨l, h1, ?_⟩
  intro t
  constructor
  · intro ht
    exact runs_sound h2 (Inner s) (fun x hx hl y hy => .step hx hl hy) (by simp) (fun x hx => .first hx) t ht
  · intro ht
    obtain ⟨x, e, m, c⟩ := runs_props h2
    simp only [List.nil_append] at e
    subst e
    induction ht with
    | first h => exact m _ h
    | step _ hl hu ih => exact c _ ih hl _ hu

example : Within fork [1, 2, 3, 4] := by
  refine ⟨by decide, ?_⟩
  decide

/-- C19, reachable tokens. Partial: a last token must not lead anywhere; see `tail_word_not_listed`. -/
theorem listing_reachable_partial (s : Seg) (U : List Nat) (h : Within s U) (f : Nat) (hf : U.length < f)
    (hl : ∀ t, s.last t = true → s.next t = []) : ∃ l, listing s f = some l ∧ ∀ t, t ∈ l ↔ Reach s t := by
  obtain ⟨l, h1, h2⟩ := listing_inner s U h f hf
  refine ⟨l, h1, fun t => ?_⟩
  rw [h2]
  constructor
  · intro ht
    induction ht with
    | first h => exact .first h
    | step _ _ hu ih => exact .step ih hu
  · intro ht
    induction ht with
    | first h => exact .first h
    | @step t u _ hu ih =>
      refine .step ih ?_ hu
      cases hh : s.last t with
      | false => rfl
      | true => rw [hl t hh] at hu; simp at hu

example : ∀ t, fork.last t = true → fork.next t = [] := by
  intro t ht
  have : t = 4 := by simpa [fork] using ht
  subst this; rfl

/-- C19 fails for a reference that ends in an optional word: in `a { b / @ }` the token `b` can be reached but is not listed, so it takes no
part in the alignment. -/
theorem tail_word_not_listed : ∃ (s : Seg) (l : List Nat) (t : Nat), listing s 5 = some l ∧ Reach s t ∧ t ∉ l :=
  ⟨optTail, [1], 2, by decide, .step (t := 1) (.first (by decide)) (by decide), by decide⟩

/-- C19, once. Partial: a token that is not a first token is listed at most once; a first token is listed once for being first and at most once
more. -/
theorem listing_once_partial (s : Seg) (U : List Nat) (h : Within s U) (f : Nat) (hf : U.length < f) :
    ∃ l, listing s f = some l ∧ (∀ t, t ∉ s.first → l.count t ≤ 1) ∧ ∀ t, s.first.count t ≤ l.count t ∧ l.count t ≤ 1 + s.first.count t := by
  obtain ⟨l, h1, h2⟩ := roots_spec s U h.2 f hf s.first [] h.1
  refine ⟨l, h1, ?_, ?_⟩
  · intro t ht
    have := (runs_count h2 t).2.2.1 ht
    simpa using this
  · intro t
    have := runs_count h2 t
    simp only [List.count_nil, Nat.zero_add] at this
    omega

/-- C19, once. Partial: no token may lead to a first token; then nothing is listed twice and the destructor deletes every token once. -/
theorem listing_nodup_partial (s : Seg) (U : List Nat) (h : Within s U) (f : Nat) (hf : U.length < f) (hn : s.first.Nodup)
    (hp : ∀ t, ∀ u ∈ s.next t, u ∉ s.first) : ∃ l, listing s f = some l ∧ l.Nodup ∧ deleteAll l [] ≠ none := by
  obtain ⟨l, h1, h2⟩ := roots_spec s U h.2 f hf s.first [] h.1
  have hnd : l.Nodup := by
    rw [List.nodup_iff_count]
    intro t
    by_cases ht : t ∈ s.first
    · have := runs_first hp h2 t ht
      have h1 := List.nodup_iff_count.mp hn t
      simp only [List.count_nil] at this
      omega
    · simpa using (runs_count h2 t).2.2.1 ht
  refine ⟨l, h1, hnd, ?_⟩
  rw [Ne, deleteAll_none l [] (by simp)]
  simp [hnd]

example : fork.first.Nodup ∧ ∀ t, ∀ u ∈ fork.next t, u ∉ fork.first := by
  refine ⟨by decide, ?_⟩
  intro t u hu
  simp only [fork] at hu ⊢
  split at hu
  · simp at hu ⊢; omega
  · split at hu
    · simp at hu ⊢; omega
    · simp at hu

/-- C19 fails in general for references that begin with an optional word: if the first of the first tokens (not itself a last token) leads to
another first token, that token is listed twice, and the destructor of the segment deletes it twice. -/
theorem head_word_listed_twice (s : Seg) (U : List Nat) (h : Within s U) (f : Nat) (hf : U.length < f) (t : Nat) (r : List Nat) (u : Nat)
    (hfirst : s.first = t :: r) (hu : u ∈ r) (hl : s.last t = false) (hn : u ∈ s.next t) :
    ∃ l, listing s f = some l ∧ 2 ≤ l.count u ∧ deleteAll l [] = none := by
  obtain ⟨l, h1, h2⟩ := roots_spec s U h.2 f hf s.first [] h.1
  have hc : 2 ≤ l.count u := by
    rw [hfirst] at h2
    cases h2 with
    | @cons _ _ _ res _ e1 r1 =>
      have hm := e1.targets u (by rw [if_neg (by simp [hl])]; exact hn)
      have h3 := List.count_pos_iff.mpr hm
      have h4 := (runs_count r1 u).2.2.2
      have h5 := List.count_pos_iff.mpr hu
      omega
  refine ⟨l, h1, hc, ?_⟩
  rw [deleteAll_none l [] (by simp)]
  intro hh
  have := List.nodup_iff_count.mp hh.1 u
  omega

example : optHead.first = 1 :: [2] ∧ 2 ∈ [2] ∧ optHead.last 1 = false ∧ 2 ∈ optHead.next 1 ∧ listing optHead 3 = some [1, 2, 2] := by decide

/-- C19: every token that is not a first token stands behind some token it can follow. -/
theorem listing_after_some (s : Seg) (U : List Nat) (h : Within s U) (f : Nat) (hf : U.length < f) :
    ∃ l, listing s f = some l ∧ ∀ (i : Nat) (u : Nat), l[i]? = some u → u ∉ s.first →
      ∃ (j : Nat) (t : Nat), j < i ∧ l[j]? = some t ∧ s.last t = false ∧ u ∈ s.next t := by
  obtain ⟨l, h1, h2⟩ := roots_spec s U h.2 f hf s.first [] h.1
  refine ⟨l, h1, ?_⟩
  intro i u hi hu
  obtain ⟨hlt, hg⟩ := List.getElem?_eq_some_iff.mp hi
  have hs : l = l.take i ++ u :: l.drop (i + 1) := by
    rw [← hg, ← List.drop_eq_getElem_cons hlt, List.take_append_drop]
  rcases runs_pred h2 (fun t ht => ht) (by simp) _ _ _ hs with h | ⟨p, hp, hl, hn⟩
  · exact absurd h hu
  · obtain ⟨j, hj⟩ := List.mem_iff_getElem?.mp hp
    rw [List.getElem?_take] at hj
    split at hj
    · exact ⟨j, p, by assumption, hj, hl, hn⟩
    · simp at hj

/-- C19, order. Partial: for a segment in which no token has two predecessors and first tokens have none (no alternatives that join
again) the listing is topological; see `fork_not_topological` for one that is not. -/
theorem listing_topological_partial (s : Seg) (U : List Nat) (h : Within s U) (f : Nat) (hf : U.length < f) (hn : s.first.Nodup)
    (hp : ∀ t, ∀ u ∈ s.next t, u ∉ s.first) (ht : ∀ t t' u, u ∈ s.next t → u ∈ s.next t' → t = t') :
    ∃ l, listing s f = some l ∧ l.Nodup ∧ Topological s l := by
  obtain ⟨l, h1, h2, _⟩ := listing_nodup_partial s U h f hf hn hp
  obtain ⟨l', h1', h3⟩ := listing_after_some s U h f hf
  rw [h1] at h1'
  cases h1'
  refine ⟨l, h1, h2, ?_⟩
  intro i j t u hi hj hu
  obtain ⟨k, t', hk, hkt, _, hu'⟩ := h3 j u hj (hp t u hu)
  have he := ht t t' u hu hu'
  subst he
  have hik : i = k := by
    obtain ⟨a, ha⟩ := List.getElem?_eq_some_iff.mp hi
    obtain ⟨b, hb⟩ := List.getElem?_eq_some_iff.mp hkt
    exact (List.getElem_inj h2).mp (ha.trans hb.symm)
  omega

/-- C19, plain references: a chain of words is listed in order. -/
theorem listing_plain (s : Seg) (l : List Nat) (h : IsChain s l) (f : Nat) (hf : l.length < f) : listing s f = some l := by
  unfold listing
  rw [h.first]
  cases l with
  | nil => simp [roots]
  | cons t l =>
    simp only [List.take_succ_cons, List.take_zero]
    unfold roots
    rw [visit_chain s l t f ([] ++ [t]) h.distinct (by
      intro x hx
      simp only [List.nil_append, List.mem_singleton]
      intro e; subst e
      exact (List.nodup_cons.mp h.distinct).1 hx) (by simp) (by simp at hf; omega) h.next
      (fun i x hx hi => by
        cases hh : s.last x with
        | false => rfl
        | true =>
          have := (h.last i x hx).mp hh
          simp at this; omega)]
    simp [roots]

example : IsChain plain [1, 2, 3] := by
  refine ⟨by decide, rfl, ?_, ?_⟩
  · intro i t hi
    match i, hi with
    | 0, hi => cases hi; rfl
    | 1, hi => cases hi; rfl
    | 2, hi => cases hi; rfl
    | i + 3, hi => simp at hi
  · intro i t hi
    match i, hi with
    | 0, hi => cases hi; decide
    | 1, hi => cases hi; decide
    | 2, hi => cases hi; decide
    | i + 3, hi => simp at hi

/-- C19 fails for order: in `a { b / c } d` the token `d` is listed before `c`, which it follows. -/
theorem fork_not_topological : ∃ (s : Seg) (l : List Nat), listing s 5 = some l ∧ l.Nodup ∧ ¬ Topological s l := by
  refine ⟨fork, [1, 2, 4, 3], by decide, by decide, ?_⟩
  intro h
  have := h 3 2 3 4 rfl rfl (by decide)
  omega

end Verif.Topo
