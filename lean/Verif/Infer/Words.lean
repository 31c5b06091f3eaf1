import Verif.Infer.Lang
import Verif.Text.Props
/-!
# Joining words
-/
set_option autoImplicit false
namespace Verif.Infer
open Verif.Net Verif.Text Verif.CharNet

theorem joinable_opt {e : Enc} {w : CW} (h : Joinable e w) (ho : w.opt = true) : ¬ IsNull w := by
  intro hn
  obtain ⟨t, _, h2⟩ := h.decoded ho
  unfold IsNull at hn
  rw [hn] at h2
  cases t <;> simp at h2

theorem textOf_opt {w : CW} (ho : w.opt = true) : textOf w = w.intern.getD [] := if_pos ho
theorem textOf_plain {w : CW} (ho : ¬ w.opt = true) : textOf w = w.value := if_neg ho

theorem joinable_null {e : Enc} {w : CW} (h : Joinable e w) : IsNull w ↔ textOf w = [64] := by
  refine ⟨?_, h.null⟩
  intro hn
  by_cases ho : w.opt = true
  · exact absurd hn (joinable_opt h ho)
  · rw [textOf_plain ho]; exact hn

theorem text?_joinable {e : Enc} {w : CW} (h : Joinable e w) : text? w = some (textOf w) := by
  unfold text?
  by_cases ho : w.opt = true
  · obtain ⟨t, h1, _⟩ := h.decoded ho
    rw [if_pos ho, textOf_opt ho, h1]; rfl
  · rw [if_neg ho, textOf_plain ho]

theorem spelling_null {xs : List CW} (h : ∀ x ∈ xs, IsNull x) : spelling xs = [64] := if_pos h
theorem spelling_real {xs : List CW} (h : ¬ ∀ x ∈ xs, IsNull x) : spelling xs = (xs.filter fun x => ¬ IsNull x).flatMap textOf := if_neg h

theorem filter_null {xs : List CW} (h : ∀ x ∈ xs, IsNull x) : xs.filter (fun x => ¬ IsNull x) = [] := by
  rw [List.filter_eq_nil_iff]
  intro x hx
  simp [h x hx]

theorem not_all_append {xs ys : List CW} : (¬ ∀ x ∈ xs ++ ys, IsNull x) ↔ (¬ ∀ x ∈ xs, IsNull x) ∨ (¬ ∀ x ∈ ys, IsNull x) := by
  rw [← Classical.not_and_iff_not_or_not]
  apply not_congr
  constructor
  · intro h; exact ⟨fun x hx => h x (by simp [hx]), fun x hx => h x (by simp [hx])⟩
  · rintro ⟨h1, h2⟩ x hx
    rcases List.mem_append.1 hx with hx | hx
    · exact h1 x hx
    · exact h2 x hx

theorem spelling_null_left {xs ys : List CW} (h : ∀ x ∈ xs, IsNull x) : spelling (xs ++ ys) = spelling ys := by
  by_cases hy : ∀ x ∈ ys, IsNull x
  · rw [spelling_null hy, spelling_null]
    intro x hx
    rcases List.mem_append.1 hx with hx | hx
    · exact h x hx
    · exact hy x hx
  · rw [spelling_real hy, spelling_real (not_all_append.2 (Or.inr hy)), List.filter_append, filter_null h, List.nil_append]

theorem spelling_null_right {xs ys : List CW} (h : ∀ x ∈ ys, IsNull x) : spelling (xs ++ ys) = spelling xs := by
  by_cases hx : ∀ x ∈ xs, IsNull x
  · rw [spelling_null hx, spelling_null]
    intro x hx'
    rcases List.mem_append.1 hx' with hx' | hx'
    · exact hx x hx'
    · exact h x hx'
  · rw [spelling_real hx, spelling_real (not_all_append.2 (Or.inl hx)), List.filter_append, filter_null h, List.append_nil]

theorem spelling_append {xs ys : List CW} (hx : ¬ ∀ x ∈ xs, IsNull x) (hy : ¬ ∀ x ∈ ys, IsNull x) :
    spelling (xs ++ ys) = spelling xs ++ spelling ys := by
  rw [spelling_real hx, spelling_real hy, spelling_real (not_all_append.2 (Or.inl hx)), List.filter_append, List.flatMap_append]

theorem spelling_nonempty {e : Enc} {xs : List CW} (h : ∀ x ∈ xs, Joinable e x) : spelling xs ≠ [] := by
  by_cases hx : ∀ x ∈ xs, IsNull x
  · rw [spelling_null hx]; simp
  · rw [spelling_real hx]
    obtain ⟨x, h1⟩ := Classical.not_forall.1 hx
    obtain ⟨h1, h2⟩ := Classical.not_imp.1 h1
    intro e0
    rw [List.flatMap_eq_nil_iff] at e0
    exact (h x h1).text.2 (e0 x (List.mem_filter.2 ⟨h1, by simp [h2]⟩))

theorem flatMap_one {l : List CW} (h : ∀ x ∈ l, textOf x ≠ []) {b : Nat} (he : l.flatMap textOf = [b]) : ∃ x, x ∈ l ∧ textOf x = [b] := by
  cases l with
  | nil => cases he
  | cons x l =>
    rw [List.flatMap_cons] at he
    cases ht : textOf x with
    | nil => exact absurd ht (h x (by simp))
    | cons c t =>
      rw [ht, List.cons_append] at he
      injection he with h1 h2
      have h3 : t = [] := (List.append_eq_nil_iff.1 h2).1
      exact ⟨x, by simp, by rw [ht, h1, h3]⟩

theorem spelling_at {e : Enc} {xs : List CW} (h : ∀ x ∈ xs, Joinable e x) : spelling xs = [64] ↔ ∀ x ∈ xs, IsNull x := by
  refine ⟨?_, spelling_null⟩
  intro hs
  apply Classical.byContradiction
  intro hx
  rw [spelling_real hx] at hs
  obtain ⟨x, h1, h2⟩ := flatMap_one (fun x hx' => (h x (List.mem_filter.1 hx').1).text.2) hs
  obtain ⟨h3, h4⟩ := List.mem_filter.1 h1
  exact (of_decide_eq_true h4) ((h x h3).null h2)

theorem valid_append {e : Enc} {p q : List Nat} (hp : Valid e p) (hq : Valid e q) : Valid e (p ++ q) := by
  obtain ⟨cs, rfl, h1⟩ := hp
  obtain ⟨ds, rfl, h2⟩ := hq
  refine ⟨cs ++ ds, by rw [List.flatten_append], ?_⟩
  intro c hc
  rcases List.mem_append.1 hc with h | h
  · exact h1 c h
  · exact h2 c h

theorem valid_flatMap {e : Enc} {l : List CW} (h : ∀ x ∈ l, Valid e (textOf x)) : Valid e (l.flatMap textOf) := by
  induction l with
  | nil => exact ⟨[], rfl, fun c hc => by cases hc⟩
  | cons x l ih => rw [List.flatMap_cons]; exact valid_append (h x (by simp)) (ih fun y hy => h y (by simp [hy]))

theorem valid_spelling {e : Enc} {xs : List CW} (hne : xs ≠ []) (h : ∀ x ∈ xs, Joinable e x) : Valid e (spelling xs) := by
  by_cases hx : ∀ x ∈ xs, IsNull x
  · rw [spelling_null hx]
    obtain ⟨x, hx'⟩ := List.exists_mem_of_ne_nil _ hne
    have := (h x hx').text.1
    rw [(joinable_null (h x hx')).1 (hx x hx')] at this
    exact this
  · rw [spelling_real hx]
    exact valid_flatMap fun x hx' => (h x (List.mem_filter.1 hx').1).text.1

/-- Sequences of words that can be joined. -/
structure Fit (e : Enc) (ws : List CW) : Prop where
  nonempty : ws ≠ []
  words : ∀ w ∈ ws, Joinable e w
  short : (∀ w ∈ ws, w.opt = true) → (ws.flatMap textOf).length < 9998

/-- A join, or a single word. -/
def Joint (xs : List CW) (w : CW) : Prop := xs = [w] ∨ (2 ≤ xs.length ∧ IsJoin xs w)

/-- What is known of a join or a single word. -/
structure Facts (xs : List CW) (w : CW) : Prop where
  opt : w.opt = true ↔ ∀ x ∈ xs, x.opt = true
  frag : w.frag = true ↔ ∀ x ∈ xs, x.frag = true
  text : text? w = some (spelling xs)
  null : w.value = [64] ↔ ∀ x ∈ xs, IsNull x
  first : xs.head?.map CW.t1 = some w.t1
  last : xs.getLast?.map CW.t2 = some w.t2
  conf : ∀ lo hi : Rat, (∀ x ∈ xs, lo ≤ x.conf ∧ x.conf ≤ hi) → lo ≤ w.conf ∧ w.conf ≤ hi

theorem spelling_one {e : Enc} {w : CW} (h : Joinable e w) : spelling [w] = textOf w := by
  by_cases hn : IsNull w
  · rw [spelling_null (by simpa using hn), (joinable_null h).1 hn]
  · rw [spelling_real (by simpa using hn)]
    simp [hn]

theorem facts_of {e : Enc} {xs : List CW} {w : CW} (hne : xs ≠ []) (h : ∀ x ∈ xs, Joinable e x) (hj : Joint xs w) : Facts xs w := by
  rcases hj with rfl | ⟨_, hj⟩
  · have hw := h w (by simp)
    refine ⟨by simp, by simp, ?_, by simp [IsNull], rfl, rfl, ?_⟩
    · rw [text?_joinable hw, spelling_one hw]
    · intro lo hi hb; exact hb w (by simp)
  · refine ⟨hj.opt, hj.frag, ?_, ?_, hj.first, hj.last, hj.conf⟩
    · unfold text?
      by_cases ho : w.opt = true
      · rw [if_pos ho, hj.intern, if_pos ho]
      · rw [if_neg ho, hj.value, if_neg ho]
    · by_cases ho : w.opt = true
      · have ha := hj.opt.1 ho
        obtain ⟨x, hx⟩ := List.exists_mem_of_ne_nil _ hne
        constructor
        · intro hv
          have := hj.value
          rw [if_pos ho, hv] at this
          cases hs : spelling xs <;> rw [hs] at this <;> simp at this
        · intro hn
          exact absurd (hn x hx) (joinable_opt (h x hx) (ha x hx))
      · rw [hj.value, if_neg ho, spelling_at h]

theorem all_append {P : CW → Prop} {xs ys : List CW} : (∀ x ∈ xs ++ ys, P x) ↔ (∀ x ∈ xs, P x) ∧ ∀ x ∈ ys, P x := by
  constructor
  · intro h; exact ⟨fun x hx => h x (by simp [hx]), fun x hx => h x (by simp [hx])⟩
  · rintro ⟨h1, h2⟩ x hx
    rcases List.mem_append.1 hx with hx | hx
    · exact h1 x hx
    · exact h2 x hx

theorem half_bounds {lo hi a b : Rat} (h1 : lo ≤ a ∧ a ≤ hi) (h2 : lo ≤ b ∧ b ≤ hi) : lo ≤ (a + b) / 2 ∧ (a + b) / 2 ≤ hi := by
  constructor <;> grind

theorem text?_intern {w : CW} (ho : w.opt = true) : text? w = w.intern := if_pos ho

theorem append_spec {e : Enc} {xs ys : List CW} {x y : CW} (hx0 : xs ≠ []) (hy0 : ys ≠ []) (hf : Fit e (xs ++ ys)) (hx : Joint xs x) (hy : Joint ys y) :
    ∃ z, appendNoNull x y = some z ∧ IsJoin (xs ++ ys) z := by
  obtain ⟨wx, wy⟩ := all_append.1 hf.words
  have fx := facts_of hx0 wx hx
  have fy := facts_of hy0 wy hy
  have hfirst : (xs ++ ys).head?.map CW.t1 = some x.t1 := by
    rw [← fx.first]
    cases xs with
    | nil => exact absurd rfl hx0
    | cons a xs => rfl
  have hlast : (xs ++ ys).getLast?.map CW.t2 = some y.t2 := by
    rw [← fy.last, List.getLast?_append]
    cases hg : ys.getLast? with
    | none => exact absurd (List.getLast?_eq_none_iff.1 hg) hy0
    | some a => rfl
  have hfrag : (x.frag && y.frag) = true ↔ ∀ w ∈ xs ++ ys, w.frag = true := by
    rw [Bool.and_eq_true, fx.frag, fy.frag, all_append]
  have hopt : (x.opt && y.opt) = true ↔ ∀ w ∈ xs ++ ys, w.opt = true := by
    rw [Bool.and_eq_true, fx.opt, fy.opt, all_append]
  have hconf : ∀ lo hi : Rat, (∀ w ∈ xs ++ ys, lo ≤ w.conf ∧ w.conf ≤ hi) → lo ≤ (x.conf + y.conf) / 2 ∧ (x.conf + y.conf) / 2 ≤ hi := by
    intro lo hi hb
    obtain ⟨b1, b2⟩ := all_append.1 hb
    exact half_bounds (fx.conf lo hi b1) (fy.conf lo hi b2)
  have plain : ¬ (x.opt && y.opt) = true → ∀ t, t = spelling (xs ++ ys) → IsJoin (xs ++ ys) (joined x y t none false) := by
    intro ho t ht
    refine ⟨?_, hfrag, ?_, ?_, hfirst, hlast, rfl, hconf⟩
    · rw [← hopt]
      constructor
      · intro h; cases h
      · intro h; exact absurd h ho
    · show t = if false = true then _ else _
      rw [if_neg (by decide), ht]
    · show none = if false = true then _ else _
      rw [if_neg (by decide)]
  unfold appendNoNull
  by_cases ho : (x.opt && y.opt) = true
  · rw [if_pos ho]
    have hall := hopt.1 ho
    obtain ⟨a1, a2⟩ := all_append.1 hall
    rw [Bool.and_eq_true] at ho
    have ix : x.intern = some (spelling xs) := by rw [← text?_intern ho.1, fx.text]
    have iy : y.intern = some (spelling ys) := by rw [← text?_intern ho.2, fy.text]
    rw [ix, iy]
    dsimp only
    have hnx : ¬ ∀ w ∈ xs, IsNull w := by
      obtain ⟨w, hw⟩ := List.exists_mem_of_ne_nil _ hx0
      exact fun h => joinable_opt (wx w hw) (a1 w hw) (h w hw)
    have hny : ¬ ∀ w ∈ ys, IsNull w := by
      obtain ⟨w, hw⟩ := List.exists_mem_of_ne_nil _ hy0
      exact fun h => joinable_opt (wy w hw) (a2 w hw) (h w hw)
    have hsp := spelling_append hnx hny
    have hlen : (spelling (xs ++ ys)).length < 9998 := by
      rw [spelling_real (not_all_append.2 (Or.inl hnx))]
      have : (xs ++ ys).filter (fun x => ¬ IsNull x) = xs ++ ys := by
        rw [List.filter_eq_self]
        intro w hw
        simp [joinable_opt (hf.words w hw) (hall w hw)]
      rw [this]
      exact hf.short hall
    rw [← hsp, if_pos (by unfold bufSize; omega)]
    refine ⟨_, rfl, ⟨?_, hfrag, ?_, ?_, hfirst, hlast, rfl, hconf⟩⟩
    · exact ⟨fun _ => hall, fun _ => rfl⟩
    · show _ = if true = true then _ else _
      rw [if_pos rfl]; rfl
    · show _ = if true = true then _ else _
      rw [if_pos rfl]; rfl
  · rw [if_neg ho]
    by_cases h1 : x.value = [64]
    · rw [if_pos h1, fy.text]
      exact ⟨_, rfl, plain ho _ (spelling_null_left (fx.null.1 h1)).symm⟩
    · rw [if_neg h1]
      by_cases h2 : y.value = [64]
      · rw [if_pos h2, fx.text]
        exact ⟨_, rfl, plain ho _ (spelling_null_right (fy.null.1 h2)).symm⟩
      · rw [if_neg h2, fx.text, fy.text]
        exact ⟨_, rfl, plain ho _ (spelling_append (fun h => h1 (fx.null.2 h)) (fun h => h2 (fy.null.2 h))).symm⟩

theorem inLex_spec {e : Enc} {lex : List (List Nat)} (hl : Lexicon e lex) {xs : List CW} {x : CW} (hf : Fit e xs) (hj : Joint xs x) :
    ∃ b, inLex e lex x = some b ∧ (b = true ↔ spelling xs ∈ lex) := by
  have fx := facts_of hf.nonempty hf.words hj
  unfold inLex
  rw [fx.text]
  dsimp only
  obtain ⟨r, h1, h2, h3⟩ := lookup_finds_exactly e (spelling xs) lex (valid_spelling hf.nonempty hf.words) hl.valid hl.sorted
  rw [h1]
  refine ⟨r.isSome, rfl, ?_⟩
  cases r with
  | none => simpa using h3 rfl
  | some i => simpa using List.mem_of_getElem? (h2 i rfl)

theorem joins {e : Enc} {lex : List (List Nat)} (hl : Lexicon e lex) :
    Joins appendNoNull (inLex e lex) (Fit e) (fun xs x => xs ≠ [] ∧ Joint xs x) (fun xs => spelling xs ∈ lex) := by
  refine ⟨fun w _ => ⟨by simp, Or.inl rfl⟩, ?_, fun xs x hf hj => inLex_spec hl hf hj.2⟩
  intro xs ys x y hf hx hy
  obtain ⟨z, h1, h2⟩ := append_spec hx.1 hy.1 hf hx.2 hy.2
  refine ⟨z, h1, ?_, Or.inr ⟨?_, h2⟩⟩
  · intro h; exact hx.1 (List.append_eq_nil_iff.1 h).1
  · have a1 := List.length_pos_iff.2 hx.1
    have a2 := List.length_pos_iff.2 hy.1
    rw [List.length_append]; omega

theorem fit_prefix {e : Enc} {xs ys : List CW} (hx : xs ≠ []) (h : Fit e (xs ++ ys)) (hs : (∀ w ∈ xs, w.opt = true) → (xs.flatMap textOf).length < 9998) :
    Fit e xs := ⟨hx, (all_append.1 h.words).1, hs⟩

theorem isJoin_unique {xs : List CW} {x y : CW} (hx : IsJoin xs x) (hy : IsJoin xs y) : SameWord x y := by
  have ho : x.opt = y.opt := by
    rw [Bool.eq_iff_iff, hx.opt, hy.opt]
  have hfr : x.frag = y.frag := by
    rw [Bool.eq_iff_iff, hx.frag, hy.frag]
  have h1 : x.t1 = y.t1 := by have := hx.first; rw [hy.first] at this; exact (Option.some.inj this).symm
  have h2 : x.t2 = y.t2 := by have := hx.last; rw [hy.last] at this; exact (Option.some.inj this).symm
  have hd : x.dur = y.dur := by rw [hx.dur, hy.dur, h1, h2]
  have hv : x.value = y.value := by rw [hx.value, hy.value, ho]
  have hi : x.intern = y.intern := by rw [hx.intern, hy.intern, ho]
  unfold SameWord
  cases x; cases y
  simp_all

theorem sameWord_refl (x : CW) : SameWord x x := rfl
theorem SameWord.symm {x y : CW} (h : SameWord x y) : SameWord y x := Eq.symm h

/-- Joining the words of a run from the left. -/
theorem fold_join {e : Enc} : ∀ (ds xs : List CW) (x : CW), xs ≠ [] → Joint xs x →
    (∀ k, Fit e (xs ++ ds.take k)) → ∃ z, ds.foldlM appendNoNull x = some z ∧ Joint (xs ++ ds) z := by
  intro ds
  induction ds with
  | nil => intro xs x _ hj _; exact ⟨x, rfl, by simpa using hj⟩
  | cons d ds ih =>
    intro xs x hne hj hf
    rw [List.foldlM_cons]
    have h1 : Fit e (xs ++ [d]) := hf 1
    obtain ⟨z, z1, z2⟩ := append_spec hne (by simp) h1 hj (Or.inl rfl)
    rw [z1]
    have hlen : 2 ≤ (xs ++ [d]).length := by
      have := List.length_pos_iff.2 hne
      simp only [List.length_append, List.length_cons, List.length_nil]; omega
    obtain ⟨z', a1, a2⟩ := ih (xs ++ [d]) z (by simp) (Or.inr ⟨hlen, z2⟩) (fun k => by
      have := hf (k + 1)
      rw [List.take_succ_cons] at this
      simpa using this)
    exact ⟨z', a1, by simpa using a2⟩

end Verif.Infer
