import Verif.Unified.Model
import Verif.Stats.Props
import Verif.Mapsswe.Props
/-!
# Lemmas on the options and on the report
-/
set_option autoImplicit false
namespace Verif.Unified
open Verif.Stats

theorem plain_append (l r : List Str) (hl : ∀ s ∈ l, dash s = false) (hr : ∀ s, r.head? = some s → dash s = true) :
    plain (l ++ r) = l ∧ skip (l ++ r) = r := by
  induction l with
  | nil =>
    cases r with
    | nil => exact ⟨rfl, rfl⟩
    | cons a r =>
      have := hr a rfl
      simp [plain, skip, this]
  | cons a l ih =>
    have ha := hl a List.mem_cons_self
    have ih := ih (fun s h => hl s (List.mem_cons_of_mem _ h))
    simp only [plain, skip] at ih
    simp [plain, skip, ha, ih]

/-- What an option does to the settings. -/
def effect (atoi : Str → Int) (o : Opts) : Item → Opts
  | .pipe => { o with pipein := some true }
  | .verbose => { o with verbose := true }
  | .unified => { o with unified := true }
  | .outDir s => { o with outDir := some s }
  | .outName s => { o with outName := s }
  | .desc s => { o with testName := s }
  | .width s => { o with width := atoi s }
  | .formula s => { o with feedback := atoi s }
  | .tests l => { o with tests := l.foldl testStep o.tests }
  | .reports l => { o with reports := l.foldl reportStep o.reports }
  | .graphs l => { o with graphs := l.foldl graphStep o.graphs }

theorem render_head (items : List Item) (s : Str) (h : (items.flatMap Item.render).head? = some s) : dash s = true := by
  cases items with
  | nil => simp at h
  | cons i items =>
    cases i <;> simp only [List.flatMap_cons, Item.render, List.cons_append, List.head?_cons, Option.some.injEq] at h <;>
      subst h <;> rfl

theorem step_render (atoi : Str → Int) (f : Nat) (o : Opts) (i : Item) (hi : i.Good) (items : List Item) :
    procLoop atoi (f + 1) o (i.render ++ items.flatMap Item.render) =
      procLoop atoi f (effect atoi o i) (items.flatMap Item.render) := by
  have hh := render_head items
  generalize items.flatMap Item.render = r at hh ⊢
  cases i with
  | tests l =>
    obtain ⟨h1, h2⟩ := hi
    cases l with
    | nil => exact absurd rfl h1
    | cons a l =>
      obtain ⟨e1, e2⟩ := plain_append (a :: l) r h2 hh
      show procLoop atoi f { o with tests := (plain (a :: l ++ r)).foldl testStep o.tests } (skip (a :: l ++ r)) = _
      rw [e1, e2]; rfl
  | reports l =>
    obtain ⟨h1, h2⟩ := hi
    cases l with
    | nil => exact absurd rfl h1
    | cons a l =>
      obtain ⟨e1, e2⟩ := plain_append (a :: l) r h2 hh
      show procLoop atoi f { o with reports := (plain (a :: l ++ r)).foldl reportStep o.reports } (skip (a :: l ++ r)) = _
      rw [e1, e2]; rfl
  | graphs l =>
    obtain ⟨h1, h2⟩ := hi
    cases l with
    | nil => exact absurd rfl h1
    | cons a l =>
      obtain ⟨e1, e2⟩ := plain_append (a :: l) r h2 hh
      show procLoop atoi f { o with graphs := (plain (a :: l ++ r)).foldl graphStep o.graphs } (skip (a :: l ++ r)) = _
      rw [e1, e2]; rfl
  | _ => rfl

theorem loop_nil (atoi : Str → Int) (f : Nat) (o : Opts) : procLoop atoi f o [] = .run o := by
  cases f <;> rfl

/-- The loop carries out the options one after another; it stops at an argument that does not begin with a hyphen. -/
theorem loop_render (atoi : Str → Int) : ∀ (items : List Item) (f : Nat) (o : Opts), items.length ≤ f →
    (∀ i ∈ items, i.Good) → procLoop atoi f o (items.flatMap Item.render) = .run (items.foldl (effect atoi) o)
  | [], f, o, _, _ => loop_nil atoi f o
  | i :: items, 0, o, h, _ => by simp at h
  | i :: items, f + 1, o, h, hg => by
    rw [List.flatMap_cons, step_render atoi f o i (hg i List.mem_cons_self) items,
      loop_render atoi items f _ (by simp at h; omega) (fun j hj => hg j (List.mem_cons_of_mem _ hj))]
    rfl

theorem render_pos (i : Item) : 1 ≤ i.render.length := by cases i <;> simp [Item.render]

theorem render_length : ∀ items : List Item, items.length ≤ (items.flatMap Item.render).length
  | [] => Nat.le_refl _
  | i :: items => by
    have := render_pos i
    have := render_length items
    simp only [List.length_cons, List.flatMap_cons, List.length_append]
    omega

theorem args_render (atoi : Str → Int) (items : List Item) (hne : items ≠ []) (hg : ∀ i ∈ items, i.Good) :
    procArgs atoi (items.flatMap Item.render) = .run (items.foldl (effect atoi) defaults) := by
  unfold procArgs
  have hl := render_length items
  have hp : 1 ≤ items.length := by cases items with | nil => exact absurd rfl hne | cons => simp
  have hr := loop_render atoi items (items.flatMap Item.render).length defaults hl hg
  generalize items.flatMap Item.render = r at *
  cases r with
  | nil => rw [List.length_nil] at hl; omega
  | cons a r => exact hr

/-- A setting that each option either sets or leaves alone has the value it was last given. -/
theorem fold_last {X : Type} (atoi : Str → Int) (φ : Opts → X) (f : Item → Option X)
    (h : ∀ o i, φ (effect atoi o i) = (f i).getD (φ o)) : ∀ (items : List Item) (o : Opts),
    φ (items.foldl (effect atoi) o) = lastOf f (φ o) items
  | [], o => rfl
  | i :: items, o => by
    rw [List.foldl_cons, fold_last atoi φ f h items, h]
    unfold lastOf
    cases hf : f i with
    | none => simp [List.filterMap_cons, hf]
    | some x =>
      simp only [List.filterMap_cons, hf, Option.getD_some, List.getLast?_cons]

/-- A setting that a list of names is applied to. -/
theorem fold_names (atoi : Str → Int) (φ : Opts → List Str) (g : Item → List Str) (st : List Str → Str → List Str)
    (h : ∀ o i, φ (effect atoi o i) = (g i).foldl st (φ o)) : ∀ (items : List Item) (o : Opts),
    φ (items.foldl (effect atoi) o) = (items.flatMap g).foldl st (φ o)
  | [], o => rfl
  | i :: items, o => by
    rw [List.foldl_cons, fold_names atoi φ g st h items, h, List.flatMap_cons, List.foldl_append]

theorem mem_toggle (s : Str) (l : List Str) (x : Str) : x ∈ toggle s l ↔ (if x = s then s ∉ l else x ∈ l) := by
  unfold toggle
  by_cases hs : s ∈ l
  · rw [if_pos hs]
    by_cases hx : x = s
    · simp [hx, hs]
    · simp [hx]
  · rw [if_neg hs]
    by_cases hx : x = s
    · simp [hx, hs]
    · simp [hx]

/-- Names applied one after another, each known name changing its own bit: a bit is changed as often as it is named. -/
theorem fold_parity (st : List Str → Str → List Str) (known : List Str)
    (names : List Str) (hk : ∀ s ∈ names, ∀ l, st l s = if s ∈ known then toggle s l else l) (x : Str) :
    ∀ l : List Str, x ∈ names.foldl st l ↔ ((x ∈ known ∧ names.count x % 2 = 1) ↔ ¬ x ∈ l) := by
  induction names with
  | nil => intro l; simp
  | cons s names ih =>
    intro l
    have ih := ih (fun t ht => hk t (List.mem_cons_of_mem _ ht)) (st l s)
    rw [List.foldl_cons, ih, hk s List.mem_cons_self]
    by_cases hxs : x = s
    · subst hxs
      rw [List.count_cons_self]
      by_cases hkn : x ∈ known
      · rw [if_pos hkn, mem_toggle, if_pos rfl]
        by_cases hl : x ∈ l <;> simp [hl, hkn] <;> omega
      · rw [if_neg hkn]
        simp [hkn]
    · have hc : (s :: names).count x = names.count x := by
        rw [List.count_cons]
        have : (s == x) = false := by simp; exact fun h => hxs h.symm
        simp [this]
      rw [hc]
      by_cases hkn : s ∈ known
      · rw [if_pos hkn, mem_toggle, if_neg hxs]
      · rw [if_neg hkn]

/-- Distinct names from nothing: those named and known. -/
theorem fold_distinct (st : List Str → Str → List Str) (known : List Str)
    (names : List Str) (hk : ∀ s ∈ names, ∀ l, st l s = if s ∈ known then toggle s l else l) (hn : names.Nodup) (x : Str) :
    x ∈ names.foldl st [] ↔ x ∈ known ∧ x ∈ names := by
  rw [fold_parity st known names hk x []]
  have hc : names.count x = if x ∈ names then 1 else 0 := hn.count
  rw [hc]
  by_cases h : x ∈ names <;> simp [h]

end Verif.Unified
