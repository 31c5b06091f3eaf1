import Verif.Chop.Lemmas
import Verif.Chop.Spec
import Verif.Chan.Lemmas
import Verif.Mfa.Lemmas
/-!
# Lemmas about the loop over the chunks
-/
set_option autoImplicit false
namespace Verif.Chop
open Verif.Chan (Tok Word)
open Verif.Mfa (overlap)

variable {K : Type} {ref hyp : List (Tok K)} {Rs Hs : Int}

/-- A cut: within the ranges, not empty, and either everything or after a word outside of alternations; with more than one word
on both sides, in a common gap. -/
structure GoodCut (ref hyp : List (Tok K)) (Rs Hs Re He R H : Int) : Prop where
  r1 : Rs - 1 ≤ R
  r2 : R ≤ Re
  h1 : Hs - 1 ≤ H
  h2 : H ≤ He
  some : Rs ≤ R ∨ Hs ≤ H
  good : (R = Re ∧ H = He) ∨ ((R = Rs - 1 ∨ Plain ref R) ∧ (Rs < R → Hs < H → GapsMeet ref hyp Re He R H))

theorem cut_sat {Re He : Int} (hr : Range ref Rs Re) (hh : Range hyp Hs He) (hne : Rs ≤ Re ∨ Hs ≤ He) :
    ∀ (f : Nat) (len : Int), 1 ≤ f → 1 ≤ len → (Re - Rs).toNat + (He - Hs).toNat + 3 ≤ f + len →
    Sat (AltFirst ref Rs) (fun p => GoodCut ref hyp Rs Hs Re He p.1 p.2) (cut ref hyp Rs Hs Re He f len)
  | 0, len, h0, _, _ => by omega
  | f + 1, len, _, hl, h => by
    unfold cut
    refine Sat.bind (chop_sat hr hh hl) fun o ho => ?_
    obtain ⟨o1, o2⟩ := ho
    cases o with
    | none =>
      have := o1 rfl (by omega)
      exact cut_sat hr hh hne f (len * 2) (by omega) (by omega) (by omega)
    | some p =>
      rcases o2 p rfl with h' | h'
      · obtain ⟨e, h1, -, -⟩ := h'
        subst e
        exact ⟨hr.low, Int.le_refl _, hh.low, Int.le_refl _, h1, Or.inl ⟨rfl, rfl⟩⟩
      · obtain ⟨a1, a2, -, a4, a5, -, a7, a8, a9⟩ := h'
        exact ⟨a1, a2, a4, a5, by omega, Or.inr ⟨a7, a9⟩⟩

/-- The chunks from `Rs` and `Hs` on, up to `Re` and `He`. -/
inductive Cuts (ref hyp : List (Tok K)) (Re He : Int) : Int → Int → List Chunk → Prop
  | nil (Rs Hs : Int) : Rs = Re + 1 → Hs = He + 1 → Cuts ref hyp Re He Rs Hs []
  | cons (Rs Hs R H : Int) (cs : List Chunk) : (Rs ≤ Re ∨ Hs ≤ He) → GoodCut ref hyp Rs Hs Re He R H →
      Cuts ref hyp Re He (R + 1) (H + 1) cs → Cuts ref hyp Re He Rs Hs ({ rb := Rs, re := R, hb := Hs, he := H } :: cs)

theorem Sat.mono {A : Type} {U V : Prop} {P : A → Prop} {x : Out A} (h : Sat U P x) (hf : U → V) : Sat V P x := by
  cases x with
  | undef => exact hf h
  | hang => exact h
  | fail => exact h
  | ok a => exact h

theorem chunks_sat {Re He : Int} {U : Prop} : ∀ (f : Nat) (Rs Hs : Int), (Re + 1 - Rs).toNat + (He + 1 - Hs).toNat + 1 ≤ f →
    Range ref Rs Re → Range hyp Hs He → (AltFirst ref Rs → U) →
    Sat U (fun cs => Cuts ref hyp Re He Rs Hs cs) (chunks ref hyp Re He f Rs Hs)
  | 0, Rs, Hs, h, _, _, _ => by omega
  | f + 1, Rs, Hs, h, hr, hh, hU => by
    unfold chunks
    by_cases hne : Rs ≤ Re ∨ Hs ≤ He
    · rw [if_pos hne]
      refine Sat.bind (Sat.mono (cut_sat hr hh hne _ 50 (by omega) (by omega) (by omega)) hU) fun p hp => ?_
      have hp' := hp
      obtain ⟨p1, p2, p3, p4, p5, -⟩ := hp'
      have r1 := hr.one
      have s1 := hh.one
      refine Sat.bind (chunks_sat f (p.1 + 1) (p.2 + 1) (by omega) ⟨by omega, by omega, hr.pos, hr.high⟩
        ⟨by omega, by omega, hh.pos, hh.high⟩ fun ha => hU ⟨?_, ha.2⟩) fun cs hcs => ?_
      · have := ha.1; omega
      · exact Cuts.cons Rs Hs p.1 p.2 cs hne hp hcs
    · rw [if_neg hne]
      have := hr.low
      have := hh.low
      exact Cuts.nil Rs Hs (by omega) (by omega)

theorem channel_sat {Re He : Int} (hr : Range ref Rs Re) (hh : Range hyp Hs He) :
    Sat (AltFirst ref Rs) (fun cs => Cuts ref hyp Re He Rs Hs cs) (channel ref hyp Rs Re Hs He) :=
  chunks_sat _ Rs Hs (Nat.le_refl _) hr hh id

/-! ### Slices -/

section
variable {X : Type}

theorem slice_empty (l : List X) {a b : Int} (h : b < a) : slice l a b = [] := by
  unfold slice
  rw [show (b + 1 - a).toNat = 0 by omega]; exact List.take_zero

theorem slice_append (l : List X) {a b c : Int} (h1 : 1 ≤ a) (h2 : a - 1 ≤ b) (h3 : b ≤ c) :
    slice l a b ++ slice l (b + 1) c = slice l a c := by
  unfold slice
  have e1 : (b + 1 - 1).toNat = (a - 1).toNat + (b + 1 - a).toNat := by omega
  have e2 : (c + 1 - a).toNat = (b + 1 - a).toNat + (c + 1 - (b + 1)).toNat := by omega
  rw [e1, e2, ← List.drop_drop, List.take_add]

theorem slice_length (l : List X) {a b : Int} (h1 : 1 ≤ a) (h3 : b ≤ l.length) : (slice l a b).length = (b + 1 - a).toNat := by
  unfold slice
  rw [List.length_take, List.length_drop]
  omega
end

theorem slice_one {l : List (Tok K)} {i : Int} {w : Tok K} (h : IsAt l i w) : slice l i i = [w] := by
  obtain ⟨h1, h2⟩ := h
  unfold slice
  obtain ⟨h3, h4⟩ := List.getElem?_eq_some_iff.1 h2
  rw [show (i + 1 - i).toNat = 1 by omega, List.drop_eq_getElem_cons h3, h4]
  rfl

theorem slice_last {l : List (Tok K)} {a i : Int} {w : Tok K} (h : IsAt l i w) (h1 : 1 ≤ a) (h2 : a ≤ i) :
    slice l a i = slice l a (i - 1) ++ [w] := by
  rw [← slice_one h, ← slice_append l (b := i - 1) (c := i) h1 (by omega) (by omega), show i - 1 + 1 = i by omega]

theorem slice_head {l : List (Tok K)} {i e : Int} {w : Tok K} (h : IsAt l i w) (h2 : i ≤ e) :
    slice l i e = w :: slice l (i + 1) e := by
  rw [← slice_append l (b := i) (c := e) h.1 (by omega) h2, slice_one h]; rfl

theorem Cuts.bounds {Re He : Int} {cs : List Chunk} (h : Cuts ref hyp Re He Rs Hs cs) : Rs ≤ Re + 1 ∧ Hs ≤ He + 1 := by
  cases h with
  | nil Rs Hs h1 h2 => omega
  | cons Rs Hs R H cs _ hg _ =>
    obtain ⟨a1, a2, a3, a4, _, _⟩ := hg
    exact ⟨by omega, by omega⟩

theorem Cuts.ref_words {Re He : Int} {cs : List Chunk} (h : Cuts ref hyp Re He Rs Hs cs) (h1 : 1 ≤ Rs) :
    cs.flatMap (fun c => slice ref c.rb c.re) = slice ref Rs Re := by
  induction h with
  | nil Rs Hs h1 h2 => rw [slice_empty _ (by omega)]; rfl
  | cons Rs Hs R H cs _ hg _ ih =>
    rw [List.flatMap_cons, ih (by have := hg.r1; omega)]
    exact slice_append ref h1 hg.r1 hg.r2

theorem Cuts.hyp_words {Re He : Int} {cs : List Chunk} (h : Cuts ref hyp Re He Rs Hs cs) (h1 : 1 ≤ Hs) :
    cs.flatMap (fun c => slice hyp c.hb c.he) = slice hyp Hs He := by
  induction h with
  | nil Rs Hs h1 h2 => rw [slice_empty _ (by omega)]; rfl
  | cons Rs Hs R H cs _ hg _ ih =>
    rw [List.flatMap_cons, ih (by have := hg.h1; omega)]
    exact slice_append hyp h1 hg.h1 hg.h2

theorem Cuts.nonempty {Re He : Int} {cs : List Chunk} (h : Cuts ref hyp Re He Rs Hs cs) (h1 : 1 ≤ Rs) (h2 : 1 ≤ Hs)
    (h3 : Re ≤ ref.length) (h4 : He ≤ hyp.length) : ∀ c ∈ cs, slice ref c.rb c.re ≠ [] ∨ slice hyp c.hb c.he ≠ [] := by
  induction h with
  | nil Rs Hs h1 h2 => intro c hc; cases hc
  | cons Rs Hs R H cs _ hg _ ih =>
    intro c hc
    obtain ⟨a1, a2, a3, a4, a5, _⟩ := hg
    rcases List.mem_cons.1 hc with rfl | hc
    · rcases a5 with h | h
      · refine Or.inl fun e => ?_
        have := congrArg List.length e
        rw [slice_length ref h1 (by dsimp only; omega)] at this
        dsimp only [List.length_nil] at this
        omega
      · refine Or.inr fun e => ?_
        have := congrArg List.length e
        rw [slice_length hyp h2 (by dsimp only; omega)] at this
        dsimp only [List.length_nil] at this
        omega
    · exact ih (by omega) (by omega) c hc

/-- The chunks before and after a chunk. -/
theorem Cuts.split {Re He : Int} {c : Chunk} {ys : List Chunk} : ∀ {xs : List Chunk} {Rs Hs : Int},
    Cuts ref hyp Re He Rs Hs (xs ++ c :: ys) → 1 ≤ Rs → 1 ≤ Hs →
    GoodCut ref hyp c.rb c.hb Re He c.re c.he ∧ Rs ≤ c.rb ∧ Hs ≤ c.hb ∧ Cuts ref hyp Re He (c.re + 1) (c.he + 1) ys ∧
      (xs ++ [c]).flatMap (fun c => slice ref c.rb c.re) = slice ref Rs c.re ∧
      (xs ++ [c]).flatMap (fun c => slice hyp c.hb c.he) = slice hyp Hs c.he
  | [], Rs, Hs, h, h1, h2 => by
    cases h with
    | cons _ _ R H cs _ hg ht =>
      exact ⟨hg, Int.le_refl _, Int.le_refl _, ht, by simp, by simp⟩
  | x :: xs, Rs, Hs, h, h1, h2 => by
    cases h with
    | cons _ _ R H cs _ hg ht =>
      have := hg.r1
      have := hg.h1
      obtain ⟨a1, a2, a3, a4, a5, a6⟩ := Cuts.split ht (by omega) (by omega)
      have b1 := a1.r1
      have b2 := a1.h1
      refine ⟨a1, by omega, by omega, a4, ?_, ?_⟩
      · rw [List.cons_append, List.flatMap_cons, a5]
        exact slice_append ref h1 hg.r1 (show R ≤ c.re by omega)
      · rw [List.cons_append, List.flatMap_cons, a6]
        exact slice_append hyp h2 hg.h1 (show H ≤ c.he by omega)

/-! ### Silences -/

theorem overlap_nonneg {a1 a2 b1 b2 : Rat} (h : 0 ≤ overlap a1 a2 b1 b2) : a1 ≤ a2 ∧ a1 ≤ b2 ∧ b1 ≤ a2 ∧ b1 ≤ b2 := by
  rw [Verif.Mfa.overlap_eq] at h
  unfold Verif.Mfa.smaller Verif.Mfa.larger at h
  grind

/-- The words up to the `i`th are over by its end, the others begin with the next or later. -/
theorem around {l : List (Tok K)} {s e i : Int} {r : Tok K} {g : Rat} (hs : 1 ≤ s) (hi : s ≤ i) (hr : IsAt l i r)
    (ho : InOrder ((slice l s e).map (·.w)))
    (hg : (i = e ∧ g = 99999999 / 100) ∨ (i < e ∧ ∃ w, IsAt l (i + 1) w ∧ g = w.w.t1)) :
    (∀ a ∈ slice l s i, a.w.t1 + a.w.dur ≤ r.w.t1 + r.w.dur) ∧ (∀ b ∈ slice l (i + 1) e, g ≤ b.w.t1) := by
  obtain ⟨hd, hp⟩ := ho
  have hie : i ≤ e := by rcases hg with ⟨h, _⟩ | ⟨h, _⟩ <;> omega
  rw [← slice_append l (b := i) hs (by omega) hie, List.map_append, List.pairwise_append] at hp
  rw [← slice_append l (b := i) hs (by omega) hie] at hd
  obtain ⟨hp1, hp2, -⟩ := hp
  constructor
  · rw [slice_last hr hs hi] at hp1 hd ⊢
    rw [List.map_append, List.pairwise_append] at hp1
    intro a ha
    rcases List.mem_append.1 ha with ha | ha
    · have h1 := hp1.2.2 a.w (List.mem_map_of_mem ha) r.w (by simp)
      have h2 := hd r.w (by simp)
      grind
    · rw [List.mem_singleton.1 ha]; exact Rat.le_refl
  · rcases hg with ⟨h, _⟩ | ⟨h, w, hw, rfl⟩
    · rw [slice_empty l (by omega)]; intro b hb; cases hb
    · rw [slice_head hw (by omega)] at hp2 hd ⊢
      rw [List.map_cons, List.pairwise_cons] at hp2
      intro b hb
      rcases List.mem_cons.1 hb with rfl | hb
      · exact Rat.le_refl
      · have h1 := hp2.1 b.w (List.mem_map_of_mem hb)
        have h2 := hd w.w (by simp)
        grind

/-! ### Alternations -/

theorem toks_alt {it : Chan.Item K} {a b : List (Tok K)} (h : Chan.toks it = a ++ b) (ha : a ≠ []) (hb : b ≠ []) :
    ∀ t ∈ a, t.alternate = true := by
  cases it with
  | single w =>
    cases a with
    | nil => exact absurd rfl ha
    | cons x a =>
      simp only [Chan.toks, List.cons_append, List.cons.injEq] at h
      have := h.2.symm
      rw [List.append_eq_nil_iff] at this
      exact absurd this.2 hb
  | block f i l =>
    intro t ht
    have hm : t ∈ Chan.toks (Chan.Item.block f i l) := by rw [h]; exact List.mem_append_left _ ht
    simp only [Chan.toks, List.mem_cons, List.mem_append, List.mem_map, List.not_mem_nil, or_false] at hm
    rcases hm with rfl | ⟨w, _, rfl⟩ | rfl <;> rfl

theorem toks_ne (it : Chan.Item K) : Chan.toks it ≠ [] := by
  cases it with
  | single w => simp [Chan.toks]
  | block f i l => simp [Chan.toks]

/-- A cut after a word outside of alternations is between items. -/
theorem items_split : ∀ (its : List (Chan.Item K)) (a b : List (Tok K)), its.flatMap Chan.toks = a ++ b →
    (a = [] ∨ b = [] ∨ ∃ a' t, a = a' ++ [t] ∧ t.alternate = false) →
    ∃ i1 i2, its = i1 ++ i2 ∧ i1.flatMap Chan.toks = a ∧ i2.flatMap Chan.toks = b
  | [], a, b, h, _ => by
    obtain ⟨rfl, rfl⟩ := List.append_eq_nil_iff.1 h.symm
    exact ⟨[], [], rfl, rfl, rfl⟩
  | it :: its, a, b, h, hc => by
    by_cases ha : a = []
    · subst ha; exact ⟨[], it :: its, rfl, rfl, h⟩
    · by_cases hb : b = []
      · subst hb; exact ⟨it :: its, [], by simp, by rw [h, List.append_nil], rfl⟩
      · obtain ⟨a', t, rfl, ht⟩ := (hc.resolve_left ha).resolve_left hb
        rw [List.flatMap_cons] at h
        rcases List.append_eq_append_iff.1 h with ⟨c, h1, h2⟩ | ⟨c, h1, h2⟩
        · -- the item is within the first part
          obtain ⟨i1, i2, e, e1, e2⟩ := items_split its c b h2 (by
            rcases List.eq_nil_or_concat c with rfl | ⟨c', x, rfl⟩
            · exact Or.inl rfl
            · rw [List.concat_eq_append] at h1 ⊢
              rw [← List.append_assoc] at h1
              have := List.append_inj' h1 rfl
              refine Or.inr (Or.inr ⟨c', x, rfl, ?_⟩)
              have hx := this.2
              simp only [List.cons.injEq, and_true] at hx
              rw [← hx]; exact ht)
          exact ⟨it :: i1, i2, by rw [e]; rfl, by rw [List.flatMap_cons, e1, h1], e2⟩
        · by_cases hcn : c = []
          · subst hcn
            rw [List.append_nil] at h1
            exact ⟨[it], its, rfl, by simp [h1], h2.symm⟩
          · have := toks_alt h1 ha hcn t (by simp)
            rw [ht] at this; cases this

theorem Cuts.items {Re He : Int} {cs : List Chunk} (h : Cuts ref hyp Re He Rs Hs cs) (h1 : 1 ≤ Rs) :
    ∀ (its : List (Chan.Item K)), its.flatMap Chan.toks = slice ref Rs Re →
    ∃ parts : List (List (Chan.Item K)), parts.flatten = its ∧
      parts.map (fun p => p.flatMap Chan.toks) = cs.map (fun c => slice ref c.rb c.re) := by
  induction h with
  | nil Rs Hs e1 e2 =>
    intro its hits
    rw [slice_empty _ (by omega)] at hits
    cases its with
    | nil => exact ⟨[], rfl, rfl⟩
    | cons it its =>
      rw [List.flatMap_cons, List.append_eq_nil_iff] at hits
      exact absurd hits.1 (toks_ne it)
  | cons Rs Hs R H cs _ hg _ ih =>
    intro its hits
    rw [← slice_append ref h1 hg.r1 hg.r2] at hits
    obtain ⟨i1, i2, e, e1, e2⟩ := items_split its _ _ hits (by
      rcases hg.good with ⟨e, _⟩ | ⟨e | ⟨w, hw, ha⟩, _⟩
      · exact Or.inr (Or.inl (slice_empty _ (by omega)))
      · exact Or.inl (slice_empty _ (by omega))
      · by_cases hR : Rs ≤ R
        · exact Or.inr (Or.inr ⟨_, w, slice_last hw h1 hR, ha⟩)
        · exact Or.inl (slice_empty _ (by omega)))
    obtain ⟨parts, p1, p2⟩ := ih (by have := hg.r1; omega) i2 e2
    exact ⟨i1 :: parts, by rw [List.flatten_cons, p1, e], by rw [List.map_cons, List.map_cons, p2, e1]⟩

end Verif.Chop
