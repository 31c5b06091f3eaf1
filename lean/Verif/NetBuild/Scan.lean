import Verif.NetBuild.Spec
/-!
# Scanning texts with alternatives
-/
set_option autoImplicit false
namespace Verif.NetBuild
open Verif.Net Verif.Text Verif.Split Verif.Lines

/-! ### White space -/

theorem drop_blank (q : Nat → Bool) {b t : List Nat} (hb : ∀ c ∈ b, q c = true) : (b ++ t).dropWhile q = t.dropWhile q := by
  induction b with
  | nil => rfl
  | cons c b ih =>
    rw [List.cons_append, List.dropWhile_cons, if_pos (hb c (List.mem_cons_self ..))]
    exact ih fun c hc => hb c (List.mem_cons_of_mem _ hc)

theorem drop_head (q : Nat → Bool) {c : Nat} {t : List Nat} (h : q c = false) : (c :: t).dropWhile q = c :: t := by
  rw [List.dropWhile_cons, if_neg (by simp [h])]

/-! ### Groups -/

/-- The text passes through the loop over a group, once inside. -/
def PassG (g : List Nat) : Prop := ∀ (cnt : Int) (rest : List Nat), 1 ≤ cnt → rest ≠ [] →
  takeGroup cnt (g ++ rest) = (g ++ (takeGroup cnt rest).1, (takeGroup cnt rest).2)

theorem passG_nil : PassG [] := fun _ _ _ _ => rfl

theorem passG_append {g h : List Nat} (h1 : PassG g) (h2 : PassG h) : PassG (g ++ h) := by
  intro cnt rest hc hr
  rw [List.append_assoc, h1 cnt (h ++ rest) hc (by simp [hr]), h2 cnt rest hc hr]
  simp

theorem delta_zero {c : Nat} (h1 : c ≠ 123) (h2 : c ≠ 125) : delta c = 0 := by simp [delta, h1, h2]

theorem passG_byte {c : Nat} (h1 : c ≠ 123) (h2 : c ≠ 125) : PassG [c] := by
  intro cnt rest hc hr
  show takeGroup cnt (c :: rest) = _
  rw [takeGroup, if_pos ⟨hr, by rw [delta_zero h1 h2]; omega⟩, delta_zero h1 h2]
  simp

theorem passG_bytes : ∀ {g : List Nat}, (∀ c ∈ g, c ≠ 123 ∧ c ≠ 125) → PassG g
  | [], _ => passG_nil
  | c :: g, h => passG_append (g := [c]) (passG_byte (h c (List.mem_cons_self ..)).1 (h c (List.mem_cons_self ..)).2)
      (passG_bytes fun x hx => h x (List.mem_cons_of_mem _ hx))

theorem passG_group {g : List Nat} (h : PassG g) : PassG ([123] ++ g ++ [125]) := by
  intro cnt rest hc hr
  have e : [123] ++ g ++ [125] ++ rest = 123 :: (g ++ 125 :: rest) := by simp
  have d1 : delta 123 = 1 := rfl
  have d2 : delta 125 = -1 := rfl
  rw [e, takeGroup, if_pos ⟨by simp, by rw [d1]; omega⟩, d1, h (cnt + 1) (125 :: rest) (by omega) (by simp)]
  rw [takeGroup, if_pos ⟨hr, by rw [d2]; omega⟩, d2, show cnt + 1 + -1 = cnt by omega]
  simp

theorem blank_byte {c : Nat} (h : isSpace c = true) : c ≠ 123 ∧ c ≠ 125 ∧ c ≠ 47 := by
  refine ⟨?_, ?_, ?_⟩ <;> · rintro rfl; revert h; decide

mutual
theorem seq_passG {s : Seq} {inside : Bool} {t : List Nat} (h : s.Writes inside t) : inside = true → PassG t := by
  match h with
  | .nil _ b hb => exact fun _ => passG_bytes fun c hc => ⟨(blank_byte (hb c hc)).1, (blank_byte (hb c hc)).2.1⟩
  | .word _ b w t s hb hw _ hs =>
    intro hi
    refine passG_append (passG_append (passG_bytes fun c hc => ⟨(blank_byte (hb c hc)).1, (blank_byte (hb c hc)).2.1⟩)
      (passG_bytes fun c hc => ⟨(hw.2 c hc).2.1, ((hw.2 c hc).2.2 hi).2⟩)) (seq_passG hs hi)
  | .alt _ b g t a s hb hg hs =>
    intro hi
    have e : b ++ [123] ++ g ++ [125] ++ t = b ++ ([123] ++ g ++ [125]) ++ t := by simp
    rw [e]
    exact passG_append (passG_append (passG_bytes fun c hc => ⟨(blank_byte (hb c hc)).1, (blank_byte (hb c hc)).2.1⟩)
      (passG_group (alts_passG hg))) (seq_passG hs hi)
theorem alts_passG {a : Alts} {t : List Nat} (h : a.Writes t) : PassG t := by
  match h with
  | .one s t hs => exact seq_passG hs rfl
  | .or s a t t' hs ha => exact passG_append (passG_append (seq_passG hs rfl) (passG_byte (by decide) (by decide))) (alts_passG ha)
end

theorem takeGroup_whole {a : Alts} {g : List Nat} (h : a.Writes g) (t : List Nat) :
    takeGroup 0 (123 :: (g ++ 125 :: t)) = (123 :: (g ++ [125]), t, 0) := by
  have d1 : delta 123 = 1 := rfl
  have d2 : delta 125 = -1 := rfl
  rw [takeGroup, if_pos ⟨by simp, by rw [d1]; omega⟩, d1, show (0 : Int) + 1 = 1 from rfl,
    alts_passG h 1 (125 :: t) (by omega) (by simp)]
  rw [takeGroup, if_neg (fun hh => by have := hh.2; rw [d2] at this; omega), d2]
  simp

theorem takeWord_whole : ∀ {w t : List Nat}, w ≠ [] → (∀ c ∈ w, isSpace c = false) →
    (t = [] ∨ ∃ c t', t = c :: t' ∧ isSpace c = true) → takeWord (w ++ t) = (w, t)
  | [], _, h, _, _ => absurd rfl h
  | [c], t, _, _, ht => by
    rcases ht with rfl | ⟨d, t', rfl, hd⟩
    · rfl
    · simp [takeWord, hd]
  | c :: d :: w, t, _, hw, ht => by
    have ih := takeWord_whole (w := d :: w) (t := t) (by simp) (fun x hx => hw x (List.mem_cons_of_mem _ hx)) ht
    show takeWord (c :: d :: (w ++ t)) = _
    rw [takeWord]
    simp only [hw d (by simp)]
    rw [show d :: (w ++ t) = d :: w ++ t from rfl, ih]
    simp

/-! ### Alternatives -/

/-- The loop over an alternative, seen from behind the last byte taken. -/
def goAlt : Int → List Nat → List Nat × List Nat
  | _, [] => ([], [])
  | cnt, d :: cs => if (d ≠ 47 ∨ cnt > 0) ∧ (d ≠ 125 ∨ cnt > 0) then
      (d :: (goAlt (cnt + delta d) cs).1, (goAlt (cnt + delta d) cs).2) else ([], d :: cs)

theorem takeAlt_go : ∀ (cs : List Nat) (cnt : Int) (c : Nat),
    takeAlt cnt (c :: cs) = (c :: (goAlt (cnt + delta c) cs).1, (goAlt (cnt + delta c) cs).2)
  | [], _, _ => rfl
  | d :: cs, cnt, c => by
    rw [takeAlt]
    simp only
    rw [goAlt]
    split
    · rw [takeAlt_go cs]
    · rfl

/-- The text passes through the loop over an alternative. -/
def PassA (lo : Int) (g : List Nat) : Prop := ∀ (cnt : Int) (rest : List Nat), lo ≤ cnt →
  goAlt cnt (g ++ rest) = (g ++ (goAlt cnt rest).1, (goAlt cnt rest).2)

theorem passA_nil (lo : Int) : PassA lo [] := fun _ _ _ => rfl

theorem passA_append {lo : Int} {g h : List Nat} (h1 : PassA lo g) (h2 : PassA lo h) : PassA lo (g ++ h) := by
  intro cnt rest hc
  rw [List.append_assoc, h1 cnt (h ++ rest) hc, h2 cnt rest hc]
  simp

theorem passA_byte {lo : Int} {c : Nat} (h1 : c ≠ 123) (h2 : c ≠ 125) (h3 : c ≠ 47 ∨ 1 ≤ lo) : PassA lo [c] := by
  intro cnt rest hc
  show goAlt cnt (c :: rest) = _
  rw [goAlt, if_pos ⟨h3.imp id (fun h => by omega), Or.inl h2⟩, delta_zero h1 h2]
  simp

theorem passA_bytes {lo : Int} : ∀ {g : List Nat}, (∀ c ∈ g, c ≠ 123 ∧ c ≠ 125 ∧ c ≠ 47) → PassA lo g
  | [], _ => passA_nil lo
  | c :: g, h =>
    have hc := h c (List.mem_cons_self ..)
    passA_append (g := [c]) (passA_byte hc.1 hc.2.1 (Or.inl hc.2.2)) (passA_bytes fun x hx => h x (List.mem_cons_of_mem _ hx))

theorem passA_mono {lo : Int} {g : List Nat} (h : PassA 0 g) (hl : 0 ≤ lo) : PassA lo g := fun cnt rest hc => h cnt rest (by omega)

theorem passA_group {g : List Nat} (h : PassA 1 g) : PassA 0 ([123] ++ g ++ [125]) := by
  intro cnt rest hc
  have e : [123] ++ g ++ [125] ++ rest = 123 :: (g ++ 125 :: rest) := by simp
  have d1 : delta 123 = 1 := rfl
  have d2 : delta 125 = -1 := rfl
  rw [e, goAlt, if_pos ⟨by simp, by simp⟩, d1, h (cnt + 1) (125 :: rest) (by omega)]
  rw [goAlt, if_pos ⟨by simp, Or.inr (by omega)⟩, d2, show cnt + 1 + -1 = cnt by omega]
  simp

mutual
theorem seq_passA {s : Seq} {inside : Bool} {t : List Nat} (h : s.Writes inside t) : inside = true → PassA 0 t := by
  match h with
  | .nil _ b hb => exact fun _ => passA_bytes fun c hc => blank_byte (hb c hc)
  | .word _ b w t s hb hw _ hs =>
    intro hi
    exact passA_append (passA_append (passA_bytes fun c hc => blank_byte (hb c hc))
      (passA_bytes fun c hc => ⟨(hw.2 c hc).2.1, ((hw.2 c hc).2.2 hi).2, ((hw.2 c hc).2.2 hi).1⟩)) (seq_passA hs hi)
  | .alt _ b g t a s hb hg hs =>
    intro hi
    have e : b ++ [123] ++ g ++ [125] ++ t = b ++ ([123] ++ g ++ [125]) ++ t := by simp
    rw [e]
    exact passA_append (passA_append (passA_bytes fun c hc => blank_byte (hb c hc)) (passA_group (alts_passA hg))) (seq_passA hs hi)
theorem alts_passA {a : Alts} {t : List Nat} (h : a.Writes t) : PassA 1 t := by
  match h with
  | .one s t hs => exact passA_mono (seq_passA hs rfl) (by decide)
  | .or s a t t' hs ha =>
    exact passA_append (passA_append (passA_mono (seq_passA hs rfl) (by decide))
      (passA_byte (by decide) (by decide) (Or.inr (by decide)))) (alts_passA ha)
end

/-- A text of a non-empty sequence, without its leading white space. -/
theorem seq_trim {s : Seq} {inside : Bool} {t : List Nat} (h : s.Writes inside t) (hs : s ≠ .nil) :
    ∃ b c t', t = b ++ c :: t' ∧ Blank b ∧ s.Writes inside (c :: t') ∧ isSpace c = false ∧ (inside = true → c ≠ 47 ∧ c ≠ 125) := by
  cases h with
  | nil => exact absurd rfl hs
  | word _ b w t s hb hw ht hs' =>
    match w, hw with
    | [], hw => exact absurd rfl hw.1
    | c :: w, hw =>
      refine ⟨b, c, w ++ t, by simp, hb, ?_, (hw.2 c (by simp)).1, (hw.2 c (by simp)).2.2⟩
      exact .word inside [] (c :: w) t s (fun _ h => by cases h) hw ht hs'
  | alt _ b g t a s hb hg hs' =>
    refine ⟨b, 123, g ++ [125] ++ t, by simp, hb, ?_, by decide, fun _ => ⟨by decide, by decide⟩⟩
    have := Seq.Writes.alt inside [] g t a s (fun _ h => by cases h) hg hs'
    simpa using this

theorem nextAlt_seq {s : Seq} {t r pre : List Nat} (h : s.Writes true t) (hs : s ≠ .nil) (hr : r = [] ∨ ∃ r', r = 47 :: r')
    (hp : ∀ c ∈ pre, c = 47) (hl : t.length < maxString) :
    ∃ t', nextAlt (pre ++ t ++ r) = some (some (t', r)) ∧ s.Writes true t' ∧ t'.length ≤ t.length ∧ t' ≠ [] := by
  obtain ⟨b, c, t', rfl, hb, hw, hc, hc2⟩ := seq_trim h hs
  refine ⟨c :: t', ?_, hw, by simp, by simp⟩
  have hq : (fun c => isSpace c || c = 47 : Nat → Bool) c = false := by simp [hc, (hc2 rfl).1]
  have e : pre ++ (b ++ c :: t') ++ r = (pre ++ b) ++ (c :: (t' ++ r)) := by simp
  unfold nextAlt
  rw [e, drop_blank _ (by
    intro x hx
    rcases List.mem_append.1 hx with h | h
    · simp [hp x h]
    · simp [hb x h]), drop_head _ hq]
  simp only
  have h0 : takeAlt 0 (c :: (t' ++ r)) = goAlt 0 (c :: (t' ++ r)) := by
    rw [takeAlt_go, goAlt, if_pos ⟨Or.inl (hc2 rfl).1, Or.inl (hc2 rfl).2⟩]
  have hgo : goAlt 0 r = ([], r) := by
    rcases hr with rfl | ⟨r', rfl⟩
    · rfl
    · rw [goAlt, if_neg (by simp)]
  have h1 : goAlt 0 (c :: (t' ++ r)) = (c :: t', r) := by
    have := seq_passA hw rfl 0 r (by omega)
    rw [List.cons_append] at this
    rw [this, hgo]
    simp
  rw [h0, h1, if_pos (by simp at hl ⊢; omega)]

/-- The texts of the alternatives of a group. -/
inductive AltToks : Alts → List (List Nat) → Prop where
  | one (s : Seq) (t : List Nat) : s.Writes true t → t ≠ [] → AltToks (.one s) [t]
  | or (s : Seq) (a : Alts) (t : List Nat) (ts : List (List Nat)) : s.Writes true t → t ≠ [] → AltToks a ts → AltToks (.or s a) (t :: ts)

theorem pieces_alt {e : Enc} {a : Alts} {g : List Nat} (h : a.Writes g) : ∀ (fuel : Nat) (pre : List Nat), a.Ok e → g.length < maxString →
    (∀ c ∈ pre, c = 47) → (pre ++ g).length ≤ fuel →
    ∃ ts, pieces nextAlt fuel (pre ++ g) = some ts ∧ AltToks a ts ∧ (ts.map List.length).sum + ts.length ≤ g.length + 1 := by
  have ne : ∀ {s : Seq} {t : List Nat}, s.Writes true t → s ≠ .nil → t ≠ [] := by
    intro s t hs hn
    obtain ⟨b, c, t', rfl, _⟩ := seq_trim hs hn
    simp
  have key : ∀ {s : Seq} {t r pre : List Nat} {fuel : Nat}, s.Writes true t → s ≠ .nil → (r = [] ∨ ∃ r', r = 47 :: r') →
      (∀ c ∈ pre, c = 47) → t.length < maxString → ∃ t', pieces nextAlt (fuel + 1) (pre ++ t ++ r) = (pieces nextAlt fuel r).map (t' :: ·) ∧
        s.Writes true t' ∧ t'.length ≤ t.length ∧ t' ≠ [] := by
    intro s t r pre fuel hs hn hr hp hl
    obtain ⟨t', h1, h2, h3, h4⟩ := nextAlt_seq hs hn hr hp hl
    refine ⟨t', ?_, h2, h3, h4⟩
    have : pre ++ t ++ r ≠ [] := by simp [ne hs hn]
    match hx : pre ++ t ++ r, this with
    | c :: cs, _ =>
      rw [pieces, ← hx, h1]
  revert g
  induction a using Alts.rec (motive_1 := fun _ => True) (motive_2 := fun _ => True) with
  | word => trivial
  | alt => trivial
  | nil => trivial
  | cons => trivial
  | one s _ =>
    intro g h fuel pre hok hl hp hf
    cases h with
    | one _ _ hs =>
      have hn : s ≠ .nil := hok.1
      have := ne hs hn
      match fuel, hf with
      | 0, hf => simp [this] at hf
      | fuel + 1, hf =>
        obtain ⟨t', h1, h2, h3, h4⟩ := key (r := []) (fuel := fuel) hs hn (Or.inl rfl) hp hl
        rw [List.append_nil] at h1
        refine ⟨[t'], ?_, .one s t' h2 h4, by simpa using h3⟩
        rw [h1]
        cases fuel <;> rfl
  | or s a _ ih =>
    intro g h fuel pre hok hl hp hf
    cases h with
    | or _ _ t t' hs ha =>
      have hn : s ≠ .nil := hok.1.1
      have := ne hs hn
      simp only [List.length_append, List.length_cons, List.length_nil] at hl hf
      match fuel, hf with
      | 0, hf => simp at hf
      | fuel + 1, hf =>
        obtain ⟨t1, h1, h2, h3, h4⟩ := key (r := 47 :: t') (fuel := fuel) hs hn (Or.inr ⟨t', rfl⟩) hp (by omega)
        obtain ⟨ts, k1, k2, k3⟩ := ih ha fuel [47] hok.2 (by omega) (by simp) (by
          have : 0 < t.length := List.length_pos_iff.2 this
          simp only [List.length_append, List.length_cons, List.length_nil]
          omega)
        refine ⟨t1 :: ts, ?_, .or s a t1 ts h2 h4 k2, ?_⟩
        · rw [show pre ++ (t ++ [47] ++ t') = pre ++ t ++ 47 :: t' by simp, h1]
          rw [show [47] ++ t' = 47 :: t' from rfl] at k1
          rw [k1]; rfl
        · simp only [List.map_cons, List.sum_cons, List.length_cons, List.length_append, List.length_nil]
          omega

theorem cutLast_group (g : List Nat) : cutLast (g ++ [125]) = g := by
  unfold cutLast
  rw [if_pos (by simp)]
  simp

/-! ### Words -/

theorem strstr_mem (e : Enc) : ∀ (fuel : Nat) (p : List Nat) (r : List Nat × List Nat), strstr e fuel p = some (some r) → r.1 ++ r.2 = p := by
  intro fuel
  induction fuel with
  | zero =>
    intro p r h
    cases p <;> simp [strstr] at h
  | succ fuel ih =>
    intro p r h
    match p with
    | [] => simp [strstr] at h
    | b :: p =>
      rw [strstr] at h
      split at h
      · cases h
      · split at h
        · split at h
          · cases h; rfl
          · rename_i n _ _ _
            match hx : strstr e fuel ((b :: p).drop n), h with
            | none, h => cases h
            | some none, h => cases h
            | some (some r'), h =>
              simp only [Option.map_some, Option.some.injEq] at h
              subst h
              have := ih _ _ hx
              simp only
              rw [List.append_assoc, this, List.take_append_drop]
        · cases h

theorem nextColon_mem (e : Enc) : ∀ (fuel : Nat) (prev : Option Nat) (p : List Nat) (r : List Nat × List Nat),
    nextColon e fuel prev p = some r → ∀ c ∈ r.1, c ∈ p := by
  intro fuel
  induction fuel with
  | zero => intro prev p r h; cases h
  | succ fuel ih =>
    intro prev p r h c hc
    rw [nextColon] at h
    split at h
    · cases h
    · cases h; exact hc
    · rename_i pre rest hx
      have hs := strstr_mem e _ _ _ hx
      simp only at hs
      split at h
      · cases h
      · split at h
        · match hy : nextColon e fuel rest.head? (rest.drop 1), h with
          | none, h => cases h
          | some r', h =>
            simp only [Option.map_some, Option.some.injEq] at h
            subst h
            simp only at hc
            rw [← hs]
            rcases List.mem_append.1 hc with h | h
            · rcases List.mem_append.1 h with h | h
              · exact List.mem_append_left _ h
              · exact List.mem_append_right _ (List.mem_of_mem_take h)
            · exact List.mem_append_right _ (List.mem_of_mem_drop (ih _ _ _ hy c h))
        · cases h
          rw [← hs]; exact List.mem_append_left _ hc

theorem newWord_mem (v : List Nat) (t1 t2 : Option (List Nat)) : ∀ c ∈ (newWord v t1 t2).value, c ∈ v := by
  intro c hc
  unfold newWord at hc
  split at hc
  · exact (List.dropLast_sublist v).subset hc
  · exact hc

theorem unescape_mem (v : List Nat) : ∀ c ∈ unescape v, c ∈ v := fun _ hc => (List.mem_filter.1 hc).1

/-- The value of a word is made of bytes of the word. -/
theorem parse_mem {e : Enc} {w : List Nat} {p : Parts} (h : parseText e w = some p) : ∀ c ∈ p.value, c ∈ w := by
  intro c hc
  unfold parseText at h
  split at h
  · cases h; exact newWord_mem _ _ _ c hc
  · split at h
    · cases h
    · rename_i v hx
      cases h
      exact nextColon_mem e _ _ _ _ hx c (unescape_mem _ c (newWord_mem _ _ _ c hc))
    · rename_i v c1 r1 hx
      have hv : ∀ t1 t2, ∀ x ∈ (newWord (unescape v) t1 t2).value, x ∈ w := fun t1 t2 x hx2 =>
        nextColon_mem e _ _ _ _ hx x (unescape_mem _ x (newWord_mem _ _ _ x hx2))
      split at h
      · cases h
      · cases h; exact hv _ _ c hc
      · split at h
        · cases h
        · cases h; exact hv _ _ c hc

theorem parse_group (e : Enc) (g : List Nat) : parseText e (123 :: (g ++ [125])) = some ⟨123 :: (g ++ [125]), none, none⟩ := by
  unfold parseText
  rw [if_pos (show (123 :: (g ++ [125])).head? = some 123 from rfl)]
  unfold newWord
  rw [if_neg]
  rintro ⟨_, h⟩
  rw [← List.cons_append, List.getLast?_append] at h
  simp at h

/-! ### Tokens -/

/-- The words made from the tokens of a text. -/
inductive Pars (e : Enc) : Seq → List Parts → Prop where
  | nil : Pars e .nil []
  | word (w : List Nat) (p : Parts) (s : Seq) (ps : List Parts) : parseText e w = some p → 123 ∉ p.value → Pars e s ps →
      Pars e (.cons (.word w) s) (p :: ps)
  | alt (a : Alts) (g : List Nat) (p : Parts) (s : Seq) (ps : List Parts) : p.value = 123 :: (g ++ [125]) → a.Writes g →
      g.length < maxString → Pars e s ps → Pars e (.cons (.alt a) s) (p :: ps)

/-- The room inside a group. -/
def room (p : Parts) : Nat := if 123 ∈ p.value then p.value.length - 2 else 0

theorem pieces_seq {e : Enc} {s : Seq} : ∀ {inside : Bool} {t : List Nat}, s.Writes inside t → s.Ok e → t.length < maxString → ∀ (fuel : Nat), t.length ≤ fuel →
    ∃ toks ps, pieces nextToken fuel t = some toks ∧ toks.mapM (parseText e) = some ps ∧ Pars e s ps ∧
      ps.length + (ps.map room).sum ≤ t.length := by
  induction s using Seq.rec (motive_1 := fun _ => True) (motive_3 := fun _ => True) with
  | word => trivial
  | alt => trivial
  | one => trivial
  | or => trivial
  | nil =>
    intro inside t h _ _ fuel hf
    cases h with
    | nil _ _ hb =>
      refine ⟨[], [], ?_, rfl, .nil, Nat.zero_le _⟩
      match t, fuel, hf with
      | [], fuel, _ => cases fuel <;> rfl
      | c :: cs, fuel + 1, _ =>
        rw [pieces]
        have : nextToken (c :: cs) = some none := by
          unfold nextToken
          have := drop_blank isSpace (t := []) hb
          rw [List.append_nil] at this
          rw [this]; rfl
        rw [this]
  | cons i s _ ih =>
    intro inside t h hok hl fuel hf
    have key : ∀ {c : Nat} {b tok rest : List Nat} {fuel : Nat}, nextToken (b ++ (c :: tok) ++ rest) = some (some (c :: tok, rest)) →
        pieces nextToken (fuel + 1) (b ++ (c :: tok) ++ rest) = (pieces nextToken fuel rest).map ((c :: tok) :: ·) := by
      intro c b tok rest fuel h
      match hx : b ++ (c :: tok) ++ rest, (by simp : b ++ (c :: tok) ++ rest ≠ []) with
      | x :: xs, _ =>
        rw [pieces, ← hx, h]
    cases h with
    | word _ b w t _ hb hw ht hs =>
      match w, hw with
      | [], hw => exact absurd rfl hw.1
      | c :: w, hw =>
        simp only [List.length_append, List.length_cons] at hl hf
        match fuel, hf with
        | 0, hf => omega
        | fuel + 1, hf =>
          obtain ⟨toks, ps, k1, k2, k3, k4⟩ := ih hs hok.2 (by omega) fuel (by omega)
          obtain ⟨p, hp⟩ := (hok.1 : ∃ p, parseText e (c :: w) = some p)
          have hn : 123 ∉ p.value := fun hm => (hw.2 _ (parse_mem hp _ hm)).2.1 rfl
          refine ⟨(c :: w) :: toks, p :: ps, ?_, ?_, .word _ p s ps hp hn k3, ?_⟩
          · rw [key, k1]
            · rfl
            · unfold nextToken
              rw [List.append_assoc, drop_blank _ hb, List.cons_append, drop_head _ (hw.2 c (by simp)).1]
              simp only
              rw [if_neg (hw.2 c (by simp)).2.1, ← List.cons_append, takeWord_whole hw.1 (fun x hx => (hw.2 x hx).1) ht,
                if_pos (by simp; omega)]
          · rw [List.mapM_cons, hp, k2]; rfl
          · simp only [List.length_cons, List.map_cons, List.sum_cons, List.length_append, room, if_neg hn]
            omega
    | alt _ b g t a _ hb hg hs =>
      have e1 : b ++ [123] ++ g ++ [125] ++ t = b ++ (123 :: (g ++ [125])) ++ t := by simp
      rw [e1] at hl hf ⊢
      simp only [List.length_append, List.length_cons, List.length_nil] at hl hf
      match fuel, hf with
      | 0, hf => omega
      | fuel + 1, hf =>
        obtain ⟨toks, ps, k1, k2, k3, k4⟩ := ih hs hok.2 (by omega) fuel (by omega)
        refine ⟨(123 :: (g ++ [125])) :: toks, ⟨123 :: (g ++ [125]), none, none⟩ :: ps, ?_, ?_,
          .alt a g _ s ps rfl hg (by omega) k3, ?_⟩
        · rw [key, k1]
          · rfl
          · unfold nextToken
            rw [List.append_assoc, drop_blank _ hb, List.cons_append, drop_head _ (by decide)]
            simp only
            rw [if_pos trivial, List.append_assoc, List.singleton_append, takeGroup_whole hg]
            simp only
            rw [if_pos (by simp; omega), if_neg (by decide)]
        · rw [List.mapM_cons, parse_group, k2]; rfl
        · simp only [List.length_cons, List.map_cons, List.sum_cons, List.length_append, room, List.length_nil]
          rw [if_pos (by simp)]
          omega

end Verif.NetBuild
