import Verif.Feed.Loop
import Verif.Lines.Tok
/-!
# Lemmas on draining a file, and on the fields of lines
-/
set_option autoImplicit false
namespace Verif.Feed
open Verif.Lines Verif.Text

section
variable {L X Y F : Type} [DecidableEq F] (ends : L → Bool) (read : L → Line X) (tag : Option Y → X → Y) (key : Y → F)

/-- The groups are the maximal runs of words of the same file. -/
def Runs (key : Y → F) : List (List Y) → Prop
  | [] => True
  | g :: gs => (∃ y ys, g = y :: ys ∧ (∀ z ∈ ys, key z = key y) ∧ ∀ h z zs, gs.head? = some h → h = z :: zs → key z ≠ key y) ∧ Runs key gs

theorem drain_ok (ff : Nat) (hff : 2 ≤ ff) : ∀ (f : Nat) (t : Tab L Y), t.Inv ends read key → (t.todo read tag).length + 1 ≤ f →
    ∃ gs, drain ends read tag key ff f t = .ok gs ∧ gs.flatten = t.todo read tag ∧ Runs key gs := by
  intro f
  induction f with
  | zero => intro t _ h; omega
  | succ f ih =>
    intro t ht hf
    obtain ⟨t', b1, b2, b3, b4⟩ := fillWords_ok ends read tag key ff hff t ht
    have htE := tab_empty ends read tag key t' b2 b4
    unfold drain
    rw [b1]
    simp only [Res.bind]
    rw [← b3] at hf ⊢
    by_cases hs : t'.s ≤ t'.words.length
    · rw [if_pos hs]
      obtain ⟨y, ys, d1, d2, d3, d4, d5, d6⟩ := tab_step ends read tag key key (fun _ _ e => e) t' b2 b4 hs
      have hrl : (Chan.run key (y :: ys)).2.length ≤ ys.length := by
        unfold Chan.run; exact (List.dropWhile_sublist _).length_le
      obtain ⟨gs, g1, g2, g3⟩ := ih _ d5 (by rw [← d4]; rw [d1, List.length_cons] at hf; omega)
      rw [g1]
      refine ⟨_, rfl, ?_, ?_⟩
      · rw [List.flatten_cons, g2, ← d3, ← d4, d1]
        unfold Chan.run
        simp [List.takeWhile_append_dropWhile]
      · refine ⟨⟨y, ys.takeWhile (fun v => decide (key v = key y)), ?_, ?_, ?_⟩, g3⟩
        · rw [← d3]; rfl
        · intro z hz
          have := List.all_eq_true.mp (List.all_takeWhile (l := ys) (p := fun v => decide (key v = key y))) z hz
          simpa using this
        · intro h z zs hh hz
          have hf2 : gs.flatten.head? = some z := by
            cases gs with
            | nil => simp at hh
            | cons a b =>
              simp only [List.head?_cons, Option.some.injEq] at hh
              subst hh hz
              rfl
          rw [g2, ← d4] at hf2
          have := List.head?_dropWhile_not (fun v => decide (key v = key y)) ys
          rw [show ys.dropWhile (fun v => decide (key v = key y)) = (Chan.run key (y :: ys)).2 from rfl, hf2] at this
          simpa using this
    · rw [if_neg hs]
      refine ⟨[], rfl, ?_, trivial⟩
      rw [htE.mp (by omega)]
      rfl

end

theorem runs_props {Y F : Type} (key : Y → F) : ∀ gs : List (List Y), Runs key gs →
    (∀ g ∈ gs, g ≠ [] ∧ ∀ a ∈ g, ∀ b ∈ g, key a = key b) ∧
    ∀ pre g h post, gs = pre ++ g :: h :: post → ∀ a ∈ g, ∀ b ∈ h, key a ≠ key b
  | [], _ => ⟨nofun, by intro pre g h post e; simp at e⟩
  | g :: gs, hr => by
    obtain ⟨⟨y, ys, e1, e2, e3⟩, hr'⟩ := hr
    obtain ⟨i1, i2⟩ := runs_props key gs hr'
    subst e1
    have hy : ∀ a ∈ y :: ys, key a = key y := by
      intro a ha
      rcases List.mem_cons.mp ha with h | h
      · rw [h]
      · exact e2 a h
    refine ⟨?_, ?_⟩
    · intro g hg
      rcases List.mem_cons.mp hg with h | h
      · subst h
        exact ⟨by simp, fun a ha b hb => by rw [hy a ha, hy b hb]⟩
      · exact i1 g h
    · intro pre g h post e a ha b hb
      cases pre with
      | nil =>
        simp only [List.nil_append, List.cons.injEq] at e
        obtain ⟨e4, e5⟩ := e
        subst e4
        subst e5
        cases h with
        | nil => cases hb
        | cons z zs =>
          have h1 := e3 (z :: zs) z zs rfl rfl
          have h2 := (i1 (z :: zs) List.mem_cons_self).2 b hb z List.mem_cons_self
          rw [h2, hy a ha]
          exact fun hh => h1 hh.symm
      | cons q qs =>
        simp only [List.cons_append, List.cons.injEq] at e
        exact i2 qs g h post e.2 a ha b hb

/-! ## Fields -/

theorem fields_exist (e : Enc) (set : List Nat) (hset : ∀ b ∈ set, b < 128) (cs : List (List Nat)) (hc : ∀ c ∈ cs, IsChar e c) :
    ∃ ts, Fields (IsSep set) cs ts := by
  obtain ⟨ts, _, h⟩ := strtokAll_spec e set hset cs hc none (some cs.flatten) rfl (cs.length + 1) (Nat.lt_succ_self _)
  exact ⟨ts, h⟩

theorem fields_head {sep : List Nat → Prop} {cs : List (List Nat)} {ts : List (List (List Nat))} (h : Fields sep cs ts) :
    ∀ t r, ts = t :: r → t ≠ [] ∧ ∀ c ∈ t, ¬ sep c := by
  induction h with
  | nil => intro t r h; cases h
  | skip _ _ ih => exact ih
  | last h1 h2 => intro t r h; cases h; exact ⟨h1, h2⟩
  | tok h1 h2 _ _ _ => intro t r h; cases h; exact ⟨h1, h2⟩

theorem fields_snoc {sep : List Nat → Prop} {cs : List (List Nat)} {ts : List (List (List Nat))} (c : List Nat) (hs : sep c)
    (h : Fields sep cs ts) : Fields sep (cs ++ [c]) ts := by
  induction h with
  | nil => exact .skip hs .nil
  | skip h1 _ ih => exact .skip h1 ih
  | last h1 h2 => exact .tok h1 h2 hs .nil
  | tok h1 h2 h3 _ ih =>
    rw [List.append_assoc, List.cons_append]
    exact .tok h1 h2 h3 ih

theorem seps_ascii : ∀ b ∈ seps, b < 128 := by decide

/-- A call that finds the first field. -/
theorem field_spec (e : Enc) (cs : List (List Nat)) (hc : ∀ c ∈ cs, IsChar e c) (t : List (List Nat)) (ts : List (List (List Nat)))
    (h : Fields (IsSep seps) cs (t :: ts)) (base arg : Option (List Nat)) (hb : arg.or base = some cs.flatten) :
    ∃ cs', strtok e seps base arg = some (some t.flatten, some cs'.flatten) ∧ (∀ c ∈ cs', c ∈ cs) ∧ (∀ c ∈ t, c ∈ cs) ∧
      Fields (IsSep seps) cs' ts := by
  rcases strtok_step e seps seps_ascii cs hc base arg hb with ⟨_, h2⟩ | ⟨t', cs', h1, h2, h3, h4, h5, h6⟩
  · have := h.unique h2; cases this
  · obtain ⟨ts', hts'⟩ := fields_exist e seps seps_ascii cs' (fun c hcc => hc c (h4 c hcc))
    have := h.unique (h6 ts' hts')
    injection this with e1 e2
    subst e1 e2
    exact ⟨cs', h1, h4, h3, hts'⟩

theorem strtok_end (e : Enc) (cs : List (List Nat)) (hc : ∀ c ∈ cs, IsChar e c)
    (h : Fields (IsSep seps) cs []) (base arg : Option (List Nat)) (hb : arg.or base = some cs.flatten) :
    strtok e seps base arg = some (none, some []) := by
  rcases strtok_step e seps seps_ascii cs hc base arg hb with ⟨h1, _⟩ | ⟨t', cs', h1, h2, h3, h4, h5, h6⟩
  · exact h1
  · obtain ⟨ts', hts'⟩ := fields_exist e seps seps_ascii cs' (fun c hcc => hc c (h4 c hcc))
    have := h.unique (h6 ts' hts')
    cases this

theorem isChar_space (e : Enc) : IsChar e [32] := ⟨32, [], rfl, by rw [nbytes_ascii e (by decide)]; rfl, by simp⟩

theorem restFrom_spec (e : Enc) (line : List Nat) (t cs' : List (List Nat)) (ts : List (List (List Nat)))
    (ht : t ≠ []) (hn : ∀ c ∈ t, ¬ IsSep seps c) (h' : Fields (IsSep seps) cs' ts) (hct : ∀ c ∈ t, IsChar e c)
    (hcc : ∀ c ∈ cs', IsChar e c) :
    ∃ ds : List (List Nat), restFrom line t.flatten (some cs'.flatten) = ds.flatten ∧
      (∀ c ∈ ds, c ∈ t ∨ c ∈ cs' ∨ c = [32]) ∧ Fields (IsSep seps) ds (t :: ts) := by
  have hsp : IsSep seps [32] := ⟨32, rfl, by decide⟩
  unfold restFrom
  cases hcs : cs'.flatten with
  | nil =>
    have : cs' = [] := by
      cases cs' with
      | nil => rfl
      | cons c cs =>
        obtain ⟨b, r, e1, _⟩ := isChar_cons (hcc c List.mem_cons_self)
        rw [e1] at hcs; simp at hcs
    subst this
    have hts := h'.of_nil
    subst hts
    dsimp only
    by_cases hq : endsWithSep line = true
    · rw [if_pos hq]
      refine ⟨t ++ [[32]], by simp, ?_, .tok ht hn hsp .nil⟩
      intro c hc
      rcases List.mem_append.mp hc with hc | hc
      · exact .inl hc
      · right; right; simpa using hc
    · rw [if_neg hq]
      exact ⟨t, rfl, fun c hc => .inl hc, .last ht hn⟩
  | cons a b =>
    dsimp only
    refine ⟨t ++ [32] :: cs', by simp [hcs], ?_, .tok ht hn hsp h'⟩
    intro c hc
    rcases List.mem_append.mp hc with hc | hc
    · exact .inl hc
    · rcases List.mem_cons.mp hc with hc | hc
      · exact .inr (.inr hc)
      · exact .inr (.inl hc)

theorem getLast?_flatten_of {A : Type} (ds : List (List A)) (d : List A) (hd : d ≠ []) : (ds ++ [d]).flatten.getLast? = d.getLast? := by
  rw [List.flatten_append, List.getLast?_append]
  simp only [List.flatten_cons, List.flatten_nil, List.append_nil]
  cases h : d.getLast? with
  | none => exact absurd (List.getLast?_eq_none_iff.mp h) hd
  | some x => rfl

theorem chopText_spec (e : Enc) (ds : List (List Nat)) (ts : List (List (List Nat))) (hc : ∀ c ∈ ds, IsChar e c)
    (hnl : ∀ c ∈ ds, 10 ∈ c → c = [10]) (h : Fields (IsSep seps) ds ts) : HasWords e (chopText ds.flatten) ts := by
  unfold chopText
  by_cases hl : 1 < ds.flatten.length ∧ ds.flatten.getLast? = some 10
  · rw [if_pos hl]
    rcases List.eq_nil_or_concat ds with hd | ⟨ds', d, hd⟩
    · subst hd; simp at hl
    · rw [List.concat_eq_append] at hd
      subst hd
      have hcd := hc d (by simp)
      obtain ⟨b, r, e1, _⟩ := isChar_cons hcd
      have hlast := hl.2
      rw [getLast?_flatten_of ds' d (by rw [e1]; simp)] at hlast
      have hd10 := hnl d (by simp) (List.mem_of_getLast? hlast)
      subst hd10
      have hcd' : ∀ c ∈ ds', IsChar e c := fun c hcc => hc c (List.mem_append_left _ hcc)
      refine ⟨ds', by rw [List.flatten_append]; simp, hcd', ?_⟩
      obtain ⟨ts', hts'⟩ := fields_exist e seps seps_ascii ds' hcd'
      have := h.unique (fields_snoc [10] ⟨10, rfl, by decide⟩ hts')
      rw [this]; exact hts'
  · rw [if_neg hl]
    exact ⟨ds, rfl, hc, h⟩

theorem length_le_flatten (e : Enc) : ∀ cs : List (List Nat), (∀ c ∈ cs, IsChar e c) → cs.length ≤ cs.flatten.length
  | [], _ => Nat.le_refl _
  | c :: cs, h => by
    have := length_le_flatten e cs (fun d hd => h d (List.mem_cons_of_mem _ hd))
    obtain ⟨b, r, e1, _⟩ := isChar_cons (h c List.mem_cons_self)
    rw [e1]
    simp only [List.flatten_cons, List.length_append, List.length_cons]
    omega

/-- The newline at the end does not matter for the fields. -/
theorem noNewline_spec (e : Enc) (ds : List (List Nat)) (ts : List (List (List Nat))) (hc : ∀ c ∈ ds, IsChar e c)
    (hnl : ∀ c ∈ ds, 10 ∈ c → c = [10]) (h : Fields (IsSep seps) ds ts) :
    HasWords e (if ds.flatten.getLast? = some 10 then ds.flatten.dropLast else ds.flatten) ts := by
  by_cases hl : ds.flatten.getLast? = some 10
  · by_cases h1 : 1 < ds.flatten.length
    · have := chopText_spec e ds ts hc hnl h
      unfold chopText at this
      rw [if_pos ⟨h1, hl⟩] at this
      rw [if_pos hl]
      exact this
    · rw [if_pos hl]
      have hd : ds.flatten = [10] := by
        cases hf : ds.flatten with
        | nil => rw [hf] at hl; simp at hl
        | cons a b =>
          rw [hf] at h1 hl
          cases b with
          | nil => simpa using hl
          | cons c d => simp at h1
      rw [hd]
      have hlen := length_le_flatten e ds hc
      rw [hd] at hlen
      obtain ⟨d, rfl⟩ : ∃ d, ds = [d] := by
        cases ds with
        | nil => simp at hd
        | cons d ds =>
          cases ds with
          | nil => exact ⟨d, rfl⟩
          | cons x y => simp at hlen
      have hd2 : d = [10] := by simpa using hd
      subst hd2
      have := h.unique (Fields.skip (cs := []) ⟨10, rfl, by decide⟩ .nil)
      rw [this]
      exact ⟨[], rfl, by simp, .nil⟩
  · rw [if_neg hl]
    exact ⟨ds, rfl, hc, h⟩

/-- What the words of a text are is found out by taking tokens from it. -/
theorem tokens_of_words (e : Enc) (text : List Nat) (ts : List (List (List Nat))) (h : HasWords e text ts) :
    strtokAll e seps (text.length + 1) none (some text) = some (ts.map List.flatten) := by
  obtain ⟨ds, rfl, hc, hf⟩ := h
  obtain ⟨us, h1, h2⟩ := strtokAll_spec e seps seps_ascii ds hc none (some ds.flatten) rfl (ds.flatten.length + 1)
    (Nat.lt_succ_of_le (length_le_flatten e ds hc))
  rw [h1, hf.unique h2]

theorem field_some (e : Enc) (cs : List (List Nat)) (hc : ∀ c ∈ cs, IsChar e c) (t : List (List Nat)) (ts : List (List (List Nat)))
    (h : Fields (IsSep seps) cs (t :: ts)) (base arg : Option (List Nat)) (hb : arg.or base = some cs.flatten) :
    ∃ cs', field e base arg = some (t.flatten, some cs'.flatten) ∧ (∀ c ∈ cs', c ∈ cs) ∧ Fields (IsSep seps) cs' ts := by
  obtain ⟨cs', h1, h2, _, h4⟩ := field_spec e cs hc t ts h base arg hb
  refine ⟨cs', ?_, h2, h4⟩
  unfold field
  rw [h1]

theorem field_none (e : Enc) (cs : List (List Nat)) (hc : ∀ c ∈ cs, IsChar e c)
    (h : Fields (IsSep seps) cs []) (base arg : Option (List Nat)) (hb : arg.or base = some cs.flatten) : field e base arg = none := by
  unfold field
  rw [strtok_end e cs hc h base arg hb]

theorem labelsText_spec (e : Enc) (line : List Nat) (cs : List (List Nat)) (hc : ∀ c ∈ cs, IsChar e c)
    (hnl : ∀ c ∈ cs, 10 ∈ c → c = [10]) (rest : List (List (List Nat))) (h : Fields (IsSep seps) cs rest) :
    ∃ txt, labelsText e line (some cs.flatten) = some (labelOf rest, txt) ∧ HasWords e (chopText txt) (wordsOf rest) := by
  have fin : ∀ (t cs' : List (List Nat)) (ts : List (List (List Nat))), Fields (IsSep seps) cs' ts → (∀ c ∈ cs', c ∈ cs) → (∀ c ∈ t, c ∈ cs) →
      t ≠ [] → (∀ c ∈ t, ¬ IsSep seps c) → HasWords e (chopText (restFrom line t.flatten (some cs'.flatten))) (t :: ts) := by
    intro t cs' ts hf h1 h2 h3 h4
    obtain ⟨ds, d1, d2, d3⟩ := restFrom_spec e line t cs' ts h3 h4 hf (fun c hcc => hc c (h2 c hcc)) (fun c hcc => hc c (h1 c hcc))
    rw [d1]
    refine chopText_spec e ds _ ?_ ?_ d3
    · intro c hcc
      rcases d2 c hcc with q | q | q
      · exact hc c (h2 c q)
      · exact hc c (h1 c q)
      · rw [q]; exact isChar_space e
    · intro c hcc
      rcases d2 c hcc with q | q | q
      · exact hnl c (h2 c q)
      · exact hnl c (h1 c q)
      · intro h10; rw [q] at h10; simp at h10
  have none' : HasWords e (chopText []) [] := ⟨[], by simp [chopText], by simp, .nil⟩
  unfold labelsText
  cases rest with
  | nil =>
    rw [strtok_end e cs hc h _ none rfl]
    exact ⟨[], rfl, none'⟩
  | cons t ts =>
    obtain ⟨cs', a1, a2, a3, a4⟩ := field_spec e cs hc t ts h (some cs.flatten) none rfl
    have ht := fields_head h t ts rfl
    rw [a1]
    dsimp only
    by_cases hl : t.flatten.head? = some 60
    · rw [if_pos hl]
      have hlab : labelOf (t :: ts) = some t.flatten := if_pos hl
      have hwrd : wordsOf (t :: ts) = ts := if_pos hl
      rw [hlab, hwrd]
      cases ts with
      | nil =>
        rw [strtok_end e cs' (fun c hcc => hc c (a2 c hcc)) a4 _ none rfl]
        exact ⟨[], rfl, none'⟩
      | cons t2 ts2 =>
        obtain ⟨cs2, b1, b2, b3, b4⟩ := field_spec e cs' (fun c hcc => hc c (a2 c hcc)) t2 ts2 a4 (some cs'.flatten) none rfl
        have ht2 := fields_head a4 t2 ts2 rfl
        rw [b1]
        exact ⟨_, rfl, fin t2 cs2 ts2 b4 (fun c hcc => a2 c (b2 c hcc)) (fun c hcc => a2 c (b3 c hcc)) ht2.1 ht2.2⟩
    · rw [if_neg hl]
      have hlab : labelOf (t :: ts) = none := if_neg hl
      have hwrd : wordsOf (t :: ts) = t :: ts := if_neg hl
      rw [hlab, hwrd]
      exact ⟨_, rfl, fin t cs' ts a4 a2 a3 ht.1 ht.2⟩

section
variable {F C : Type} [DecidableEq F] [DecidableEq C] (reduce : Bool)

theorem fileLoop_fuel : ∀ (f g : Nat) (us : List (Chan.Utt (F × C))) (ts : List (Chan.Tok (F × C))), us.length + 1 ≤ f → us.length + 1 ≤ g →
    Chan.fileLoop reduce f us ts = Chan.fileLoop reduce g us ts := by
  intro f
  induction f with
  | zero => intro g us ts h; omega
  | succ f ih =>
    intro g us ts hf hg
    obtain ⟨g, rfl⟩ : ∃ g', g = g' + 1 := ⟨g - 1, by omega⟩
    cases us with
    | nil => cases ts <;> (unfold Chan.fileLoop; rfl)
    | cons u us =>
      have hl := run_length Chan.Utt.key u us
      simp only [List.length_cons] at hf hg
      cases ts with
      | nil => rw [fileLoop_noWords, fileLoop_noWords, ih g _ _ (by omega) (by omega)]
      | cons y ys =>
        by_cases hk : y.w.key = u.key
        · rw [fileLoop_same reduce f u us y ys hk, fileLoop_same reduce g u us y ys hk, ih g _ _ (by omega) (by omega)]
        · rw [fileLoop_other reduce f u us y ys hk, fileLoop_other reduce g u us y ys hk, ih g _ _ (by omega) (by omega)]

end

end Verif.Feed
