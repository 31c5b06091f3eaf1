import Verif.Rttm2Ctm.Model
import Verif.Rttm2Ctm.Spec
import Verif.TextVal.Props
/-!
# Lemmas on the conversion of RTTM files
-/
set_option autoImplicit false
namespace Verif.Rttm2Ctm
open Verif.TextVal

theorem skipped_iff (l : List Char) : skipped l = true ↔ Contains ";;" l := by
  induction l with
  | nil =>
    constructor
    · intro h; cases h
    · rintro ⟨a, b, h⟩
      have := congrArg List.length h
      simp at this
  | cons c s ih =>
    unfold skipped
    rw [Bool.or_eq_true, ih]
    constructor
    · rintro (h | ⟨a, b, rfl⟩)
      · rw [Bool.and_eq_true] at h
        cases s with
        | nil => exact absurd h.2 (by decide)
        | cons d s =>
          have h1 := eq_of_beq h.1
          have h2 : d = ';' := by
            have := eq_of_beq h.2
            simpa using this
          exact ⟨[], s, by rw [h1, h2]; rfl⟩
      · exact ⟨c :: a, b, rfl⟩
    · rintro ⟨a, b, h⟩
      cases a with
      | nil =>
        left
        have h' : c :: s = ';' :: ';' :: b := h
        injection h' with h1 h2
        rw [h1, h2]
        rfl
      | cons d a =>
        right
        have h' : c :: s = d :: (a ++ ";;".toList ++ b) := h
        injection h' with _ h2
        exact ⟨a, b, h2⟩

theorem run_time (s : List Char) : run time s = true ↔ Time s := by
  rw [run_iff]
  unfold time Time
  rw [lang_alt, lang_txt, ← or_assoc]
  refine or_congr ?_ Iff.rfl
  constructor
  · intro h
    obtain ⟨a, v, rfl, h1, h⟩ := lang_seq.1 h
    obtain ⟨x, b, rfl, h2, h3⟩ := lang_seq.1 h
    have ha := lang_star_cls.1 h1
    have hb : Some Char.isDigit b := lang_plus_cls.1 h3
    rcases lang_opt.1 h2 with rfl | h2
    · left
      refine ⟨?_, ?_⟩
      · intro e
        have := List.append_eq_nil_iff.1 e
        exact hb.1 (List.append_eq_nil_iff.1 this.2).2
      · intro c hc
        rcases List.mem_append.1 hc with hc | hc
        · exact ha c hc
        · exact hb.2 c hc
    · right
      rw [lang_chr] at h2
      subst h2
      exact ⟨a, b, by simp, ha, hb⟩
  · rintro (h | ⟨a, b, rfl, h1, h2⟩)
    · exact lang_seq.2 ⟨[], s, rfl, lang_star_cls.2 (by simp), lang_seq.2 ⟨[], s, rfl, lang_opt.2 (.inl rfl), lang_plus_cls.2 h⟩⟩
    · exact lang_seq.2 ⟨a, '.' :: b, rfl, lang_star_cls.2 h1, lang_seq.2 ⟨['.'], b, rfl, lang_opt.2 (.inr (lang_chr.2 rfl)), lang_plus_cls.2 h2⟩⟩

theorem run_subtype (s : List Char) : run subtype s = true ↔ Subtype s := by
  rw [run_iff]
  unfold subtype Subtype
  rw [lang_alt, lang_txt, lang_plus_cls]

theorem run_digits (s : List Char) : run (Re.cls Char.isDigit).plus s = true ↔ Some Char.isDigit s := by
  rw [run_iff, lang_plus_cls]

theorem take_all {p : Char → Bool} {s : List Char} (h : ∀ c ∈ s, p c = true) : s.takeWhile p = s ∧ s.dropWhile p = [] := by
  induction s with
  | nil => exact ⟨rfl, rfl⟩
  | cons c s ih =>
    have hc := h c List.mem_cons_self
    have := ih (fun x hx => h x (List.mem_cons_of_mem _ hx))
    rw [List.takeWhile_cons, List.dropWhile_cons, hc]
    exact ⟨congrArg _ this.1, this.2⟩

theorem take_stop {p : Char → Bool} {s t : List Char} {d : Char} (h : ∀ c ∈ s, p c = true) (hd : p d = false) :
    (s ++ d :: t).takeWhile p = s ∧ (s ++ d :: t).dropWhile p = d :: t := by
  induction s with
  | nil =>
    rw [List.nil_append, List.takeWhile_cons, List.dropWhile_cons, hd]
    exact ⟨rfl, rfl⟩
  | cons c s ih =>
    have hc := h c List.mem_cons_self
    have := ih (fun x hx => h x (List.mem_cons_of_mem _ hx))
    rw [List.cons_append, List.takeWhile_cons, List.dropWhile_cons, hc]
    exact ⟨congrArg _ this.1, this.2⟩

theorem isEmpty_false {s : List Char} (h : s ≠ []) : s.isEmpty = false := by
  cases s with
  | nil => exact absurd rfl h
  | cons => rfl

theorem leading_time {s : List Char} (h : Time s) : leading s = some s := by
  rcases h with h | ⟨a, b, rfl, h1, h2⟩ | rfl
  · obtain ⟨e1, e2⟩ := take_all h.2
    unfold leading
    rw [e1, e2]
    dsimp only
    rw [isEmpty_false h.1]
    rfl
  · obtain ⟨e1, e2⟩ := take_stop (t := b) h1 (show Char.isDigit '.' = false by decide)
    obtain ⟨e3, _⟩ := take_all h2.2
    unfold leading
    rw [e1, e2]
    change (if (b.takeWhile Char.isDigit).isEmpty = true then _ else some (a ++ '.' :: b.takeWhile Char.isDigit)) = _
    rw [e3, isEmpty_false h2.1]
    rfl
  · decide +kernel

theorem take_digits (s : List Char) : s = s.takeWhile Char.isDigit ++ s.dropWhile Char.isDigit ∧ ∀ c ∈ s.takeWhile Char.isDigit, c.isDigit = true := by
  refine ⟨(List.takeWhile_append_dropWhile).symm, ?_⟩
  induction s with
  | nil => simp
  | cons c s ih =>
    rw [List.takeWhile_cons]
    split
    · rename_i h
      intro x hx
      rcases List.mem_cons.1 hx with rfl | hx
      · exact h
      · exact ih x hx
    · simp

theorem isEmpty_not {s : List Char} (h : ¬ s.isEmpty = true) : s ≠ [] := by
  rintro rfl
  exact h rfl

theorem leading_some {s v : List Char} (h : leading s = some v) : Time v ∧ ∃ u, s = v ++ u := by
  obtain ⟨e, hd⟩ := take_digits s
  unfold leading at h
  dsimp only at h
  split at h
  · rename_i t ht
    rw [ht] at e
    obtain ⟨e', hd'⟩ := take_digits t
    split at h
    · split at h
      · cases h
      · rename_i hn
        injection h with h
        subst h
        exact ⟨.inl ⟨isEmpty_not hn, hd⟩, _, e⟩
    · rename_i hn
      injection h with h
      subst h
      refine ⟨.inr (.inl ⟨_, _, rfl, hd, isEmpty_not hn, hd'⟩), t.dropWhile Char.isDigit, ?_⟩
      rw [List.append_assoc, List.cons_append, ← e']
      exact e
  · split at h
    · split at h
      · rename_i hp
        injection h with h
        subst h
        obtain ⟨u, hu⟩ := List.isPrefixOf_iff_prefix.1 hp
        exact ⟨.inr (.inr rfl), u, hu.symm⟩
      · cases h
    · rename_i hn
      injection h with h
      subst h
      exact ⟨.inl ⟨isEmpty_not hn, hd⟩, _, e⟩

theorem leading_digit {c : Char} {s : List Char} (h : c.isDigit = true) : ∃ v, leading (c :: s) = some v := by
  have e : ((c :: s).takeWhile Char.isDigit).isEmpty = false := by
    rw [List.takeWhile_cons, h]
    rfl
  unfold leading
  dsimp only
  rw [e]
  split
  · split
    · exact ⟨_, rfl⟩
    · exact ⟨_, rfl⟩
  · exact ⟨_, rfl⟩

theorem leading_exists {w u : List Char} (h : Time w) : ∃ v, leading (w ++ u) = some v := by
  rcases h with h | ⟨a, b, rfl, h1, h2⟩ | rfl
  · cases w with
    | nil => exact absurd rfl h.1
    | cons c w => exact leading_digit (h.2 c List.mem_cons_self)
  · cases a with
    | cons c a => exact leading_digit (h1 c List.mem_cons_self)
    | nil =>
      cases b with
      | nil => exact absurd rfl h2.1
      | cons d b =>
        have hd := h2.2 d List.mem_cons_self
        refine ⟨'.' :: (d :: (b ++ u)).takeWhile Char.isDigit, ?_⟩
        change (if ((d :: (b ++ u)).takeWhile Char.isDigit).isEmpty = true then _ else some ('.' :: (d :: (b ++ u)).takeWhile Char.isDigit)) = _
        have e : ((d :: (b ++ u)).takeWhile Char.isDigit).isEmpty = false := by
          rw [List.takeWhile_cons, hd]
          rfl
        rw [e]
        rfl
  · refine ⟨"<NA>".toList, ?_⟩
    change (if true = true then (if "<NA>".toList.isPrefixOf ("<NA>".toList ++ u) = true then some "<NA>".toList else none) else some []) = _
    rw [if_pos rfl, if_pos (List.isPrefixOf_iff_prefix.2 (List.prefix_append _ _))]

theorem leading_iff (s : List Char) : (∃ v, leading s = some v) ↔ ∃ w u, s = w ++ u ∧ Time w := by
  constructor
  · rintro ⟨v, h⟩
    obtain ⟨h1, u, rfl⟩ := leading_some h
    exact ⟨v, u, rfl, h1⟩
  · rintro ⟨w, u, rfl, h⟩
    exact leading_exists h

theorem kindOf_kind {s : List Char} (h : Kind s) : ∃ k, kindOf s = some k ∧ s = k.toList := by
  have : ∀ k ∈ kinds, kindOf k.toList = some k := by decide +kernel
  obtain ⟨k, hk, rfl⟩ := h
  exact ⟨k, this k hk, rfl⟩

theorem kindOf_iff (s : List Char) : (∃ k, kindOf s = some k) ↔ ∃ u k, Kind k ∧ s = u ++ k := by
  unfold kindOf
  constructor
  · rintro ⟨k, h⟩
    have h1 := List.find?_some h
    obtain ⟨u, e⟩ := List.isSuffixOf_iff_suffix.1 h1
    exact ⟨u, k.toList, ⟨k, List.mem_of_find?_eq_some h, rfl⟩, e.symm⟩
  · rintro ⟨u, k, ⟨x, hx, rfl⟩, rfl⟩
    rw [← Option.isSome_iff_exists, List.find?_isSome]
    exact ⟨x, hx, List.isSuffixOf_iff_suffix.2 ⟨u, rfl⟩⟩

theorem matchAt_record {kind file chan beg dur token sub spkr conf : List Char} {more : List (List Char)} (hk : Kind kind)
    (hc : Some Char.isDigit chan) (hb : Time beg) (hd : Time dur) (hs : Subtype sub) (hf : Time conf) :
    ∃ k, kind = k.toList ∧
      matchAt (kind :: file :: chan :: beg :: dur :: token :: sub :: spkr :: conf :: more) = some ⟨k, file, chan, beg, dur, token, sub, conf⟩ := by
  obtain ⟨k, e, rfl⟩ := kindOf_kind hk
  refine ⟨k, rfl, ?_⟩
  unfold matchAt
  dsimp only
  rw [e, leading_time hf, (run_digits _).2 hc, (run_time _).2 hb, (run_time _).2 hd, (run_subtype _).2 hs]
  rfl

theorem matchAt_iff (f file chan beg dur token sub spkr conf : List Char) (more : List (List Char)) :
    (∃ r, matchAt (f :: file :: chan :: beg :: dur :: token :: sub :: spkr :: conf :: more) = some r) ↔
      (∃ u k, Kind k ∧ f = u ++ k) ∧ Some Char.isDigit chan ∧ Time beg ∧ Time dur ∧ Subtype sub ∧ ∃ w u, conf = w ++ u ∧ Time w := by
  rw [← kindOf_iff, ← leading_iff, ← run_digits, ← run_time, ← run_time, ← run_subtype]
  unfold matchAt
  dsimp only
  cases kindOf f with
  | none => simp
  | some k =>
    cases leading conf with
    | none => simp
    | some v =>
      dsimp only
      cases run (Re.cls Char.isDigit).plus chan <;> cases run time beg <;> cases run time dur <;> cases run subtype sub <;> simp

theorem find_match {f : List Char} {fs : List (List Char)} {r : Captured} (h : matchAt (f :: fs) = some r) : find (f :: fs) = some r := by
  unfold find
  rw [h]

theorem layout_words' {fs : List (List Char)} {l : List Char} (h : Layout fs l) : words [] l = fs := by
  obtain ⟨h1, c, s, rfl, h2⟩ := (layout_iff _ _).1 h
  unfold split at h1
  dsimp only at h1
  rw [h2] at h1
  exact h1

theorem layout_field {fs : List (List Char)} {l : List Char} (h : Layout fs l) : ∀ f ∈ fs, Some (fun c => !white c) f := by
  induction h with
  | last w t h1 _ =>
    intro f hf
    rw [List.mem_singleton] at hf
    exact hf ▸ h1
  | cons w g fs l h1 _ _ ih =>
    intro f hf
    rcases List.mem_cons.1 hf with rfl | hf
    · exact h1
    · exact ih f hf

theorem layout_within {fs : List (List Char)} {l : List Char} (h : Layout fs l) : ∀ f ∈ fs, ∃ a b, l = a ++ f ++ b := by
  induction h with
  | last w t _ _ =>
    intro f hf
    rw [List.mem_singleton] at hf
    exact ⟨[], t, by rw [hf]; rfl⟩
  | cons w g fs l _ _ _ ih =>
    intro f hf
    rcases List.mem_cons.1 hf with rfl | hf
    · exact ⟨[], g ++ l, by simp⟩
    · obtain ⟨a, b, rfl⟩ := ih f hf
      exact ⟨w ++ g ++ a, b, by simp⟩

theorem layout_unique {fs gs : List (List Char)} {l : List Char} (h1 : Layout fs l) (h2 : Layout gs l) : fs = gs :=
  (layout_words' h1).symm.trans (layout_words' h2)

theorem line_layout (fs : List (List Char)) (hn : fs ≠ []) (h : ∀ f ∈ fs, Some (fun c => !white c) f) : Layout fs (line fs) := by
  induction fs with
  | nil => exact absurd rfl hn
  | cons f fs ih =>
    cases fs with
    | nil =>
      have := Layout.last f [] (h f List.mem_cons_self) (by simp)
      rw [List.append_nil] at this
      exact this
    | cons g fs =>
      have h1 := ih (by simp) (fun x hx => h x (List.mem_cons_of_mem _ hx))
      have h2 := Layout.cons f [' '] _ _ (h f List.mem_cons_self) ⟨by simp, by simp [white]⟩ h1
      have e : line (f :: g :: fs) = f ++ [' '] ++ line (g :: fs) := by
        rw [List.append_assoc]
        rfl
      rw [e]
      exact h2

end Verif.Rttm2Ctm
