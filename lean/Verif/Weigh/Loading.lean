import Verif.Weigh.Lookup
/-!
# Lemmas on loading word weight lists
-/
set_option autoImplicit false
namespace Verif.Weigh
open Verif.Text
open Verif.CtmIn (Blank isSpace_iff)
open Verif.Rfilter (strstr strchr Contains)

theorem nbytes_blank (e : Enc) (b : Nat) (h : b < 128) : nbytes e b = some 1 := Lines.nbytes_ascii e h

theorem isEmpty_blank (e : Enc) (l : List Nat) (h : ∀ b ∈ l, Blank b) : isEmpty e l = some true := by
  induction l with
  | nil => rfl
  | cons b l ih =>
    have hb := h b (by simp)
    have h128 : b < 128 := by rcases hb with h | h <;> omega
    rw [isEmpty, nbytes_blank e b h128]
    simp only [Nat.lt_irrefl, if_false, (isSpace_iff b).2 hb]
    exact ih (fun c hc => h c (by simp [hc]))

theorem isEmpty_text (e : Enc) (cs : List (List Nat)) (hc : ∀ c ∈ cs, IsChar e c) (x : Nat) (hx : x ∈ cs.flatten) (hb : ¬ Blank x) :
    isEmpty e cs.flatten = some false := by
  induction cs with
  | nil => simp at hx
  | cons c cs ih =>
    obtain ⟨b, r, rfl, hn, hr⟩ := hc c (by simp)
    rw [List.flatten_cons, List.cons_append, isEmpty, hn]
    simp only
    by_cases h1 : 1 < (b :: r).length
    · rw [if_pos h1]
    · rw [if_neg h1]
      have hr0 : r = [] := by
        cases r with
        | nil => rfl
        | cons y r => simp at h1
      subst hr0
      by_cases hbb : Blank b
      · have := (isSpace_iff b).2 hbb
        simp only [this, Bool.not_true, Bool.false_eq_true, if_false, List.nil_append]
        refine ih (fun c hc' => hc c (by simp [hc'])) ?_
        simp only [List.flatten_cons, List.cons_append, List.nil_append, List.mem_cons] at hx
        rcases hx with rfl | hx
        · exact absurd hbb hb
        · exact hx
      · have : Lines.isSpace b = false := by
          cases h : Lines.isSpace b
          · rfl
          · exact absurd ((isSpace_iff b).1 h) hbb
        simp [this]

theorem isComment_iff (l : List Nat) : isComment l = true ↔ ∃ r, l = 59 :: 59 :: r := by
  rcases l with _ | ⟨a, _ | ⟨b, r⟩⟩
  · simp [isComment]
  · simp [isComment]
  · simp [isComment]

theorem info_line (e : Enc) (atof : List Nat → Int) (t : Wwl) (l : List Nat) (h : Info l) : loadLine e atof t l = loadInfo atof t l := by
  unfold loadLine
  by_cases hc : isComment l = true
  · rw [if_pos hc]
  · rw [if_neg hc]
    rcases h with h | h
    · rw [isEmpty_blank e l h]
    · exact absurd ((isComment_iff l).2 h) hc

theorem data_not_blank {l : List Nat} {fs : List (List Nat)} (h : CtmIn.Fields l fs) (hne : fs ≠ []) : ∃ x ∈ l, ¬ Blank x := by
  cases h with
  | nil => exact absurd rfl hne
  | cons s f rest fs _ hf hb _ _ =>
    cases f with
    | nil => exact absurd rfl hf
    | cons b f => exact ⟨b, by simp, hb b (by simp)⟩

theorem data_line (e : Enc) (atof : List Nat → Int) (t : Wwl) (l : List Nat) (fs : List (List Nat)) (hv : Valid e l) (h : Data l fs) :
    loadLine e atof t l = match fs.take 6 with
      | w :: x :: _ => .ok { t with words := t.words ++ [(w, atof x)] }
      | _ => .fail := by
  obtain ⟨hf, hne, hcm⟩ := h
  unfold loadLine
  rw [if_neg (fun hc => hcm ((isComment_iff l).1 hc))]
  obtain ⟨x, hx, hb⟩ := data_not_blank hf hne
  obtain ⟨cs, rfl, hcs⟩ := hv
  rw [isEmpty_text e cs hcs x hx hb]
  simp only [CtmIn.wordsFrom_fields hf]
  rcases fs with _ | ⟨a, _ | ⟨b, r⟩⟩ <;> rfl

theorem mentions_iff (pat l : List Nat) : Mentions pat l ↔ Contains (pat.map (cCase true)) (l.map (cCase true)) := by
  constructor
  · rintro ⟨a, m, b, rfl, h⟩
    exact ⟨a.map (cCase true), b.map (cCase true), by simp [h]⟩
  · rintro ⟨a, b, h⟩
    obtain ⟨l1, l2, rfl, h1, h2⟩ := List.map_eq_append_iff.1 h
    obtain ⟨l3, l4, rfl, h3, h4⟩ := List.map_eq_append_iff.1 h2
    exact ⟨l1, l3, l4, rfl, h3⟩

theorem after_none {pat l : List Nat} (hp : pat ≠ []) (h : ¬ Mentions pat l) : after pat l = none := by
  unfold after
  rw [Rfilter.strstr_none (by simpa using hp) (fun hc => h ((mentions_iff pat l).2 hc))]
  rfl

theorem after_some {pat l : List Nat} (h : Mentions pat l) : ∃ p, after pat l = some p := by
  have := Rfilter.strstr_some ((mentions_iff pat l).1 h)
  unfold after
  cases hq : strstr (pat.map (cCase true)) (l.map (cCase true)) with
  | none => rw [hq] at this; cases this
  | some i => exact ⟨_, rfl⟩

theorem cCase_quote (b : Nat) (h : cCase true b = 39) : b = 39 := by
  unfold cCase at h
  rw [if_pos rfl] at h
  split at h <;> omega

/-- A pattern that begins with a quote is found behind a text without quotes. -/
theorem after_quote (pat a b : List Nat) (hp : pat.head? = some 39) (ha : 39 ∉ a) : after pat (a ++ (pat ++ b)) = some b := by
  unfold after
  rw [Rfilter.strstr_first (a := a.map (cCase true)) (b := b.map (cCase true)) (by simp)]
  · simp only [Option.map_some, List.length_map]
    rw [← List.append_assoc, List.drop_left' (by simp)]
  · intro x y hxy
    rw [List.length_map]
    cases Nat.lt_or_ge x.length a.length with
    | inr h => exact h
    | inl h =>
      exfalso
      have h1 := congrArg (fun z => z[x.length]?) hxy
      cases pat with
      | nil => cases hp
      | cons q pat =>
        simp only [List.head?_cons, Option.some.injEq] at hp
        subst hp
        simp only [List.map_append, List.map_cons, List.cons_append] at h1
        rw [List.getElem?_append_left (by simpa using h), List.getElem?_append_right (Nat.le_refl _), Nat.sub_self,
          List.getElem?_cons_zero, List.getElem?_map, List.getElem?_eq_getElem h] at h1
        simp only [Option.map_some, Option.some.injEq] at h1
        have h39 : cCase true 39 = 39 := by decide
        rw [h39] at h1
        exact ha (cCase_quote _ h1 ▸ List.getElem_mem h)

theorem strchr_split (c : Nat) : ∀ l : List Nat, c ∈ l → ∃ a b, l = a ++ c :: b ∧ c ∉ a
  | [], h => (List.not_mem_nil h).elim
  | x :: l, h => by
    by_cases hx : x = c
    · exact ⟨[], l, by rw [hx]; rfl, by simp⟩
    · have hl : c ∈ l := by
        rcases List.mem_cons.1 h with h | h
        · exact absurd h.symm hx
        · exact h
      obtain ⟨a, b, rfl, ha⟩ := strchr_split c l hl
      refine ⟨x :: a, b, rfl, ?_⟩
      simp only [List.mem_cons, not_or]
      exact ⟨fun h => hx h.symm, ha⟩

theorem headings_ok : ∀ (k fuel n : Nat) (p : List Nat), p.length < fuel → p.count 39 = 2 * k → n + k ≤ 10 →
    headings fuel n p = some (n + k)
  | _, 0, _, _, hf, _, _ => by omega
  | 0, fuel + 1, n, p, _, hc, _ => by
    rw [headings, Rfilter.strchr_none 39 p (List.count_eq_zero.1 hc)]
    rfl
  | k + 1, fuel + 1, n, p, hf, hc, hn => by
    obtain ⟨a, b, rfl, ha⟩ := strchr_split 39 p (List.count_pos_iff.1 (by omega))
    have hb : b.count 39 = 2 * k + 1 := by
      rw [List.count_append, List.count_eq_zero.2 ha, List.count_cons_self] at hc
      omega
    obtain ⟨c, d, rfl, hc'⟩ := strchr_split 39 b (List.count_pos_iff.1 (by omega))
    have hd : d.count 39 = 2 * k := by
      rw [List.count_append, List.count_eq_zero.2 hc', List.count_cons_self] at hb
      omega
    have hdrop : ∀ (u v : List Nat), (u ++ 39 :: v).drop (u.length + 1) = v := by
      intro u v
      rw [show u ++ 39 :: v = (u ++ [39]) ++ v by simp, List.drop_left' (by simp)]
    rw [headings, Rfilter.strchr_first 39 a _ ha]
    simp only [hdrop, Rfilter.strchr_first 39 c d hc']
    rw [if_neg (by omega), headings_ok k fuel (n + 1) d (by simp at hf; omega) hd (by omega)]
    congr 1
    omega

theorem says_snoc (e : Enc) (atof : List Nat → Int) (ls : List (List Nat)) (l : List Nat) (t t' t'' : Wwl)
    (h : loadLines e atof t ls = .ok t') (hl : loadLine e atof t' l = .ok t'') : loadLines e atof t (ls ++ [l]) = .ok t'' := by
  induction ls generalizing t with
  | nil =>
    simp only [loadLines, Load.ok.injEq] at h
    subst h
    simp [loadLines, hl]
  | cons x ls ih =>
    rw [loadLines] at h
    rw [List.cons_append, loadLines]
    cases hx : loadLine e atof t x with
    | undef => rw [hx] at h; cases h
    | fail => rw [hx] at h; cases h
    | ok t1 => rw [hx] at h; exact ih t1 h

theorem says_load {e : Enc} {atof : List Nat → Int} {ls : List (List Nat)} {ws : List (List Nat × Int)} {d : Int} {n : Nat}
    (h : Says e atof ls ws d n) : load e atof ls = .ok ⟨ws, d, n⟩ := by
  unfold load
  induction h with
  | nil => rfl
  | word _ hv hd ih =>
    refine says_snoc e atof _ _ _ _ _ ih ?_
    rw [data_line e atof _ _ _ hv hd]
    rfl
  | dflt _ hv hq ih =>
    refine says_snoc e atof _ _ _ _ _ ih ?_
    obtain ⟨hi, hh, hm, a, b, rfl, ha, hq'⟩ := hq
    rw [info_line e atof _ _ hi, loadInfo, after_none (by decide) hh]
    obtain ⟨p, hp⟩ := after_some hm
    have hdrop : ∀ (u v : List Nat), (u ++ 39 :: v).drop (u.length + 1) = v := by
      intro u v
      rw [show u ++ 39 :: v = (u ++ [39]) ++ v by simp, List.drop_left' (by simp)]
    simp only [hp, Rfilter.strchr_first 39 a _ ha, hdrop, Rfilter.strchr_first 39 _ b hq', List.take_left]
  | heads _ hv hd hn ih =>
    refine says_snoc e atof _ _ _ _ _ ih ?_
    obtain ⟨hi, a, b, c, rfl, ha, hb, hc⟩ := hd
    rw [info_line e atof _ _ hi, loadInfo, after_quote kwHeadings a _ rfl ha]
    simp only
    rw [after_quote kwSpelling b _ rfl hb]
    simp only
    rw [headings_ok _ _ _ c (Nat.lt_succ_self _) hc hn]
  | @other ls ws d n l _ hv hi hh hq ih =>
    refine says_snoc e atof _ _ _ _ _ ih ?_
    rw [info_line e atof _ _ hi, loadInfo, after_none (by decide) hh]
    simp only
    by_cases hm : Mentions kwDefault l
    · obtain ⟨p, hp⟩ := after_some hm
      simp only [hp]
      by_cases h1 : 39 ∈ l
      · obtain ⟨a, b, rfl, ha⟩ := strchr_split 39 l h1
        have hdrop : ∀ (u v : List Nat), (u ++ 39 :: v).drop (u.length + 1) = v := by
          intro u v
          rw [show u ++ 39 :: v = (u ++ [39]) ++ v by simp, List.drop_left' (by simp)]
        simp only [Rfilter.strchr_first 39 a _ ha, hdrop]
        by_cases h2 : 39 ∈ b
        · obtain ⟨q, r, rfl, hq'⟩ := strchr_split 39 b h2
          exact absurd ⟨hi, hh, hm, a, r, rfl, ha, hq'⟩ (hq q)
        · rw [Rfilter.strchr_none 39 b h2]
      · rw [Rfilter.strchr_none 39 l h1]
    · rw [after_none (by decide) hm]

end Verif.Weigh
