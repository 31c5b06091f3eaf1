import Verif.Acomp.Lemmas2
/-!
# What is proved of the splitter of compounds (C274 to C282)
-/
set_option autoImplicit false
namespace Verif.Acomp

/-! ## C274: which words are split -/

theorem compLU_expand {o : Opts} {d : Dict} {t : Text} (hm : 1 ≤ o.min) (hc : Caps t) (hn : d.get t = [])
    (hf : o.frag = false ∨ t.getLast? ≠ some 45) :
    (∃ p ps, Ch o d t (p :: ps) ∧ (compLU o d t).map (·.1) = some (join (p :: ps)) ∧ ∀ q qs, Ch o d t (q :: qs) → q.length ≤ p.length) ∨
      ((∀ ps, ¬ Ch o d t ps) ∧ (compLU o d t).map (·.1) = some t) := by
  have hs : search o d t = expansions o d t := by
    have : (o.frag && endsDash t) = false := by
      rcases hf with h | h
      · simp [h]
      · simp [endsDash, h]
    simp [search, this]
  rw [compLU]
  simp only [hn, ne_eq, not_true_eq_false, if_false, hs]
  rcases expansions_spec (d := d) hm hc with ⟨p, ps, h1, h2, h3⟩ | ⟨h1, h2⟩
  · exact .inl ⟨p, ps, h1, by rw [h2]; rfl, h3⟩
  · exact .inr ⟨h1, by rw [h2]; rfl⟩

/-- With the option -s, a word that the lexicon has no expansion for is split into listed words it is the concatenation of, and if there are none
it is left as it is; only constituents longer than the longest part of an entry with a hyphen or underscore are not found. -/
theorem split_plain {o : Opts} {d : Dict} {t : Text} (hm : 1 ≤ o.min) (hc : Caps t) (hn : d.get t = [])
    (hf : o.frag = false ∨ t.getLast? ≠ some 45) (hi : o.inserts = false) :
    (∃ ps, Chain (· ∈ d.lex) NoLink o.min d.maxLen t ps ∧ (compLU o d t).map (·.1) = some (join ps)) ∨
      ((∀ ps, ¬ Chain (· ∈ d.lex) NoLink o.min d.maxLen t ps) ∧ (compLU o d t).map (·.1) = some t) := by
  have e : Ch o d = Chain (· ∈ d.lex) NoLink o.min d.maxLen := by simp [Ch, hi]
  rcases compLU_expand hm hc hn hf with ⟨p, ps, h1, h2, _⟩ | ⟨h1, h2⟩
  · exact .inl ⟨_, e ▸ h1, h2⟩
  · exact .inr ⟨fun ps => e ▸ h1 ps, h2⟩

/-- Without -s, `s` and `en` may stand between the constituents; but see `CodeLink`. -/
theorem split_links_partial {o : Opts} {d : Dict} {t : Text} (hm : 1 ≤ o.min) (hc : Caps t) (hn : d.get t = [])
    (hf : o.frag = false ∨ t.getLast? ≠ some 45) (hi : o.inserts = true) :
    (∃ ps, Chain (· ∈ d.lex) CodeLink o.min d.maxLen t ps ∧ (compLU o d t).map (·.1) = some (join ps)) ∨
      ((∀ ps, ¬ Chain (· ∈ d.lex) CodeLink o.min d.maxLen t ps) ∧ (compLU o d t).map (·.1) = some t) := by
  have e : Ch o d = Chain (· ∈ d.lex) CodeLink o.min d.maxLen := by simp [Ch, hi]
  rcases compLU_expand hm hc hn hf with ⟨p, ps, h1, h2, _⟩ | ⟨h1, h2⟩
  · exact .inl ⟨_, e ▸ h1, h2⟩
  · exact .inr ⟨fun ps => e ▸ h1 ps, h2⟩

/-- The concatenation of a chain without links is the word. -/
theorem chain_flatten {listed : Text → Prop} {m k : Nat} {w : Text} {ps : List Text} (h : Chain listed NoLink m k w ps) :
    ps.flatten = w ∧ ∀ p ∈ ps, listed p := by
  induction h with
  | one w h => exact ⟨by simp, by simpa using h⟩
  | cons p l r ps h1 h2 _ _ _ _ ih =>
    cases (show l = [] from h2)
    exact ⟨by simp [ih.1], by simpa [h1] using ih.2⟩

/-- ARBEIT, ENDE; the entry with a hyphen makes words of six letters constituents. -/
def arbeit : Dict := load [b "Arbeit", b "Ende", b "Urlaub-Zeit"]

/-- `Arbeitsende` is ARBEIT, s, ENDE, and is not split; with NDE for ENDE it is. -/
theorem arbeitsende :
    Chain (· ∈ arbeit.lex) Link 2 arbeit.maxLen (b "ARBEITSENDE") [b "ARBEIT", b "ENDE"] ∧
      (stringLU {} arbeit (b "Arbeitsende")).map (·.1) = some (b "ARBEITSENDE") ∧
      (stringLU {} (load [b "Arbeit", b "nde", b "Urlaub-Zeit"]) (b "Arbeitsende")).map (·.1) = some (b "ARBEIT NDE") := by
  refine ⟨?_, by decide +kernel, by decide +kernel⟩
  exact .cons (b "ARBEIT") [83] (b "ENDE") [b "ENDE"] (by decide +kernel) (.inr (.inl rfl)) (by decide +kernel) (by decide +kernel)
    (by decide +kernel) (.one _ (by decide +kernel))

example : (stringLU {} arbeit (b "Arbeitszeit Urlaubende Zeitenende Arbeitx")).map (·.1) =
    some (b "ARBEIT ZEIT URLAUB ENDE ZEIT ENDE ARBEITX") := by decide +kernel
example : (compLU { inserts := false } arbeit (b "ARBEITZEIT")).map (·.1) = some (b "ARBEIT ZEIT") ∧
    (compLU { inserts := false } arbeit (b "ARBEITSZEIT")).map (·.1) = some (b "ARBEITSZEIT") ∧ arbeit.get (b "ARBEITZEIT") = [] := by
  decide +kernel

/-! ## C275: compounds of words the lexicon lists plainly -/

/-- A lexicon of words without hyphens and underscores splits no word, apart from fragments with -f. -/
theorem plain_lexicon {o : Opts} (ws : List Text) (hw : ∀ w ∈ ws, ∀ c ∈ w, c ≠ 45 ∧ c ≠ 95) {t : Text} (hm : 1 ≤ o.min) (hc : Caps t)
    (hf : o.frag = false ∨ t.getLast? ≠ some 45) : (compLU o (load ws) t).map (·.1) = some t := by
  have nd : ∀ w ∈ ws, (w.map up).any isDash = false := by
    intro w h
    rw [List.any_eq_false]
    intro c hc
    obtain ⟨a, ha, rfl⟩ := List.mem_map.1 hc
    rw [up_dash]
    have := hw w h a ha
    simp [isDash, this]
  have hk : (load ws).maxLen = 0 := by
    have := (load_max ws 0).2 (by
      intro w h x hx
      simp [counts, nd w h] at hx)
    omega
  have hg : ∀ (us : List Text) (d : Dict), (∀ u ∈ us, u.any isDash = false) → (d.get t = [] ∨ d.get t = t) →
      (us.foldl addWord d).get t = [] ∨ (us.foldl addWord d).get t = t := by
    intro us
    induction us with
    | nil => exact fun d _ h => h
    | cons u us ih =>
      intro d hu h
      rw [List.foldl_cons]
      refine ih _ (fun x hx => hu x (by simp [hx])) ?_
      simp only [addWord, hu u (by simp), Bool.false_eq_true, if_false]
      have := get_cons { d with lex := u :: d.lex } u t u
      rw [this]
      by_cases e : u = t
      · simp [e]
      · rw [if_neg e]
        exact h
  have hget : (load ws).get t = [] ∨ (load ws).get t = t := by
    refine hg _ _ ?_ (.inl rfl)
    intro u hu
    obtain ⟨w, h, rfl⟩ := List.mem_map.1 hu
    exact nd w h
  by_cases hn : (load ws).get t = []
  · rcases compLU_expand hm hc hn hf with ⟨p, ps, h1, h2, _⟩ | ⟨_, h2⟩
    · generalize hps : p :: ps = qs at h1
      cases h1 with
      | one w _ => rw [h2, hps]; rfl
      | cons q l r qs _ _ h3 h4 _ _ => omega
    · exact h2
  · have := hget.resolve_left hn
    rw [compLU, if_pos hn, this]
    rfl

example : (stringLU {} (load [b "Haus", b "Tuer"]) (b "Haustuer")).map (·.1) = some (b "HAUSTUER") ∧
    (stringLU {} (load [b "Haus", b "Tuer", b "Fuer-Bitte"]) (b "Haustuer")).map (·.1) = some (b "HAUS TUER") := by decide +kernel

/-- The greatest length of a constituent before the last: that of the longest part of an entry with a hyphen or an underscore. -/
theorem greatest_length (ws : List Text) (k : Nat) :
    (load ws).maxLen ≤ k ↔ ∀ w ∈ ws, (∃ c ∈ w, c = 45 ∨ c = 95) → ∀ x ∈ split (join (parts isDash (w.map up))), x.length ≤ k := by
  rw [load_max]
  have dash : ∀ w : Text, (w.map up).any isDash = true ↔ ∃ c ∈ w, c = 45 ∨ c = 95 := by
    intro w
    simp only [List.any_map, List.any_eq_true, Function.comp, up_dash]
    simp only [isDash, Bool.or_eq_true, beq_iff_eq]
  constructor
  · intro h w hw hd
    have := h w hw
    rwa [counts, if_pos ((dash w).2 hd)] at this
  · intro h w hw
    rw [counts]
    split
    · exact h w hw ((dash w).1 ‹_›)
    · simp

example : (load [b "Haus", b "Fuer-Bitte", b "a_bcdefg"]).maxLen = 6 := by decide +kernel

/-! ## C276: one expansion, longest constituent first -/

/-- There is at most one expansion of a word or fragment, so alternatives in braces are never written. -/
theorem one_expansion {o : Opts} {d : Dict} {t : Text} (hm : 1 ≤ o.min) (hc : Caps t) (hn : d.get t = []) :
    (compLU o d t).map (·.1) = some t ∨ ∃ ps : List Text, (compLU o d t).map (·.1) = some (join ps) ∧ search o d t = some [ps] := by
  obtain ⟨es, h1, h2⟩ := search_spec (d := d) hm hc
  rw [compLU]
  simp only [hn, ne_eq, not_true_eq_false, if_false, h1]
  match es, h2 with
  | [], _ => exact .inl rfl
  | [ps], _ => exact .inr ⟨ps, rfl, rfl⟩

theorem chain_mem {listed : Text → Prop} {link : Text → Text → Prop} {m k : Nat} {w : Text} {ps : List Text} (h : Chain listed link m k w ps) :
    ∀ p ∈ ps, ∀ c ∈ p, c ∈ w := by
  induction h with
  | one w _ => intro p hp c hc; rw [List.mem_singleton.1 hp] at hc; exact hc
  | cons p l r ps _ _ _ _ _ _ ih =>
    intro q hq c hc
    rcases List.mem_cons.1 hq with rfl | hq
    · exact List.mem_append_left _ hc
    · exact List.mem_append_right _ (List.mem_append_right _ (ih q hq c hc))

theorem mem_join {ps : List Text} {c : Nat} (h : c ∈ join ps) : c = 32 ∨ ∃ p ∈ ps, c ∈ p := by
  induction ps with
  | nil => cases h
  | cons p ps ih =>
    cases ps with
    | nil => exact .inr ⟨p, by simp, h⟩
    | cons q qs =>
      rw [join] at h
      rcases List.mem_append.1 h with h | h
      · exact .inr ⟨p, by simp, h⟩
      · rcases List.mem_cons.1 h with h | h
        · exact .inl h
        · rcases ih h with h | ⟨x, hx, g⟩
          · exact .inl h
          · exact .inr ⟨x, List.mem_cons_of_mem _ hx, g⟩

/-- Nothing is written for a word but its own letters and spaces: no braces, and no slashes. -/
theorem no_braces {o : Opts} {d : Dict} {t s : Text} {d1 : Dict} (hm : 1 ≤ o.min) (hc : Caps t) (hn : d.get t = [])
    (h : compLU o d t = some (s, d1)) : ∀ c ∈ s, c = 32 ∨ c ∈ t := by
  have sub : ∀ ps : List Text, (∀ p ∈ ps, ∀ c ∈ p, c ∈ t) → ∀ c ∈ join ps, c = 32 ∨ c ∈ t := by
    intro ps hp c hc
    rcases mem_join hc with h | ⟨p, h1, h2⟩
    · exact .inl h
    · exact .inr (hp p h1 c h2)
  have hs : (compLU o d t).map (·.1) = some s := by rw [h]; rfl
  by_cases hf : o.frag = false ∨ t.getLast? ≠ some 45
  · rcases compLU_expand hm hc hn hf with ⟨p, ps, h1, h2, _⟩ | ⟨_, h2⟩
    · rw [hs] at h2
      rw [Option.some.inj h2]
      exact sub _ (chain_mem h1)
    · rw [hs] at h2
      rw [Option.some.inj h2]
      exact fun c hc => .inr hc
  · have hf1 : o.frag = true := by
      cases e : o.frag
      · exact absurd (.inl e) hf
      · rfl
    have hf2 : t.getLast? = some 45 := Classical.not_not.1 fun e => hf (.inr e)
    have hsr : search o d t = if 2 ≤ t.length then fragLoop o d t (t.length - 2) else some [] := by
      simp [search, hf1, endsDash, hf2]
    rw [compLU] at hs
    simp only [hn, ne_eq, not_true_eq_false, if_false, hsr] at hs
    by_cases h2 : 2 ≤ t.length
    · simp only [h2, if_true] at hs
      rcases fragLoop_spec (d := d) hm hc (t.length - 2) with ⟨j, p, ps, _, _, g3, g4⟩ | g
      · rw [g4] at hs
        rw [← Option.some.inj hs]
        refine sub _ (fun q hq c hc => ?_)
        rcases List.mem_append.1 hq with hq | hq
        · exact List.mem_of_mem_take (chain_mem g3 q hq c hc)
        · rw [List.mem_singleton.1 hq] at hc
          exact List.mem_of_mem_drop hc
      · rw [g] at hs
        rw [← Option.some.inj hs]
        exact fun c hc => .inr hc
    · simp only [h2, if_false] at hs
      rw [← Option.some.inj hs]
      exact fun c hc => .inr hc

/-- The first constituent is the longest with which any expansion begins. -/
theorem longest_first {o : Opts} {d : Dict} {t : Text} (hm : 1 ≤ o.min) (hc : Caps t) (hn : d.get t = [])
    (hf : o.frag = false ∨ t.getLast? ≠ some 45) {q : Text} {qs : List Text}
    (hq : Chain (· ∈ d.lex) (if o.inserts then CodeLink else NoLink) o.min d.maxLen t (q :: qs)) :
    ∃ p ps, (compLU o d t).map (·.1) = some (join (p :: ps)) ∧ q.length ≤ p.length ∧
      Chain (· ∈ d.lex) (if o.inserts then CodeLink else NoLink) o.min d.maxLen t (p :: ps) := by
  rcases compLU_expand hm hc hn hf with ⟨p, ps, h1, h2, h3⟩ | ⟨h1, _⟩
  · exact ⟨p, ps, h2, h3 q qs hq, h1⟩
  · exact absurd hq (h1 _)

/-- What becomes of a fragment: a beginning that is listed or a chain of listed words is split off, and what is left has two letters at least
(the hyphen counted). -/
theorem fragment {o : Opts} {d : Dict} {t : Text} (hm : 1 ≤ o.min) (hc : Caps t) (hn : d.get t = []) (hf : o.frag = true)
    (hd : t.getLast? = some 45) :
    (compLU o d t).map (·.1) = some t ∨ ∃ j p ps, o.min ≤ j ∧ j + 2 ≤ t.length ∧
      Chain (· ∈ d.lex) (if o.inserts then CodeLink else NoLink) o.min d.maxLen (t.take j) (p :: ps) ∧
      (compLU o d t).map (·.1) = some (join (p :: ps ++ [t.drop j])) := by
  have hs : search o d t = if 2 ≤ t.length then fragLoop o d t (t.length - 2) else some [] := by
    simp [search, hf, endsDash, hd]
  rw [compLU]
  simp only [hn, ne_eq, not_true_eq_false, if_false, hs]
  by_cases h2 : 2 ≤ t.length
  · simp only [h2, if_true]
    rcases fragLoop_spec (d := d) hm hc (t.length - 2) with ⟨j, p, ps, g1, g2, g3, g4⟩ | g
    · exact .inr ⟨j, p, ps, g1, by omega, g3, by rw [g4]; rfl⟩
    · exact .inl (by rw [g]; rfl)
  · simp only [h2, if_false]
    exact .inl rfl

/-- STAU, BECKEN, STAUB, ECKEN: the longer beginning wins. -/
example : (stringLU {} (load [b "Stau", b "Becken", b "Staub", b "Ecken", b "Fuer-Bitte"]) (b "Staubecken")).map (·.1) =
    some (b "STAUB ECKEN") := by decide +kernel
example : (stringLU { frag := true } (load [b "Haus", b "Tuer"]) (b "Haustu-")).map (·.1) = some (b "HAUS TU-") := by decide +kernel

/-! ## C277: triplet consonants -/

theorem compLU_triplets (o : Opts) (v : Bool) (d : Dict) {t : Text} (hc : Caps t) : compLU { o with triplets := v } d t = compLU o d t := by
  rw [compLU, compLU, search_congr (o := { o with triplets := v }) (o' := o) (d := d) (d' := d) rfl rfl rfl (fun _ => Iff.rfl) rfl t hc]

theorem wordsLU_triplets (o : Opts) (v : Bool) (d : Dict) (ws : List Text) (hc : ∀ w ∈ ws, Caps w) :
    wordsLU { o with triplets := v } d ws = wordsLU o d ws := by
  induction ws generalizing d with
  | nil => rfl
  | cons w ws ih =>
    have hw : wordLU { o with triplets := v } d w = wordLU o d w := by
      have hv : Caps ((w.drop 1).dropLast) := caps_of_subset (hc w (by simp)) fun c hc => List.mem_of_mem_drop (List.dropLast_subset _ hc)
      unfold wordLU
      dsimp only
      rw [compLU_triplets o v d hv, compLU_triplets o v d (hc w (by simp))]
    rw [wordsLU, wordsLU, hw]
    split
    · rfl
    · rw [ih _ (fun x hx => hc x (by simp [hx]))]

/-- The option -t makes no difference to any text: the letters are capitals when the program looks for small ones. -/
theorem triplets_dead (o : Opts) (v : Bool) (d : Dict) (ls : List Text) : fileLU { o with triplets := v } d ls = fileLU o d ls := by
  induction ls generalizing d with
  | nil => rfl
  | cons l ls ih =>
    have : lineLU { o with triplets := v } d l = lineLU o d l := by
      unfold lineLU stringLU
      rw [wordsLU_triplets o v d _ (split_caps (up_caps _))]
    rw [fileLU, fileLU, this]
    split
    · rfl
    · rw [ih]

/-- SCHIFF and FAHRT make `Schiffahrt`; it is not split. -/
theorem schiffahrt : (stringLU {} (load [b "Schiff", b "Fahrt", b "Fuer-Bitten"]) (b "Schiffahrt")).map (·.1) = some (b "SCHIFFAHRT") := by
  decide +kernel

/-! ## C278: lines do not depend on one another -/

/-- The table of expansions makes no difference: what is written for a line is what would be written for it alone. -/
theorem lines_alone (o : Opts) (d : Dict) (ls : List Text) : fileLU o d ls = ls.mapM (fun l => (lineLU o d l).map (·.1)) := by
  have key : ∀ (ls : List Text) (e : Dict), Same o d e → fileLU o e ls = ls.mapM (fun l => (lineLU o d l).map (·.1)) := by
    intro ls
    induction ls with
    | nil => intro e _; rfl
    | cons l ls ih =>
      intro e he
      rw [fileLU, List.mapM_cons]
      rcases lineLU_same he (same_refl o d) l with ⟨h1, h2⟩ | ⟨x, d1, d2, h1, h2, h3⟩
      · simp [h1, h2]
      · rw [h1, h2]
        dsimp only
        rw [ih d1 h3]
        cases List.mapM (fun l => (lineLU o d l).map (·.1)) ls <;> rfl
  exact key ls d (same_refl o d)

theorem parts_gap {g t : Text} {c : Nat} (hg : g ≠ []) (h : ∀ c ∈ g, Ws c) (hc : isWs c = false) :
    parts isWs (g ++ c :: t) = [] :: parts isWs (c :: t) := by
  induction g with
  | nil => exact absurd rfl hg
  | cons a g ih =>
    have ha : isWs a = true := (isWs_iff a).2 (h a (by simp))
    cases g with
    | nil =>
      rw [List.cons_append, List.nil_append, parts]
      simp only [ha, if_true, hc, Bool.false_eq_true, if_false]
    | cons e g =>
      have he : isWs e = true := (isWs_iff e).2 (h e (by simp))
      rw [List.cons_append, List.cons_append, parts]
      simp only [ha, he, if_true]
      exact ih (by simp) (fun x hx => h x (by simp at hx ⊢; exact .inr hx))

theorem parts_word_append {w t : Text} {v : Text} {vs : List Text} (h : ∀ c ∈ w, isWs c = false) (e : parts isWs t = v :: vs) :
    parts isWs (w ++ t) = (w ++ v) :: vs := by
  induction w with
  | nil => exact e
  | cons a w ih =>
    rw [List.cons_append, parts_other (h a (by simp)), ih (fun x hx => h x (by simp [hx]))]
    rfl

theorem split_spaced {w : Text} {rest : List (Text × Text)} (hw : IsWord w)
    (h : ∀ p ∈ rest, p.1 ≠ [] ∧ (∀ c ∈ p.1, Ws c) ∧ IsWord p.2) : split (spaced w rest) = w :: rest.map (·.2) := by
  have key : parts isWs (spaced w rest) = w :: rest.map (·.2) := by
    induction rest generalizing w with
    | nil => simpa [spaced] using parts_word (word_ws hw)
    | cons p rest ih =>
      obtain ⟨h1, h2, h3⟩ := h p (by simp)
      have := ih h3 (fun q hq => h q (by simp [hq]))
      obtain ⟨c, u, e⟩ : ∃ c u, p.2 = c :: u := by
        cases e : p.2 with
        | nil => exact absurd e h3.1
        | cons c u => exact ⟨c, u, rfl⟩
      have hc : isWs c = false := word_ws h3 c (by simp [e])
      have e2 : spaced w (p :: rest) = w ++ (p.1 ++ spaced p.2 rest) := by simp [spaced]
      have e3 : spaced p.2 rest = c :: (u ++ rest.flatMap (fun p => p.1 ++ p.2)) := by simp [spaced, e]
      rw [e2, parts_word_append (word_ws hw) (v := []) (vs := parts isWs (spaced p.2 rest)), this]
      · simp
      · rw [e3]; exact parts_gap h1 h2 hc
  rw [split, key, dropEnd_words]
  intro x hx
  rcases List.mem_cons.1 hx with rfl | hx
  · exact hw.1
  · obtain ⟨p, hp, rfl⟩ := List.mem_map.1 hx
    exact (h p hp).2.2.1

/-- The amount and kind of white space between words makes no difference. -/
theorem spacing (o : Opts) (d : Dict) {w : Text} {rest : List (Text × Text)} (hw : IsWord w)
    (h : ∀ p ∈ rest, p.1 ≠ [] ∧ (∀ c ∈ p.1, Ws c) ∧ IsWord p.2) :
    stringLU o d (spaced w rest) = stringLU o d (join (w :: rest.map (·.2))) := by
  have e : ∀ (w : Text) (rest : List (Text × Text)), (spaced w rest).map up = spaced (w.map up) (rest.map (fun p => (p.1.map up, p.2.map up))) := by
    intro w rest
    simp [spaced, List.map_flatMap, List.flatMap_map]
  have j : join (w :: rest.map (·.2)) = spaced w (rest.map (fun p => ([32], p.2))) := by
    clear h hw e
    induction rest generalizing w with
    | nil => simp [join, spaced]
    | cons p rest ih =>
      rw [List.map_cons, join, ih]
      simp [spaced]
  have ok : ∀ (rest : List (Text × Text)), (∀ p ∈ rest, p.1 ≠ [] ∧ (∀ c ∈ p.1, Ws c) ∧ IsWord p.2) →
      ∀ p ∈ rest.map (fun p => (p.1.map up, p.2.map up)), p.1 ≠ [] ∧ (∀ c ∈ p.1, Ws c) ∧ IsWord p.2 := by
    intro rest h p hp
    obtain ⟨q, hq, rfl⟩ := List.mem_map.1 hp
    obtain ⟨h1, h2, h3⟩ := h q hq
    refine ⟨by simpa using h1, fun c hc => ?_, up_word h3⟩
    obtain ⟨a, ha, rfl⟩ := List.mem_map.1 hc
    exact (up_ws a).2 (h2 a ha)
  have h' : ∀ p ∈ rest.map (fun p => (([32] : Text), p.2)), p.1 ≠ [] ∧ (∀ c ∈ p.1, Ws c) ∧ IsWord p.2 := by
    intro p hp
    obtain ⟨q, hq, rfl⟩ := List.mem_map.1 hp
    exact ⟨by simp, by simp [Ws], (h q hq).2.2⟩
  rw [j, stringLU, stringLU, e, e, split_spaced (up_word hw) (ok _ h), split_spaced (up_word hw) (ok _ h')]
  simp [Function.comp_def]

example : (stringLU {} arbeit (spaced (b "Arbeitszeit") [(b "  ", b "Ende"), (b "\t", b "x")])).map (·.1) = some (b "ARBEIT ZEIT ENDE X") := by
  decide +kernel

/-- A comment is copied; of every line the last byte goes, be it the end of line or, in a last line without one, a letter. -/
theorem chopped (o : Opts) (d : Dict) (t : Text) (c : Nat) :
    lineLU o d (t ++ [c]) = if [59, 59] <+: t then some (t ++ [10], d) else (stringLU o d t).map (fun r => (r.1 ++ [10], r.2)) := by
  unfold lineLU
  rw [List.dropLast_concat]
  by_cases h : [59, 59] <+: t
  · rw [if_pos h, if_pos (List.isPrefixOf_iff_prefix.2 h)]
  · rw [if_neg h, if_neg (fun g => h (List.isPrefixOf_iff_prefix.1 g))]

example : fileLU {} arbeit [b "Arbeitszeit\n", b ";; Arbeitszeit\n", b "Arbeitszeit"] =
    some [b "ARBEIT ZEIT\n", b ";; Arbeitszeit\n", b "ARBEITSZEI\n"] := by decide +kernel

/-! ## C279: the search ends -/

theorem compLU_total {o : Opts} {d : Dict} (hm : 1 ≤ o.min) {t : Text} (hc : Caps t) : ∃ s d1, compLU o d t = some (s, d1) := by
  rw [compLU]
  split
  · exact ⟨_, _, rfl⟩
  · obtain ⟨es, h, _⟩ := search_spec (d := d) hm hc
    rw [h]
    exact ⟨_, _, rfl⟩

theorem wordsLU_total {o : Opts} (hm : 1 ≤ o.min) (ws : List Text) (d : Dict) (hc : ∀ w ∈ ws, Caps w) :
    ∃ s d1, wordsLU o d ws = some (s, d1) := by
  induction ws generalizing d with
  | nil => exact ⟨_, _, rfl⟩
  | cons w ws ih =>
    have : ∃ s d1, wordLU o d w = some (s, d1) := by
      have hv : Caps ((w.drop 1).dropLast) := caps_of_subset (hc w (by simp)) fun c hc => List.mem_of_mem_drop (List.dropLast_subset _ hc)
      unfold wordLU
      dsimp only
      split
      · obtain ⟨s, d1, h⟩ := compLU_total (d := d) hm hv
        rw [h]
        dsimp only
        split <;> exact ⟨_, _, rfl⟩
      · obtain ⟨s, d1, h⟩ := compLU_total (d := d) hm (hc w (by simp))
        rw [h]
        exact ⟨_, _, rfl⟩
    obtain ⟨s, d1, h⟩ := this
    obtain ⟨s', d2, h'⟩ := ih d1 (fun x hx => hc x (by simp [hx]))
    rw [wordsLU, h]
    dsimp only
    rw [h']
    exact ⟨_, _, rfl⟩

/-- With a minimum length of at least one, every text is worked through, whatever the lexicon, and has as many lines afterwards as before. -/
theorem ends_partial {o : Opts} (hm : 1 ≤ o.min) (d : Dict) (ls : List Text) : ∃ out, fileLU o d ls = some out ∧ out.length = ls.length := by
  induction ls generalizing d with
  | nil => exact ⟨[], rfl, rfl⟩
  | cons l ls ih =>
    have : ∃ x d1, lineLU o d l = some (x, d1) := by
      unfold lineLU stringLU
      split
      · exact ⟨_, _, rfl⟩
      · obtain ⟨s, d1, h⟩ := wordsLU_total hm (split (l.dropLast.map up)) d (split_caps (up_caps _))
        rw [h]
        exact ⟨_, _, rfl⟩
    obtain ⟨x, d1, h⟩ := this
    obtain ⟨out, h1, h2⟩ := ih d1
    exact ⟨x :: out, by rw [fileLU, h]; simp [h1], by simp [h2]⟩

/-- The bound on the depth of the search is no restriction: a greater one gives the same. -/
theorem depth_enough {o : Opts} (hm : 1 ≤ o.min) (d : Dict) {t : Text} (hc : Caps t) (f : Nat) (hf : t.length < f) :
    (isCompound o d f [] t []).map (·.1) = expansions o d t := by
  unfold expansions
  rcases isCompound_spec (d := d) hm (t.length + 1) [] t [] (by omega) hc with ⟨p, ps, h1, h2, h3⟩ | ⟨h1, h2⟩ <;>
    rcases isCompound_spec (d := d) hm f [] t [] hf hc with ⟨q, qs, g1, g2, g3⟩ | ⟨g1, g2⟩
  · rw [h2, g2]
    have det : ∀ (f g : Nat) (h : List Text) (v : Text) (c : List (List Text)), v.length < f → f ≤ g → Caps v →
        isCompound o d g h v c = isCompound o d f h v c := by
      intro f
      induction f with
      | zero => intro g h v c hv; omega
      | succ f ih =>
        intro g h v c hv hg hcv
        obtain ⟨g, rfl⟩ : ∃ k, g = k + 1 := ⟨g - 1, by omega⟩
        rw [isCompound, isCompound]
        have aux : ∀ (i : Nat) (c : List (List Text)), loop (isCompound o d g) o d h v i c = loop (isCompound o d f) o d h v i c := by
          intro i
          induction i with
          | zero => intro c; rw [loop, loop]; simp only [show 0 < o.min from hm, if_true]
          | succ i ihi =>
            intro c
            rw [loop, loop]
            by_cases hi : i + 1 < o.min
            · simp [hi]
            · simp only [hi, if_false]
              have ht : tryAt (isCompound o d g) o d h v (i + 1) c = tryAt (isCompound o d f) o d h v (i + 1) c := by
                rw [tryAt_eq _ _ _ _ _ _ _ hcv, tryAt_eq _ _ _ _ _ _ _ hcv]
                have hcd := caps_drop hcv (i + 1)
                by_cases hl : v.take (i + 1) ∈ d.lex
                · simp only [hl, if_true]
                  by_cases hv0 : v.length = 0
                  · have : v = [] := List.length_eq_zero_iff.1 hv0
                    subst this
                    have : ¬ o.min ≤ (List.drop (i + 1) ([] : Text)).length := by simp; omega
                    simp only [this, if_false]
                    cases o.inserts <;> rfl
                  · have hdl : (v.drop (i + 1)).length < f := by simp; omega
                    rw [ih g _ _ _ hdl (by omega) hcd]
                    split
                    · rfl
                    · rfl
                    · split
                      · rfl
                      · rename_i u hu
                        have : skip (v.drop (i + 1)) = some u := by
                          cases e : o.inserts <;> rw [e] at hu
                          · cases hu
                          · exact hu
                        have hlt := skip_shorter hcd this
                        obtain ⟨l, _, _, e⟩ := (skip_iff hcd u).1 this
                        rw [ih g _ u _ (by omega) (by omega) (caps_of_subset hcd (fun c hc => by rw [e]; exact List.mem_append_right _ hc))]
                · rw [if_neg hl, if_neg hl]
              rw [ht]
              split
              · exact ihi _
              · rfl
        rw [aux]
    have := det (t.length + 1) f [] t [] (by omega) (by omega) hc
    rw [← g2, this, h2]
  · exact absurd h1 (g1 _)
  · exact absurd g1 (h1 _)
  · rw [h2, g2]

/-- With -m 0 and a lexicon with a blank line, the search for any word that is not listed does not end, whatever the depth. -/
theorem endless (f : Nat) (h : List Text) (c : List (List Text)) : isCompound { min := 0 } (load [[]]) f h (b "X") c = none := by
  induction f generalizing h c with
  | zero => rfl
  | succ f ih =>
    have e : (load [[]]).maxLen = 0 ∧ (load [[]]).lex = [[]] := by decide
    have hx : b "X" = [88] := by decide
    rw [hx] at ih ⊢
    rw [isCompound, e.1, e.2]
    simp only [show List.contains [([] : Text)] [88] = false from rfl, Bool.false_eq_true, if_false, List.length_singleton,
      show ¬ (1 < 0) from by omega]
    rw [loop]
    simp only [Nat.lt_irrefl, if_false, tryAt, List.take_zero, e.2, List.drop_zero, Nat.zero_le, if_true,
      show List.contains [([] : Text)] [] = true from rfl, ih]

/-! ## C280: CTM records -/

/-- The records follow one another: each begins where the one before it ends. -/
def Contiguous : List Part → Prop
  | [] => True
  | [_] => True
  | p :: q :: ps => q.beg = p.beg + p.dur ∧ q.den = p.den ∧ Contiguous (q :: ps)

theorem partsFrom_contig (r : Ctm) (n : Nat) (i : Nat) (ws : List Text) : Contiguous (partsFrom r n i ws) := by
  induction ws generalizing i with
  | nil => trivial
  | cons w ws ih =>
    cases ws with
    | nil => trivial
    | cons v vs =>
      refine ⟨?_, rfl, ih (i + 1)⟩
      have : ((i + 1 : Nat) : Int) * r.dur = i * r.dur + r.dur := by
        rw [Int.natCast_add, Int.add_mul]; simp
      show r.beg * n + ((i + 1 : Nat) : Int) * r.dur = r.beg * n + i * r.dur + r.dur
      rw [this]; omega

theorem partsFrom_words (r : Ctm) (n i : Nat) (ws : List Text) : (partsFrom r n i ws).map (·.word) = ws := by
  induction ws generalizing i with
  | nil => rfl
  | cons w ws ih => simp [partsFrom, ih]

theorem partsFrom_last (r : Ctm) (n i : Nat) (ws : List Text) {p : Part} (h : (partsFrom r n i ws).getLast? = some p) :
    p.beg + p.dur = r.beg * n + ((i + ws.length : Nat) : Int) * r.dur ∧ p.den = n := by
  induction ws generalizing i with
  | nil => simp [partsFrom] at h
  | cons w ws ih =>
    cases ws with
    | nil =>
      simp only [partsFrom, List.getLast?_singleton, Option.some.injEq] at h
      subst h
      have : ((i + 1 : Nat) : Int) * r.dur = i * r.dur + r.dur := by
        rw [Int.natCast_add, Int.add_mul]; simp
      refine ⟨?_, rfl⟩
      show r.beg * n + i * r.dur + r.dur = r.beg * n + ((i + 1 : Nat) : Int) * r.dur
      rw [this]; omega
    | cons v vs =>
      rw [partsFrom, partsFrom, List.getLast?_cons_cons, ← partsFrom] at h
      have := ih (i + 1) h
      rw [this.1]
      refine ⟨?_, this.2⟩
      rw [show i + 1 + (v :: vs).length = i + (w :: v :: vs).length from by simp; omega]

theorem partsFrom_same (r : Ctm) (n i : Nat) (ws : List Text) :
    ∀ p ∈ partsFrom r n i ws, p.file = r.file ∧ p.chan = r.chan ∧ p.conf = r.conf ∧ p.dur = r.dur ∧ p.den = n := by
  induction ws generalizing i with
  | nil => intro p hp; cases hp
  | cons w ws ih =>
    intro p hp
    rcases List.mem_cons.1 hp with rfl | hp
    · exact ⟨rfl, rfl, rfl, rfl, rfl⟩
    · exact ih _ p hp

theorem ctm_tiles_aux (r : Ctm) (ws : List Text) :
    let ps := partsFrom r ws.length 0 ws
    Contiguous ps ∧ (∀ p ∈ ps, p.file = r.file ∧ p.chan = r.chan ∧ p.conf = r.conf ∧ p.dur = r.dur ∧ p.den = ps.length) ∧
      (∀ p, ps.head? = some p → p.beg = r.beg * p.den) ∧ (∀ p, ps.getLast? = some p → p.beg + p.dur = (r.beg + r.dur) * p.den) := by
  have hl : (partsFrom r ws.length 0 ws).length = ws.length := by
    have := congrArg List.length (partsFrom_words r ws.length 0 ws)
    simpa using this
  refine ⟨partsFrom_contig _ _ _ _, fun p hp => ?_, fun p hp => ?_, fun p hp => ?_⟩
  · rw [hl]
    exact partsFrom_same _ _ _ _ p hp
  · cases ws with
    | nil => cases hp
    | cons w ws =>
      simp only [partsFrom, List.head?_cons, Option.some.injEq] at hp
      subst hp
      simp
  · obtain ⟨h1, h2⟩ := partsFrom_last _ _ _ _ hp
    rw [h1, h2, Int.add_mul, Nat.zero_add, Int.mul_comm (ws.length : Int) r.dur]

/-- The records written for one record share its file, channel and confidence and the time from its beginning to its end evenly, without gaps. -/
theorem ctm_tiles {o : Opts} {d d1 : Dict} {r : Ctm} {ps : List Part} (h : ctmLU o d r = some (ps, d1)) :
    Contiguous ps ∧ (∀ p ∈ ps, p.file = r.file ∧ p.chan = r.chan ∧ p.conf = r.conf ∧ p.dur = r.dur ∧ p.den = ps.length) ∧
      (∀ p, ps.head? = some p → p.beg = r.beg * p.den) ∧ (∀ p, ps.getLast? = some p → p.beg + p.dur = (r.beg + r.dur) * p.den) := by
  unfold ctmLU at h
  split at h
  · cases h
  · simp only [Option.some.injEq, Prod.mk.injEq] at h
    rw [← h.1]
    exact ctm_tiles_aux _ _

/-- A word that is neither in parentheses nor a fragment nor in the lexicon's table of expansions: its records have its constituents for words,
or one record has the word itself, in capitals. -/
theorem ctm_words {o : Opts} {d : Dict} {r : Ctm} (hm : 1 ≤ o.min) (hw : IsWord r.word) (hp : r.word.head? ≠ some 40)
    (hn : d.get (r.word.map up) = []) (hf : o.frag = false ∨ r.word.getLast? ≠ some 45) :
    ∃ ps d1, ctmLU o d r = some (ps, d1) ∧
      (Chain (· ∈ d.lex) (if o.inserts then CodeLink else NoLink) o.min d.maxLen (r.word.map up) (ps.map (·.word)) ∨
        ps.map (·.word) = [r.word.map up]) := by
  have hc := up_caps r.word
  have hww := up_word hw
  have hf' : o.frag = false ∨ (r.word.map up).getLast? ≠ some 45 := by
    refine hf.imp id (fun h e => h ?_)
    rw [List.getLast?_map] at e
    obtain ⟨a, ha, e⟩ := Option.map_eq_some_iff.1 e
    rw [ha]
    have : a = 45 := by
      unfold up at e
      split at e
      · omega
      · split at e <;> omega
    rw [this]
  have hnp : isParen (r.word.map up) = false := by
    have : (r.word.map up).head? ≠ some 40 := by
      intro e
      rw [List.head?_map] at e
      obtain ⟨a, ha, e⟩ := Option.map_eq_some_iff.1 e
      apply hp
      rw [ha]
      have : a = 40 := by
        unfold up at e
        split at e
        · omega
        · split at e <;> omega
      rw [this]
    exact isParen_false this
  have hs : ∀ l d1, compLU o d (r.word.map up) = some (l, d1) → ctmLU o d r = some (partsFrom r (split l).length 0 (split l), d1) := by
    intro l d1 h
    simp [ctmLU, stringLU, split_word hww, wordsLU, wordLU, hnp, h, join]
  rcases compLU_expand hm hc hn hf' with ⟨p, ps, h1, h2, _⟩ | ⟨_, h2⟩ <;>
    obtain ⟨⟨l, d1⟩, h3, h4⟩ := Option.map_eq_some_iff.1 h2
  · dsimp only at h4
    refine ⟨_, d1, hs l d1 h3, .inl ?_⟩
    rw [partsFrom_words, h4, split_join (chain_words hm h1 hww).2]
    exact h1
  · dsimp only at h4
    refine ⟨_, d1, hs l d1 h3, .inr ?_⟩
    rw [partsFrom_words, h4, split_word hww]

/-- A record without a word, or with nothing in its parentheses, disappears. -/
theorem ctm_lost (o : Opts) (hm : 1 ≤ o.min) (d : Dict) (r : Ctm) (hd : ∀ w ∈ d.lex, w ≠ []) (hn : d.get [] = []) (h : r.word = [] ∨ r.word = b "()") :
    (ctmLU o d r).map (·.1) = some [] := by
  have key : ∀ e : Text × Dict, compLU o d [] = some e → split e.1 = [] := by
    intro e he
    have hce : (compLU o d []).map (·.1) = some e.1 := by rw [he]; rfl
    have hcaps : Caps [] := fun c hc => by cases hc
    rcases compLU_expand hm hcaps hn (.inr (by simp)) with ⟨p, ps, h1, h2, _⟩ | ⟨_, h2⟩
    · generalize hps : p :: ps = qs at h1
      generalize hw0 : ([] : Text) = w0 at h1
      cases h1 with
      | one w hw => exact absurd hw0.symm (hd _ hw)
      | cons q l s qs hq _ _ _ _ _ =>
        have := List.append_eq_nil_iff.1 hw0.symm
        exact absurd this.1 (hd _ hq)
    · rw [h2] at hce
      rw [← Option.some.inj hce]
      rfl
  rcases h with h | h
  · simp [ctmLU, stringLU, h, show split [] = [] from rfl, wordsLU, join, partsFrom]
  · obtain ⟨s, d1, hs⟩ := compLU_total (d := d) hm (t := []) (fun c hc => by cases hc)
    have e1 : (b "()").map up = [40, 41] := by decide +kernel
    have e2 : split [40, 41] = [[40, 41]] := by decide +kernel
    have e3 : wordLU o d [40, 41] = some ([], d1) := by
      have hk := key _ hs
      unfold wordLU
      simp only [show isParen [40, 41] = true from rfl, if_true, show (List.drop 1 [40, 41]).dropLast = ([] : Text) from rfl, hs,
        show endsDash [] = false from rfl, Bool.not_false, Bool.true_or]
      rw [hk]
      rfl
    simp [ctmLU, stringLU, h, e1, e2, wordsLU, e3, join, show split [] = [] from rfl, partsFrom]

example : (ctmLU {} arbeit ⟨b "f", b "A", 100, 60, b "Arbeitszeit", b "0.9"⟩).map (·.1) =
    some [⟨b "f", b "A", 200, 60, 2, b "ARBEIT", b "0.9"⟩, ⟨b "f", b "A", 260, 60, 2, b "ZEIT", b "0.9"⟩] := by decide +kernel
example : (∀ w ∈ arbeit.lex, w ≠ []) ∧ arbeit.get [] = [] ∧ arbeit.get ((b "Arbeitszeit").map up) = [] := by decide +kernel

/-! ## C281: optionally deletable words -/

/-- A word in parentheses that is no fragment: its constituents are written in parentheses, each. -/
theorem optional_partial {o : Opts} {d : Dict} {w : Text} (hw : IsWord w) (hp : w.head? ≠ some 40) (hf : o.frag = false ∨ w.getLast? ≠ some 45)
    {x : Text} {d1 : Dict} (h : stringLU o d w = some (x, d1)) :
    stringLU o d (40 :: w ++ [41]) = some (join ((split x).map (fun p => 40 :: p ++ [41])), d1) := by
  have hup : ∀ a k : Nat, up a = k → (k = 40 ∨ k = 41 ∨ k = 45) → a = k := by
    intro a k e hk
    unfold up at e
    split at e
    · omega
    · split at e <;> omega
  have hww := up_word hw
  have hnp : isParen (w.map up) = false := by
    have : (w.map up).head? ≠ some 40 := by
      intro e
      rw [List.head?_map] at e
      obtain ⟨a, ha, e⟩ := Option.map_eq_some_iff.1 e
      exact hp (by rw [ha, hup a 40 e (.inl rfl)])
    exact isParen_false this
  have hfr : (!endsDash (w.map up) || !o.frag) = true := by
    rcases hf with hf | hf
    · simp [hf]
    · have : (w.map up).getLast? ≠ some 45 := by
        intro e
        rw [List.getLast?_map] at e
        obtain ⟨a, ha, e⟩ := Option.map_eq_some_iff.1 e
        exact hf (by rw [ha, hup a 45 e (.inr (.inr rfl))])
      simp [endsDash_false this]
  have hpw : IsWord (40 :: w.map up ++ [41]) := by
    refine ⟨by simp, fun c hc => ?_⟩
    simp only [List.cons_append, List.mem_cons, List.mem_append, List.not_mem_nil, or_false] at hc
    rcases hc with rfl | hc | rfl
    · simp [Ws]
    · exact hww.2 c hc
    · simp [Ws]
  have hip : isParen (40 :: w.map up ++ [41]) = true := by
    have : (40 :: w.map up ++ [41]).getLast? = some 41 := List.getLast?_concat
    unfold isParen
    rw [this]
    simp
  have hmap : (40 :: w ++ [41]).map up = 40 :: w.map up ++ [41] := by
    simp [up]
  have hin : ((40 :: w.map up ++ [41]).drop 1).dropLast = w.map up := by simp
  simp only [stringLU, split_word hww, wordsLU, wordLU, hnp, Bool.false_eq_true, if_false] at h
  simp only [stringLU, hmap, split_word hpw, wordsLU, wordLU, hip, if_true, hin, hfr]
  cases hcl : compLU o d (w.map up) with
  | none => rw [hcl] at h; cases h
  | some e =>
    rw [hcl] at h
    simp only [List.append_nil, Option.map_some, Option.some.injEq, Prod.mk.injEq, join] at h
    simp only [List.append_nil, Option.map_some, Option.some.injEq, Prod.mk.injEq]
    exact ⟨by rw [h.1], h.2⟩

/-- An optionally deletable fragment loses its parentheses, and `aq(` and `)` are put around its rest. -/
theorem optional_fragment :
    (stringLU { frag := true } (load [b "Haus", b "Tuer"]) (b "(Haustu-)")).map (·.1) = some (b "HAUS aq(TU-)") ∧
      (stringLU { frag := true } (load [b "Haus", b "Tuer"]) (b "(Tu-)")).map (·.1) = some (b "aq(TU-)") := by decide +kernel

example : (stringLU {} arbeit (b "Arbeitszeit")).map (·.1) = some (b "ARBEIT ZEIT") ∧
    (stringLU {} arbeit (b "(Arbeitszeit)")).map (·.1) = some (b "(ARBEIT) (ZEIT)") := by decide +kernel

/-! ## C282: the order of the lexicon -/

/-- For a word that has no entry of its own, the order of the lexicon makes no difference. -/
theorem order_partial (o : Opts) {ws vs : List Text} (h : ws.Perm vs) {t : Text} (hc : Caps t) (h1 : (load ws).get t = [])
    (h2 : (load vs).get t = []) : (compLU o (load ws) t).map (·.1) = (compLU o (load vs) t).map (·.1) := by
  have hl : ∀ x, x ∈ (load ws).lex ↔ x ∈ (load vs).lex := by
    intro x
    rw [load_lex, load_lex]
    exact ⟨fun ⟨w, a, e⟩ => ⟨w, h.mem_iff.1 a, e⟩, fun ⟨w, a, e⟩ => ⟨w, h.mem_iff.2 a, e⟩⟩
  have hk : (load ws).maxLen = (load vs).maxLen := by
    apply Nat.le_antisymm
    · exact (load_max ws _).2 fun w hw => (load_max vs _).1 (Nat.le_refl _) w (h.mem_iff.1 hw)
    · exact (load_max vs _).2 fun w hw => (load_max ws _).1 (Nat.le_refl _) w (h.mem_iff.2 hw)
  have hs := search_congr (o := o) (o' := o) rfl rfl rfl hl hk t hc
  rw [compLU, compLU]
  simp only [h1, h2, ne_eq, not_true_eq_false, if_false, hs]
  cases search o (load vs) t <;> rfl

/-- A word listed both with and without a hyphen is split or not according to which comes last; and what is split off another word may be split
when the program runs again. -/
theorem order_counts :
    (stringLU {} (load [b "Haus-Tuer", b "Haustuer"]) (b "Haustuer")).map (·.1) = some (b "HAUSTUER") ∧
      (stringLU {} (load [b "Haustuer", b "Haus-Tuer"]) (b "Haustuer")).map (·.1) = some (b "HAUS TUER") ∧
      (stringLU {} (load [b "Haustuer", b "Haus-Tuer"]) (b "Haushaustuer")).map (·.1) = some (b "HAUS HAUSTUER") := by decide +kernel

example : (load [b "Haustuer", b "Haus-Tuer"]).get (b "HAUSHAUSTUER") = [] := by decide +kernel

end Verif.Acomp
