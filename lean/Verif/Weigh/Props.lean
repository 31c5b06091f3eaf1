import Verif.Weigh.Costs
import Verif.Weigh.Loading
import Verif.CtmIn.Props
/-!
# Alignment by times and by word weights
-/
set_option autoImplicit false
namespace Verif.Weigh
open Verif.Text
open Verif.Net (Step Funcs Entry Net Flags Table dpalign linear lefts rights Aligns costOf reported bigEnd)

variable {W : Type}

/-! ### C143, C144: times -/

/-- C143: the time-mediated alignment of two word sequences without null words maximises twice the overlap of the paired words less
one (a millisecond) for every pair of different words.  Times are whole milliseconds; `W` holds the words at hand, none of which
lasts longer than `m`. -/
theorem time_alignment_overlap (F : Funcs W) (t1 t2 : W → Int) (hd : F.dist = wwdTime F.isNull F.equal t1 t2 (fun w => t2 w - t1 w))
    (m : Int) (hm : 1 ≤ m) (hw : ∀ w, t2 w - t1 w ≤ m) (ref hyp : List W) (hb : m * (ref.length + hyp.length : Nat) < bigEnd)
    (hnr : ∀ w ∈ ref, F.isNull w = false) (hnh : ∀ w ∈ hyp, F.isNull w = false)
    (fa fb : Flags) (t0 : Table) (incl : Bool) (hua : fa.Uniform (linear ref)) (hub : fb.Uniform (linear hyp))
    (hr : ref.length < 65534) (hh : hyp.length < 65534) :
    ∃ la lb r s, dpalign F (linear ref) (linear hyp) fa fb t0 incl = some (la, lb, r) ∧
      lefts s = ref ∧ rights s = hyp ∧ r.path = s.flatMap (reported F incl) ∧
      ∀ s', lefts s' = ref → rights s' = hyp → merit F t1 t2 s' ≤ merit F t1 t2 s := by
  obtain ⟨⟨ra, a1⟩, a2, a3, a4⟩ := Net.linear_ok ref
  obtain ⟨⟨rb, b1⟩, b2, b3, b4⟩ := Net.linear_ok hyp
  obtain ⟨la, lb, r, s, h1, ⟨h2, h2'⟩, h3, h4⟩ := Net.network_path_reports_optimum F _ _ ra rb fa fb t0 incl m a1 b1 a2 b2 hua hub
    (by omega) (by omega) (by rw [a4, b4]; exact time_below F t1 t2 hd m hm hw _ hb)
  have hl := (a3 _).1 h2
  have hr' := (b3 _).1 h2'
  refine ⟨la, lb, r, s, h1, hl, hr', h4, ?_⟩
  intro s' hl1 hr1
  have := h3 s' ⟨(a3 _).2 hl1, (b3 _).2 hr1⟩
  rw [time_cost F t1 t2 hd s (by rw [hl]; exact hnr) (by rw [hr']; exact hnh),
    time_cost F t1 t2 hd s' (by rw [hl1]; exact hnr) (by rw [hr1]; exact hnh), hl, hr', hl1, hr1] at this
  omega

/-- C144: whatever the networks, the time-mediated alignment pairs two words that are not null words only if their times overlap, or
touch and the words are equal.  A forgiven optionally deletable word stands beside the empty word. -/
theorem time_pairs_overlap (F : Funcs W) (t1 t2 : W → Int) (hd : F.dist = wwdTime F.isNull F.equal t1 t2 (fun w => t2 w - t1 w))
    (na nb : Net W) (ra rb : Nat → Nat) (fa fb : Flags) (t0 : Table)
    (incl : Bool) (m : Int) (hm : 1 ≤ m) (hw : ∀ w, t2 w - t1 w ≤ m) (hb : m * (na.nArcs + nb.nArcs : Nat) < bigEnd)
    (hwa : na.WF ra) (hwb : nb.WF rb) (hda : na.Words) (hdb : nb.Words)
    (hua : fa.Uniform na) (hub : fb.Uniform nb) (hsa : na.nArcs < 65534) (hsb : nb.nArcs < 65534) :
    ∃ la lb r, dpalign F na nb fa fb t0 incl = some (la, lb, r) ∧
      ∀ p ∈ r.path, ∀ x y, p.a = some x → p.b = some y →
        F.isNull x = true ∨ F.isNull y = true ∨ (F.optDel x = true ∧ y = F.empty) ∨ (F.optDel y = true ∧ x = F.empty) ∨
        0 < overlap t1 t2 x y ∨ (overlap t1 t2 x y = 0 ∧ F.equal x y = true) := by
  obtain ⟨la, lb, r, s, h1, h2, h3, h4⟩ := Net.network_path_reports_optimum F na nb ra rb fa fb t0 incl m hwa hwb hda hdb hua hub
    hsa hsb (time_below F t1 t2 hd m hm hw _ hb)
  refine ⟨la, lb, r, h1, ?_⟩
  intro p hp x y hx hy
  rw [h4] at hp
  obtain ⟨hv1, hv2, hv3, hv4⟩ := Net.reported_verdicts F incl s p hp
  have key : Step.sub x y ∈ s → F.isNull x = true ∨ F.isNull y = true ∨ 0 < overlap t1 t2 x y ∨
      (overlap t1 t2 x y = 0 ∧ F.equal x y = true) := by
    intro hs
    have hle := pair_le F na nb s h2 h3 x y hs
    rw [hd] at hle
    simp only [wwdTime] at hle
    by_cases hnx : F.isNull x = true
    · exact Or.inl hnx
    by_cases hny : F.isNull y = true
    · exact Or.inr (Or.inl hny)
    rw [if_neg hnx, if_neg hny] at hle
    have hmm := minMax_abs (t1 x) (t2 x) (t1 y) (t2 y)
    by_cases he : F.equal x y = true
    · rw [if_pos he] at hle
      unfold overlap
      by_cases h0 : 0 < min (t2 x) (t2 y) - max (t1 x) (t1 y)
      · exact Or.inr (Or.inr (Or.inl h0))
      · exact Or.inr (Or.inr (Or.inr ⟨by omega, he⟩))
    · rw [if_neg he] at hle
      unfold overlap
      exact Or.inr (Or.inr (Or.inl (by omega)))
  have key' : Step.sub x y ∈ s → F.isNull x = true ∨ F.isNull y = true ∨ (F.optDel x = true ∧ y = F.empty) ∨
      (F.optDel y = true ∧ x = F.empty) ∨ 0 < overlap t1 t2 x y ∨ (overlap t1 t2 x y = 0 ∧ F.equal x y = true) := by
    intro hs
    rcases key hs with h | h | h
    · exact Or.inl h
    · exact Or.inr (Or.inl h)
    · exact Or.inr (Or.inr (Or.inr (Or.inr h)))
  cases hev : p.eval with
  | del =>
    obtain ⟨_, _, hb', _⟩ := hv1 hev
    rw [hb'] at hy
    cases hy
  | ins =>
    obtain ⟨_, ha', _⟩ := hv2 hev
    rw [ha'] at hx
    cases hx
  | sub =>
    obtain ⟨x', y', ha', hb', _, hs⟩ := hv3 hev
    rw [ha'] at hx
    rw [hb'] at hy
    cases hx
    cases hy
    exact key' hs
  | corr =>
    rcases hv4 hev with ⟨x', y', ha', hb', _, hs⟩ | ⟨x', ha', hb', ho, _⟩ | ⟨y', ha', hb', ho, _⟩
    · rw [ha'] at hx
      rw [hb'] at hy
      cases hx
      cases hy
      exact key' hs
    · rw [ha'] at hx
      rw [hb'] at hy
      cases hx
      cases hy
      exact Or.inr (Or.inr (Or.inl ⟨ho, rfl⟩))
    · rw [ha'] at hx
      rw [hb'] at hy
      cases hx
      cases hy
      exact Or.inr (Or.inr (Or.inr (Or.inl ⟨ho, rfl⟩)))

/-- Words with times for the examples: number 0 is the null word, 5 the empty word; 1 and 3 are the same word. -/
def exStart : Fin 6 → Int := fun i => [0, 0, 1000, 100, 3000, 0].getD i 0
def exEnd : Fin 6 → Int := fun i => [1000, 1000, 2000, 900, 3500, 0].getD i 0
def exTime : Funcs (Fin 6) :=
  ⟨wwdTime (fun w => w == 0) (fun x y => x == y || (x == 1 && y == 3)) exStart exEnd (fun w => exEnd w - exStart w),
   fun w => w == 0, fun _ => false, fun x y => x == y || (x == 1 && y == 3), 5⟩

/-- The hypotheses of `time_alignment_overlap` hold for two sequences, with the alignment expected. -/
example : (∀ w, exEnd w - exStart w ≤ 1000) ∧ (1000 : Int) * (([1, 2] : List (Fin 6)).length + ([3, 4] : List (Fin 6)).length : Nat) < bigEnd ∧
    (∀ w ∈ ([1, 2] : List (Fin 6)), exTime.isNull w = false) ∧
    (dpalign exTime (linear [1, 2]) (linear [3, 4]) ⟨fun _ => 0, fun _ => false⟩ ⟨fun _ => 0, fun _ => false⟩ (fun _ _ => ⟨7, 7, 7⟩)
      false).map (fun r => r.2.2.path.map fun p => (p.a, p.b, p.eval)) =
    some [(some 1, some 3, .corr), (some 2, none, .del), (none, some 4, .ins)] := by
  refine ⟨?_, ?_, ?_, ?_⟩ <;> decide

/-- The exception for null words in C144 is needed: with times, a null word that is spoken of as long as a word is paired with it and
the pair is reported as a substitution (cf. C23, which holds without times). -/
theorem time_pairs_null_word : ∃ (F : Funcs (Fin 6)) (t1 t2 : Fin 6 → Int),
    F.dist = wwdTime F.isNull F.equal t1 t2 (fun w => t2 w - t1 w) ∧ (∀ w, t2 w - t1 w ≤ 1000) ∧ F.isNull 0 = true ∧ F.isNull 1 = false ∧
    (dpalign F (linear [1]) (linear [0]) ⟨fun _ => 0, fun _ => false⟩ ⟨fun _ => 0, fun _ => false⟩ (fun _ _ => ⟨7, 7, 7⟩) false).map
      (fun r => r.2.2.path.map fun p => (p.a, p.b, p.eval)) = some [(some 1, some 0, .sub)] :=
  ⟨exTime, exStart, exEnd, rfl, by decide, rfl, rfl, by decide⟩

/-! ### C145: word weight lists -/

/-- C145: the list loaded from a weight file and sorted gives every word the weight of one of its lines, and words without a line the
weight of the last default comment (0 without one). -/
theorem loaded_weight (e : Enc) (atof : List Nat → Int) (ls : List (List Nat)) (ws : List (List Nat × Int)) (d : Int) (n : Nat)
    (hs : Says e atof ls ws d n) (key : List Nat) (hk : Valid e key) :
    ∃ t, load e atof ls = .ok t ∧ ∀ sorted : List (List Nat × Int), sorted.Perm t.words → Sorted e { t with words := sorted } →
      ∃ v, getWeight e { t with words := sorted } key = some v ∧ ((key, v) ∈ ws ∨ ((∀ p ∈ ws, p.1 ≠ key) ∧ v = d)) := by
  refine ⟨_, says_load hs, ?_⟩
  intro sorted hp hsort
  obtain ⟨v, h1, h2⟩ := getWeight_ok e key _ hk hsort
  refine ⟨v, h1, ?_⟩
  rcases h2 with h2 | ⟨h2, h3⟩
  · exact Or.inl (hp.mem_iff.1 h2)
  · exact Or.inr ⟨fun p hp' => h2 p (hp.mem_iff.2 hp'), h3⟩

/-- C145: a line with a word and no weight makes loading fail, wherever it stands. -/
theorem missing_weight_fails (e : Enc) (atof : List Nat → Int) (ls more : List (List Nat)) (ws : List (List Nat × Int)) (d : Int) (n : Nat)
    (hs : Says e atof ls ws d n) (l w : List Nat) (hv : Valid e l) (hl : Data l [w]) : load e atof (ls ++ l :: more) = .fail := by
  have hload := says_load hs
  unfold load at hload ⊢
  generalize (⟨[], 0, 0⟩ : Wwl) = t at hload ⊢
  clear hs
  induction ls generalizing t with
  | nil =>
    rw [List.nil_append, loadLines, data_line e atof t l [w] hv hl]
    rfl
  | cons x ls ih =>
    rw [loadLines] at hload
    rw [List.cons_append, loadLines]
    cases hx : loadLine e atof t x with
    | undef => rw [hx] at hload; cases hload
    | fail => rfl
    | ok t1 =>
      rw [hx] at hload
      exact ih t1 hload

/-- C145: the weight of a compound word, its parts joined by equals signs, is the sum of the weights of the parts; a word without an
equals sign is looked up as it is.  Null words and optionally deletable words weigh nothing. -/
theorem word_weight (e : Enc) (t : Wwl) (ht : Sorted e t) (w : Word) (cs : List (List Nat)) (hv : w.value = cs.flatten) (hc : ∀ c ∈ cs, IsChar e c)
    (hlen : 61 ∈ w.value → w.value.length < 100) :
    ∃ v, lookupWeight e t w = some v ∧
      ((w.value = [64] ∨ w.optDel = true) → v = 0) ∧
      (w.value ≠ [64] → w.optDel = false →
        (61 ∉ w.value → Gives t w.value v) ∧
        (61 ∈ w.value → ∃ (parts : List (List (List Nat))) (vs : List Int), Lines.Fields (Lines.IsSep [61]) cs parts ∧
          vs.length = parts.length ∧ v = vs.sum ∧
          ∀ (i : Nat) (p : List (List Nat)) (x : Int), parts[i]? = some p → vs[i]? = some x → Gives t p.flatten x)) := by
  have hval : Valid e w.value := ⟨cs, hv, hc⟩
  have hat : Valid e [64] := by
    refine ⟨[[64]], rfl, ?_⟩
    intro c hc
    have := List.mem_singleton.1 hc
    subst this
    refine ⟨64, [], rfl, Lines.nbytes_ascii e (by decide), ?_⟩
    intro x hx
    have := List.mem_singleton.1 hx
    omega
  obtain ⟨r, hr⟩ := strcmp_defined e w.value [64] hval hat
  unfold lookupWeight
  rw [hr]
  simp only
  by_cases h0 : r = 0
  · rw [if_pos h0]
    rw [h0] at hr
    have := (strcmp_zero_iff e w.value [64] hval hat).1 hr
    exact ⟨0, rfl, fun _ => rfl, fun h => absurd this h⟩
  · rw [if_neg h0]
    have hne : w.value ≠ [64] := by
      intro h
      rw [(strcmp_zero_iff e w.value [64] hval hat).2 h] at hr
      injection hr with hr
      exact h0 hr.symm
    by_cases ho : w.optDel = true
    · rw [if_pos ho]
      exact ⟨0, rfl, fun _ => rfl, fun _ h => by rw [ho] at h; cases h⟩
    · rw [if_neg ho]
      unfold weightWwl
      by_cases hq : 61 ∉ w.value
      · rw [if_pos hq]
        obtain ⟨v, h1, h2⟩ := getWeight_ok e w.value t hval ht
        refine ⟨v, h1, ?_, fun _ _ => ⟨fun _ => h2, fun h => absurd h hq⟩⟩
        rintro (h | h)
        · exact absurd h hne
        · exact absurd h ho
      · have hq' : 61 ∈ w.value := Decidable.not_not.1 hq
        rw [if_neg hq, if_neg (by have := hlen hq'; omega)]
        have hlc : cs.length ≤ w.value.length := by
          rw [hv]
          clear hv hval hlen hq hq' hr hne
          induction cs with
          | nil => simp
          | cons c cs ih =>
            obtain ⟨b, rest, rfl, _⟩ := hc c (by simp)
            have := ih (fun c hc' => hc c (by simp [hc']))
            simp only [List.length_cons, List.flatten_cons, List.length_append]
            omega
        obtain ⟨parts, hp1, hp2⟩ := Lines.strtokAll_spec e [61] (by simp) cs hc none (some w.value) (by simp [hv]) (w.value.length + 1) (by omega)
        rw [hp1]
        simp only
        have hpv : ∀ (qs : List (List (List Nat))) (xs : List (List Nat)), Lines.Fields (Lines.IsSep [61]) xs qs → (∀ c ∈ xs, IsChar e c) →
            ∀ q ∈ qs, Valid e q.flatten := by
          intro qs xs hf
          induction hf with
          | nil => exact fun _ _ hq => (List.not_mem_nil hq).elim
          | skip _ _ ih => exact fun h => ih (fun c hc => h c (by simp [hc]))
          | last _ _ => intro h q hq; have := List.mem_singleton.1 hq; subst this; exact ⟨_, rfl, h⟩
          | tok _ _ _ _ ih =>
            intro h q hq
            rcases List.mem_cons.1 hq with rfl | hq
            · exact ⟨_, rfl, fun c hc => h c (by simp [hc])⟩
            · exact ih (fun c hc => h c (by simp [hc])) q hq
        have hall : ∀ qs : List (List (List Nat)), (∀ q ∈ qs, Valid e q.flatten) → ∃ vs : List Int,
            (qs.map List.flatten).mapM (getWeight e t) = some vs ∧ vs.length = qs.length ∧
            ∀ (i : Nat) (p : List (List Nat)) (x : Int), qs[i]? = some p → vs[i]? = some x → Gives t p.flatten x := by
          intro qs
          induction qs with
          | nil => exact fun _ => ⟨[], rfl, rfl, fun i p x h _ => by simp at h⟩
          | cons q qs ih =>
            intro h
            obtain ⟨vs, h1, h2, h3⟩ := ih (fun q hq => h q (by simp [hq]))
            obtain ⟨v, h4, h5⟩ := getWeight_ok e q.flatten t (h q (by simp)) ht
            refine ⟨v :: vs, by simp [List.mapM_cons, h4, h1], by simp [h2], ?_⟩
            intro i p x hi hx
            cases i with
            | zero => simp at hi hx; subst hi; subst hx; exact h5
            | succ i => simp at hi hx; exact h3 i p x hi hx
        obtain ⟨vs, h1, h2, h3⟩ := hall parts (hpv parts cs hp2 hc)
        rw [h1]
        refine ⟨vs.sum, rfl, ?_, fun _ _ => ⟨fun h => absurd hq' h, fun _ => ⟨parts, vs, hp2, h2, rfl, h3⟩⟩⟩
        rintro (h | h)
        · exact absurd h hne
        · exact absurd h ho

/-- C145: the list `unity` gives 1 to every word. -/
theorem unity_weight (e : Enc) (key : List Nat) (hk : Valid e key) : getWeight e unity key = some 1000 := by
  have hthe : Valid e [116, 104, 101] := by
    refine ⟨[[116], [104], [101]], rfl, ?_⟩
    intro c hc
    simp only [List.mem_cons, List.not_mem_nil, or_false] at hc
    rcases hc with rfl | rfl | rfl
    all_goals
      refine ⟨_, [], rfl, Lines.nbytes_ascii e (by decide), ?_⟩
      intro x hx
      have := List.mem_singleton.1 hx
      omega
  have hs : Sorted e unity := by
    refine ⟨?_, ?_⟩
    · intro p hp
      have := List.mem_singleton.1 hp
      subst this
      exact hthe
    · intro i j x y hij hi hj
      simp only [unity, List.map_cons, List.map_nil] at hi hj
      rw [List.getElem?_eq_none (by simp; omega)] at hj
      cases hj
  obtain ⟨v, h1, h2⟩ := getWeight_ok e key unity hk hs
  rw [h1]
  rcases h2 with h2 | ⟨_, h2⟩
  · have := List.mem_singleton.1 h2
    simp only [Prod.mk.injEq] at this
    rw [this.2]
  · rw [h2]
    rfl

/-- A file with a comment on the columns, a default weight of 5 and two words. -/
def exFile : List (List Nat) :=
  [CtmIn.bytes ";; 'Headings' 'Word Spelling' 'Unit'\n", CtmIn.bytes ";; default MISSING weight '5'\n", CtmIn.bytes "\n",
   CtmIn.bytes "b 2 9\n", CtmIn.bytes " a 1\n"]
/-- The first digit. -/
def exAtof : List Nat → Int := fun s => ((s.headD 48 : Nat) : Int) - 48

example : load .ascii exAtof exFile = .ok ⟨[([98], 2), ([97], 1)], 5, 1⟩ := by decide
example : lookupWeight .ascii ⟨[([97], 1), ([98], 2)], 5, 1⟩ ⟨[97, 61, 98, 61, 61, 99], [], false, false⟩ = some 8 := by decide
example : load .ascii exAtof [CtmIn.bytes "b\n"] = .fail := by decide

/-- The bytes of a line are a text. -/
example : Says .ascii exAtof exFile [([98], 2), ([97], 1)] 5 1 := by
  have hv : ∀ l : List Nat, (∀ x ∈ l, 0 < x ∧ x < 256) → Valid .ascii l := by
    intro l h
    refine ⟨l.map (fun b => [b]), ?_, ?_⟩
    · induction l with
      | nil => rfl
      | cons b l ih => simp only [List.map_cons, List.flatten_cons, List.singleton_append]; rw [← ih (fun x hx => h x (by simp [hx]))]
    · intro c hc
      obtain ⟨b, hb, rfl⟩ := List.mem_map.1 hc
      exact ⟨b, [], rfl, rfl, fun x hx => by have := List.mem_singleton.1 hx; subst this; exact h _ hb⟩
  have s1 : Says .ascii exAtof ([] ++ [CtmIn.bytes ";; 'Headings' 'Word Spelling' 'Unit'\n"]) [] 0 (0 + 1) :=
    Says.heads (k := 1) Says.nil (hv _ (by decide))
      ⟨Or.inr ⟨_, rfl⟩, [59, 59, 32], [32], CtmIn.bytes " 'Unit'\n", by decide, by decide, by decide, by decide⟩ (by decide)
  have no : ∀ l : List Nat, Rfilter.strstr (kwHeadings.map (cCase true)) (l.map (cCase true)) = none → ¬ Mentions kwHeadings l := by
    intro l h hm
    have := Rfilter.strstr_some ((mentions_iff _ _).1 hm)
    rw [h] at this
    cases this
  have s2 := Says.dflt (l := CtmIn.bytes ";; default MISSING weight '5'\n") (q := [53]) s1 (hv _ (by decide))
    ⟨Or.inr ⟨_, rfl⟩, no _ (by decide), ⟨CtmIn.bytes ";; ", CtmIn.bytes "default MISSING weight", CtmIn.bytes " '5'\n", by decide, by decide⟩,
      CtmIn.bytes ";; default MISSING weight ", [10], by decide, by decide, by decide⟩
  have s3 := Says.other (l := CtmIn.bytes "\n") s2 (hv _ (by decide)) (Or.inl (by unfold CtmIn.Blank; decide)) (no _ (by decide))
    (fun q h => by
      obtain ⟨a, b, h, _⟩ := h.2.2.2
      have : 39 ∈ CtmIn.bytes "\n" := by rw [h]; simp
      revert this
      decide)
  have nc : ∀ l : List Nat, isComment l = false → ¬ ∃ r, l = 59 :: 59 :: r := by
    intro l h hc
    rw [(isComment_iff l).2 hc] at h
    cases h
  have s4 := Says.word (l := CtmIn.bytes "b 2 9\n") (w := [98]) (x := [50]) (fs := [[57]]) s3 (hv _ (by decide))
    ⟨CtmIn.Fields.cons [] [98] (CtmIn.bytes " 2 9\n") _ (by unfold CtmIn.Blank; decide) (by decide) (by unfold CtmIn.Blank; decide)
        (by intro b hb; cases hb; exact Or.inl rfl)
      (CtmIn.Fields.cons [32] [50] (CtmIn.bytes " 9\n") _ (by unfold CtmIn.Blank; decide) (by decide) (by unfold CtmIn.Blank; decide)
        (by intro b hb; cases hb; exact Or.inl rfl)
        (CtmIn.Fields.cons [32] [57] [10] _ (by unfold CtmIn.Blank; decide) (by decide) (by unfold CtmIn.Blank; decide)
          (by intro b hb; cases hb; exact Or.inr (by decide)) (CtmIn.Fields.nil [10] (by unfold CtmIn.Blank; decide)))),
     by decide, nc _ (by decide)⟩
  have s5 := Says.word (l := CtmIn.bytes " a 1\n") (w := [97]) (x := [49]) (fs := []) s4 (hv _ (by decide))
    ⟨CtmIn.Fields.cons [32] [97] (CtmIn.bytes " 1\n") _ (by unfold CtmIn.Blank; decide) (by decide) (by unfold CtmIn.Blank; decide)
        (by intro b hb; cases hb; exact Or.inl rfl)
      (CtmIn.Fields.cons [32] [49] [10] _ (by unfold CtmIn.Blank; decide) (by decide) (by unfold CtmIn.Blank; decide)
        (by intro b hb; cases hb; exact Or.inr (by decide)) (CtmIn.Fields.nil [10] (by unfold CtmIn.Blank; decide))),
     by decide, nc _ (by decide)⟩
  exact s5

/-- What C145 leaves out is undefined: a comment with an unpaired quote after the descriptions, eleven descriptions, and a compound word of
100 bytes. -/
theorem weight_file_undefined :
    load .ascii exAtof [CtmIn.bytes ";; 'Headings' 'Word Spelling' 'Unit' it's\n"] = .undef ∧
    load .ascii exAtof [CtmIn.bytes ";; 'Headings' 'Word Spelling' ''''''''''''''''''''''"] = .undef ∧
    lookupWeight .ascii unity ⟨List.replicate 99 97 ++ [61], [], false, false⟩ = none := by decide +kernel

/-! ### C146: weights -/

/-- C146: scoring the weighted alignment of two networks adds to the weights of substituted, inserted and deleted words the least sum
any alignment could be reported with, up to a thousandth for every null word that the other alignment leaves alone.  Weights are
whole thousandths; null words and optionally deletable words weigh nothing. -/
theorem weighted_alignment_minimal (F : Funcs W) (weight : W → Int) (hd : F.dist = wwdWeight F.isNull F.equal weight)
    (h0 : ∀ x, F.isNull x = true ∨ F.optDel x = true → weight x = 0)
    (na nb : Net W) (ra rb : Nat → Nat) (fa fb : Flags) (t0 : Table) (incl : Bool) (m : Int) (hm : 1 ≤ m) (hw : ∀ w, weight w ≤ m)
    (hb : m * (na.nArcs + nb.nArcs : Nat) < bigEnd) (hwa : na.WF ra) (hwb : nb.WF rb) (hda : na.Words) (hdb : nb.Words)
    (hua : fa.Uniform na) (hub : fb.Uniform nb) (hsa : na.nArcs < 65534) (hsb : nb.nArcs < 65534) (g : Score.Grp W) :
    ∃ la lb r s g', dpalign F na nb fa fb t0 incl = some (la, lb, r) ∧ Aligns na nb s ∧ r.path = s.flatMap (reported F incl) ∧
      scorePath weight g r.path = some g' ∧
      g'.wSub = g.wSub + errWeight weight (r.path.filter fun p => p.eval = .sub) ∧
      g'.wIns = g.wIns + errWeight weight (r.path.filter fun p => p.eval = .ins) ∧
      g'.wDel = g.wDel + errWeight weight (r.path.filter fun p => p.eval = .del) ∧
      g'.wSub + g'.wIns + g'.wDel = g.wSub + g.wIns + g.wDel + errWeight weight r.path ∧
      ∀ s', Aligns na nb s' → errWeight weight r.path + nullsAlone F s ≤ errWeight weight (s'.flatMap (reported F incl)) + nullsAlone F s' := by
  obtain ⟨la, lb, r, s, h1, h2, h3, h4⟩ := Net.network_path_reports_optimum F na nb ra rb fa fb t0 incl m hwa hwb hda hdb hua hub
    hsa hsb (weight_below F weight hd m hm hw _ hb)
  obtain ⟨es, hes⟩ := mapM_some asScore r.path (by
    intro p hp
    rw [h4] at hp
    exact report_scores F incl s p hp)
  refine ⟨la, lb, r, s, { (es.foldl (Score.addEntry weight) (g, 0)).1 with
      nsent := (es.foldl (Score.addEntry weight) (g, 0)).1.nsent + 1,
      serr := if (es.foldl (Score.addEntry weight) (g, 0)).2 > 0 then (es.foldl (Score.addEntry weight) (g, 0)).1.serr + 1
        else (es.foldl (Score.addEntry weight) (g, 0)).1.serr }, h1, h2, h4, by unfold scorePath; rw [hes]; rfl, (score_fold weight r.path es (g, 0) hes).1,
    (score_fold weight r.path es (g, 0) hes).2.1, (score_fold weight r.path es (g, 0) hes).2.2, ?_, ?_⟩
  · obtain ⟨f1, f2, f3⟩ := score_fold weight r.path es (g, 0) hes
    have := err_split weight r.path
    show (es.foldl (Score.addEntry weight) (g, 0)).1.wSub + (es.foldl (Score.addEntry weight) (g, 0)).1.wIns +
      (es.foldl (Score.addEntry weight) (g, 0)).1.wDel = _
    rw [f1, f2, f3]
    simp only
    omega
  intro s' hs'
  have := h3 s' hs'
  rw [weight_cost F weight hd h0 incl s, weight_cost F weight hd h0 incl s'] at this
  rw [h4]
  exact this

/-- C146: without null words the sum is the least possible. -/
theorem weighted_alignment_minimal_plain (F : Funcs W) (weight : W → Int) (hd : F.dist = wwdWeight F.isNull F.equal weight)
    (h0 : ∀ x, F.optDel x = true → weight x = 0) (hnull : ∀ x, F.isNull x = false)
    (na nb : Net W) (ra rb : Nat → Nat) (fa fb : Flags) (t0 : Table) (incl : Bool) (m : Int) (hm : 1 ≤ m) (hw : ∀ w, weight w ≤ m)
    (hb : m * (na.nArcs + nb.nArcs : Nat) < bigEnd) (hwa : na.WF ra) (hwb : nb.WF rb) (hda : na.Words) (hdb : nb.Words)
    (hua : fa.Uniform na) (hub : fb.Uniform nb) (hsa : na.nArcs < 65534) (hsb : nb.nArcs < 65534) :
    ∃ la lb r, dpalign F na nb fa fb t0 incl = some (la, lb, r) ∧
      ∀ s', Aligns na nb s' → errWeight weight r.path ≤ errWeight weight (s'.flatMap (reported F incl)) := by
  obtain ⟨la, lb, r, s, _, h1, _, _, _, _, _, _, _, h6⟩ := weighted_alignment_minimal F weight hd
    (fun x h => by rcases h with h | h; rw [hnull x] at h; cases h; exact h0 x h)
    na nb ra rb fa fb t0 incl m hm hw hb hwa hwb hda hdb hua hub hsa hsb ⟨[], 0, 0, 0, 0, 0, 0, 0, 0, 0, 0, 0, 0, []⟩
  refine ⟨la, lb, r, h1, ?_⟩
  intro s' hs'
  have := h6 s' hs'
  have hz : ∀ s : List (Step W), nullsAlone F s = 0 := by
    intro s
    unfold nullsAlone
    rw [List.countP_eq_zero]
    intro st _
    cases st <;> simp [hnull]
  rw [hz, hz] at this
  omega

/-- Words with weights: number 0 is the null word, 4 weighs nothing and can be left out. -/
def exWeight : Fin 6 → Int := fun i => [0, 1000, 5000, 200, 0, 0].getD i 0
def exWeighted : Funcs (Fin 6) :=
  ⟨wwdWeight (fun w => w == 0) (fun x y => x == y) exWeight, fun w => w == 0, fun w => w == 4, fun x y => x == y, 5⟩

example : (∀ x, exWeighted.isNull x = true ∨ exWeighted.optDel x = true → exWeight x = 0) ∧ (∀ w, exWeight w ≤ 5000) ∧
    (dpalign exWeighted (linear [1, 2, 4]) (linear [2, 3]) ⟨fun _ => 0, fun _ => false⟩ ⟨fun _ => 0, fun _ => false⟩ (fun _ _ => ⟨7, 7, 7⟩)
      false).map (fun r => (r.2.2.path.map fun p => (p.a, p.b, p.eval), errWeight exWeight r.2.2.path)) =
    some ([(some 1, none, .del), (some 2, some 2, .corr), (some 4, some 3, .sub)], 1200) := by
  refine ⟨?_, ?_, ?_⟩ <;> decide

/-- With weights a word is paired with a null word and reported as a substitution (cf. C23). -/
theorem weights_pair_null_word :
    exWeighted.dist = wwdWeight exWeighted.isNull exWeighted.equal exWeight ∧ exWeighted.isNull 0 = true ∧ exWeighted.isNull 1 = false ∧
    (dpalign exWeighted (linear [1]) (linear [0]) ⟨fun _ => 0, fun _ => false⟩ ⟨fun _ => 0, fun _ => false⟩ (fun _ _ => ⟨7, 7, 7⟩) false).map
      (fun r => r.2.2.path.map fun p => (p.a, p.b, p.eval)) = some [(some 1, some 0, .sub)] :=
  ⟨rfl, rfl, rfl, by decide⟩

/-! ### C147: rover's costs -/

/-- C147: with rover's costs an alignment pairs a synchronisation tag only with a word of the same text, whatever the networks.  For networks
with fewer than 3333 arcs together (costs are counted in hundred thousandths here, so the built-in limits are met earlier than in the
code). -/
theorem sync_tags_paired_alike (F : Funcs W) (sync : W → Bool) (same : W → W → Bool)
    (hd : F.dist = wwdRover F.isNull F.optDel sync F.equal same)
    (na nb : Net W) (ra rb : Nat → Nat) (fa fb : Flags) (t0 : Table) (incl : Bool) (hsize : na.nArcs + nb.nArcs < 3333)
    (hwa : na.WF ra) (hwb : nb.WF rb) (hda : na.Words) (hdb : nb.Words) (hua : fa.Uniform na) (hub : fb.Uniform nb) :
    ∃ la lb r, dpalign F na nb fa fb t0 incl = some (la, lb, r) ∧
      ∀ p ∈ r.path, ∀ x y, p.a = some x → p.b = some y → sync x = true ∨ sync y = true →
        same x y = true ∨ (F.optDel x = true ∧ y = F.empty) ∨ (F.optDel y = true ∧ x = F.empty) := by
  obtain ⟨la, lb, r, s, h1, h2, h3, h4⟩ := Net.network_path_reports_optimum F na nb ra rb fa fb t0 incl 300000 hwa hwb hda hdb hua hub
    (by omega) (by omega) (rover_below F sync same hd _ hsize)
  refine ⟨la, lb, r, h1, ?_⟩
  intro p hp x y hx hy hsy
  rw [h4] at hp
  obtain ⟨hv1, hv2, hv3, hv4⟩ := Net.reported_verdicts F incl s p hp
  have key : Step.sub x y ∈ s → same x y = true := by
    intro hs
    have hle := pair_le F na nb s h2 h3 x y hs
    have hb := (rover_below F sync same hd 0 (by decide)).2.1
    have b1 := (hb (some x)).1
    have b2 := (hb (some y)).2
    by_cases hsm : same x y = true
    · exact hsm
    · exfalso
      have hor : (sync x || sync y) = true := by
        rcases hsy with h | h <;> simp [h]
      have : F.dist (some x) (some y) = 2000000 := by
        rw [hd]
        simp only [wwdRover, hor, Bool.true_and, if_neg hsm]
        rfl
      omega
  cases hev : p.eval with
  | del =>
    obtain ⟨_, _, hb', _⟩ := hv1 hev
    rw [hb'] at hy
    cases hy
  | ins =>
    obtain ⟨_, ha', _⟩ := hv2 hev
    rw [ha'] at hx
    cases hx
  | sub =>
    obtain ⟨x', y', ha', hb', _, hs⟩ := hv3 hev
    rw [ha'] at hx
    rw [hb'] at hy
    cases hx
    cases hy
    exact Or.inl (key hs)
  | corr =>
    rcases hv4 hev with ⟨x', y', ha', hb', _, hs⟩ | ⟨x', ha', hb', ho, _⟩ | ⟨y', ha', hb', ho, _⟩
    · rw [ha'] at hx
      rw [hb'] at hy
      cases hx
      cases hy
      exact Or.inl (key hs)
    · rw [ha'] at hx
      rw [hb'] at hy
      cases hx
      cases hy
      exact Or.inr (Or.inl ⟨ho, rfl⟩)
    · rw [ha'] at hx
      rw [hb'] at hy
      cases hx
      cases hy
      exact Or.inr (Or.inr ⟨ho, rfl⟩)

/-- C147: leaving out a tag is all but free, and two tags of the same text are worth more than a match: with one tag in both sequences the
tags are paired although this leaves all other words unpaired. -/
example : (dpalign (⟨wwdRover (fun _ => false) (fun _ => false) (fun w => w == 9) (fun x y => x == y) (fun x y => x == y), fun _ => false,
      fun _ => false, fun x y => x == y, 99⟩ : Funcs Nat) (linear [9, 1]) (linear [2, 9])
    ⟨fun _ => 0, fun _ => false⟩ ⟨fun _ => 0, fun _ => false⟩ (fun _ _ => ⟨7, 7, 7⟩) false).map
      (fun r => r.2.2.path.map fun p => (p.a, p.b, p.eval)) =
    some [(none, some 2, .ins), (some 9, some 9, .corr), (some 1, none, .del)] := by decide

end Verif.Weigh
