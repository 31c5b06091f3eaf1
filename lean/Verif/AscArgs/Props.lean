import Verif.AscArgs.Lemmas
/-!
# Properties of the command line of asclite
-/
set_option autoImplicit false
namespace Verif.AscArgs

open Classical in
/-- `"true"` or `"false"`, as a proposition holds. -/
noncomputable def yesNo (p : Prop) : Str := if p then "true".toList else "false".toList

theorem tf_yesNo {b : Bool} {p : Prop} (h : b = true ↔ p) : tf b = yesNo p := by
  unfold yesNo tf
  rcases Classical.em p with hp | hp
  · rw [if_pos hp, h.2 hp]; rfl
  · rw [if_neg hp]
    have : b = false := by
      cases b
      · rfl
      · exact absurd (h.1 rfl) hp
    rw [this]; rfl

theorem scorable_iff (hyp ref : Str) : scorable hyp ref = true ↔ Scorable hyp ref := by
  simp [scorable, Scorable, Bool.or_eq_true, Bool.and_eq_true, Prod.ext_iff, or_assoc]

theorem not_generic (atoi : Str → Int) (items : List Item) (h : ¬ given "-generic-cost".toList items) :
    (items.foldl (effect atoi) start).has "-generic-cost" = false :=
  Bool.eq_false_iff.2 (fun e => h ((fold_has atoi "-generic-cost" (by decide) items).1 e))

/-- When a command line of documented options is accepted. -/
theorem finish_accept (atoi : Str → Int) (items : List Item) (h : ¬ given "-generic-cost".toList items) (ha : Accept items) :
    finish true (items.foldl (effect atoi) start) =
      .run { props := setProps (items.foldl (effect atoi) start) (!(items.foldl (effect atoi) start).has "-noisg")
               (items.foldl (effect atoi) start).overlap (items.foldl (effect atoi) start).uem (items.foldl (effect atoi) start).optional,
             ref := refGiven items, hyps := hypsGiven items, uemFile := ((items.foldl (effect atoi) start).uem.map (·.1)).getD [],
             spkrFile := (items.foldl (effect atoi) start).val "-spkr-align" "",
             filters := filters (items.foldl (effect atoi) start) (!(items.foldl (effect atoi) start).has "-noisg")
               (items.foldl (effect atoi) start).overlap (items.foldl (effect atoi) start).uem,
             output := if (reportsGiven items).isEmpty then ["sum".toList, "stdout".toList] else reportsGiven items,
             feedback := (items.foldl (effect atoi) start).feedback } := by
  have hgen := not_generic atoi items h
  have hr := fold_ref atoi items
  have hh := fold_hyps atoi items start
  have ho := fold_output atoi items start
  have ht := fold_has atoi "-time-base-cost" (by decide) items
  generalize items.foldl (effect atoi) start = s at hgen hr hh ho ht ⊢
  rw [show start.hyps = [] from rfl, List.nil_append] at hh
  rw [show start.output = [] from rfl, List.nil_append] at ho
  obtain ⟨ref, e, hne, hs, htb⟩ := ha
  have hall : s.hyps.all (fun x => scorable x.fmt ((s.ref.map (·.2)).getD [])) = true := by
    rw [List.all_eq_true, hh, hr, e]
    intro x hx
    exact (scorable_iff _ _).2 (hs x hx)
  have htime : ¬ (s.has "-time-base-cost" = true ∧ ((s.hyps.head?.map (·.fmt)) = some "trn".toList ∨
      (s.ref.map (·.2)).getD [] = "trn".toList ∨ (s.ref.map (·.2)).getD [] = "stm".toList)) := by
    rintro ⟨h1, h2⟩
    have h3 := htb (ht.1 h1)
    rw [hr, e] at h2
    have h4 : ref.2 = "rttm".toList := h3
    have h5 : (Option.map (fun x : Str × Str => x.2) (some ref)).getD [] = "rttm".toList := h4
    rw [h5] at h2
    rcases h2 with h2 | h2 | h2
    · rw [hh] at h2
      cases hc : hypsGiven items with
      | nil => exact hne hc
      | cons x l =>
        rw [hc] at h2
        have h6 : x.fmt = "trn".toList := by simpa using h2
        have h7 := hs x (by rw [hc]; exact List.mem_cons_self)
        rw [h6, h4] at h7
        exact absurd h7 (by unfold Scorable; decide)
    · exact absurd h2 (by decide)
    · exact absurd h2 (by decide)
  unfold finish
  dsimp only
  rw [if_pos hgen, if_neg (by rintro ⟨_, h2⟩; rw [hh] at h2; exact hne h2),
    if_pos ⟨rfl, by rw [hr, e]; rfl, by rw [hh]; exact hne, htime, hall⟩, hr, hh, ho]

/-- C187: without the generic cost model, a command line of documented options is carried out exactly if it names a reference and a
hypothesis in formats that can be scored together. -/
theorem accepted_iff (atoi : Str → Int) (items : List Item) (hg : ∀ i ∈ items, i.Good atoi) (hne : items ≠ [])
    (h : ¬ given "-generic-cost".toList items) : (∃ s, main' atoi (cmd items) = .run s) ↔ Accept items := by
  rw [main_items atoi items hg hne]
  constructor
  · rintro ⟨x, hx⟩
    have hgen := not_generic atoi items h
    have hr := fold_ref atoi items
    have hh := fold_hyps atoi items start
    have ht := fold_has atoi "-time-base-cost" (by decide) items
    generalize items.foldl (effect atoi) start = s at hgen hr hh ht hx
    rw [show start.hyps = [] from rfl, List.nil_append] at hh
    unfold finish at hx
    dsimp only at hx
    rw [if_pos hgen] at hx
    split at hx
    · cases hx
    · split at hx
      · rename_i hc
        obtain ⟨_, h1, h2, h3, h4⟩ := hc
        rw [hr] at h1
        obtain ⟨ref, e⟩ := Option.isSome_iff_exists.1 h1
        rw [hh] at h2
        have e2 : (Option.map (fun x : Str × Str => x.2) s.ref).getD [] = ref.2 := by rw [hr, e]; rfl
        rw [e2] at h3 h4
        rw [hh, List.all_eq_true] at h4
        have hs : ∀ y ∈ hypsGiven items, Scorable y.fmt ref.2 := fun y hy => (scorable_iff _ _).1 (h4 y hy)
        refine ⟨ref, e, h2, hs, fun htb => ?_⟩
        cases hc : hypsGiven items with
        | nil => exact absurd hc h2
        | cons y l =>
          have := hs y (by rw [hc]; exact List.mem_cons_self)
          have h5 := fun h6 => h3 ⟨ht.2 htb, h6⟩
          simp only [Scorable, List.mem_cons, Prod.ext_iff, List.not_mem_nil, or_false] at this
          rcases this with ⟨_, h⟩ | ⟨_, h⟩ | ⟨_, h⟩ | ⟨_, h⟩
          · exact absurd (Or.inr (Or.inl h)) h5
          · exact absurd (Or.inr (Or.inr h)) h5
          · exact absurd (Or.inr (Or.inr h)) h5
          · exact h
      · cases hx
  · intro ha
    exact ⟨_, finish_accept atoi items h ha⟩

/-- What `getProp` finds when no property is set by name. -/
theorem getProp_flag (s : St) (isg : Bool) (ov : Option Str) (uem : Option (Str × Str)) (opt : Str) (hp : s.props = []) :
    (∀ x ∈ flagTable, getProp (setProps s isg ov uem opt) x.2 = tf (decide (x.1 ∈ s.flags))) ∧
    (∀ x ∈ valueTable, getProp (setProps s isg ov uem opt) x.2.1 = (s.vals.lookup x.1).getD x.2.2) ∧
    (∀ x ∈ switchTable, getProp (setProps s isg ov uem opt) x.2 = tf (s.vals.lookup x.1).isSome) ∧
    getProp (setProps s isg ov uem opt) "align.optionally".toList = opt ∧
    getProp (setProps s isg ov uem opt) "report.outputdir".toList = s.outDir ∧
    getProp (setProps s isg ov uem opt) "threads.number".toList = s.threads ∧
    getProp (setProps s isg ov uem opt) "align.typecost".toList = (if s.has "-time-base-cost" then "2".toList else "1".toList) ∧
    getProp (setProps s isg ov uem opt) "filter.spkrmap".toList = "false".toList ∧
    getProp (setProps s isg ov uem opt) "recording.maxnbofgb".toList = s.val "-memory-limit" "1" ∧
    getProp (setProps s isg ov uem opt) "align.memorycompression".toList = tf (isSet s "-memory-compression".toList) ∧
    getProp (setProps s isg ov uem opt) "filter.uem.isg".toList =
      (if (s.ref.map (·.2)) = some "trn".toList then "false".toList else tf isg) := by
  unfold setProps
  rw [hp]
  refine ⟨?_, ?_, ?_, rfl, rfl, rfl, rfl, rfl, rfl, rfl, rfl⟩
  · intro x hx
    simp only [flagTable, List.mem_cons, List.not_mem_nil, or_false] at hx
    rcases hx with rfl | rfl | rfl | rfl | rfl | rfl <;> rfl
  · intro x hx
    simp only [valueTable, List.mem_cons, List.not_mem_nil, or_false] at hx
    rcases hx with rfl | rfl | rfl | rfl | rfl | rfl | rfl | rfl | rfl <;> rfl
  · intro x hx
    simp only [switchTable, List.mem_cons, List.not_mem_nil, or_false] at hx
    rcases hx with rfl | rfl | rfl | rfl | rfl | rfl <;> rfl

/-- The side last given to `-D`. -/
def optionalGiven (items : List Item) : Option Str :=
  lastOf (fun i => match i with | .optional side => some (side.getD "both".toList) | _ => none) items

/-- The directory last given. -/
def dirGiven (items : List Item) : Option Str := lastOf (fun i => match i with | .outDir v => some v | _ => none) items

/-- The number of threads last given. -/
def threadsGiven (items : List Item) : Option Str := lastOf (fun i => match i with | .threads v => some v | _ => none) items

/-- The level of feedback last given. -/
def feedbackGiven (atoi : Str → Int) (items : List Item) : Option Int :=
  lastOf (fun i => match i with | .feedback v => some (atoi v) | _ => none) items

/-- The UEM file last given and its side. -/
def uemGiven (items : List Item) : Option (Str × Str) :=
  lastOf (fun i => match i with | .uem f side => some (f, side.getD "both".toList) | _ => none) items

/-- The side last given to `-spkrautooverlap`. -/
def overlapGiven (items : List Item) : Option Str :=
  lastOf (fun i => match i with | .overlap side => some (side.getD "both".toList) | _ => none) items

theorem fold_uem (atoi : Str → Int) (items : List Item) : (items.foldl (effect atoi) start).uem = uemGiven items := by
  rw [fold_lastO atoi (·.uem) (fun i => match i with | .uem f side => some (f, side.getD "both".toList) | _ => none)]
  · exact Option.or_none
  · intro s i
    cases i <;> first | rfl | exact effect_flag_field atoi (·.uem) (fun _ _ => rfl) s _

theorem fold_overlap (atoi : Str → Int) (items : List Item) : (items.foldl (effect atoi) start).overlap = overlapGiven items := by
  rw [fold_lastO atoi (·.overlap) (fun i => match i with | .overlap side => some (side.getD "both".toList) | _ => none)]
  · exact Option.or_none
  · intro s i
    cases i <;> first | rfl | exact effect_flag_field atoi (·.overlap) (fun _ _ => rfl) s _

theorem fold_optional (atoi : Str → Int) (items : List Item) :
    (items.foldl (effect atoi) start).optional = (optionalGiven items).getD "none".toList := by
  rw [fold_last atoi (·.optional) (fun i => match i with | .optional side => some (side.getD "both".toList) | _ => none)]
  · rfl
  · intro s i
    cases i <;> first | rfl | exact effect_flag_field atoi (·.optional) (fun _ _ => rfl) s _

theorem fold_dir (atoi : Str → Int) (items : List Item) : (items.foldl (effect atoi) start).outDir = (dirGiven items).getD [] := by
  rw [fold_last atoi (·.outDir) (fun i => match i with | .outDir v => some v | _ => none)]
  · rfl
  · intro s i
    cases i <;> first | rfl | exact effect_flag_field atoi (·.outDir) (fun _ _ => rfl) s _

theorem fold_threads (atoi : Str → Int) (items : List Item) :
    (items.foldl (effect atoi) start).threads = (threadsGiven items).getD "1".toList := by
  rw [fold_last atoi (·.threads) (fun i => match i with | .threads v => some v | _ => none)]
  · rfl
  · intro s i
    cases i <;> first | rfl | exact effect_flag_field atoi (·.threads) (fun _ _ => rfl) s _

theorem fold_feedback (atoi : Str → Int) (items : List Item) :
    (items.foldl (effect atoi) start).feedback = (feedbackGiven atoi items).getD 4 := by
  rw [fold_last atoi (·.feedback) (fun i => match i with | .feedback v => some (atoi v) | _ => none)]
  · rfl
  · intro s i
    cases i <;> first | rfl | exact effect_flag_field atoi (·.feedback) (fun _ _ => rfl) s _

/-- C185: without the generic cost model, the documented options of an accepted command line have the effects that the help text
describes; the last one counts where one is given more than once.
Missing: `-spkrmap` and `-l` have no effect (`spkrmap_no_effect`, `width_no_effect`), the memory limit without the option is 1 and not
the 2.0 of the help text (`memory_limit_default`), and a title is only read after a format (`title_without_format`). -/
theorem options_partial (atoi : Str → Int) (items : List Item) (hg : ∀ i ∈ items, i.Good atoi) (hne : items ≠ [])
    (h : ¬ given "-generic-cost".toList items) (ha : Accept items) :
    ∃ s, main' atoi (cmd items) = .run s ∧
      s.ref = refGiven items ∧ s.hyps = hypsGiven items ∧
      (∀ x ∈ flagTable, getProp s.props x.2 = yesNo (given x.1 items)) ∧
      (∀ x ∈ valueTable, getProp s.props x.2.1 = (lastValue x.1 items).getD x.2.2) ∧
      (∀ x ∈ switchTable, getProp s.props x.2 = yesNo (∃ v, lastValue x.1 items = some v)) ∧
      (∀ v, lastValue "-memory-limit".toList items = some v → getProp s.props "recording.maxnbofgb".toList = v) ∧
      getProp s.props "align.memorycompression".toList =
        yesNo ((∃ v, lastValue "-memory-compression".toList items = some v) ∨ given "-force-memory-compression".toList items) ∧
      (getProp s.props "align.typecost".toList = "1".toList ∨ getProp s.props "align.typecost".toList = "2".toList) ∧
      (getProp s.props "align.typecost".toList = "2".toList ↔ given "-time-base-cost".toList items) ∧
      getProp s.props "align.optionally".toList = (optionalGiven items).getD "none".toList ∧
      getProp s.props "report.outputdir".toList = (dirGiven items).getD [] ∧
      getProp s.props "threads.number".toList = (threadsGiven items).getD "1".toList ∧
      s.spkrFile = (lastValue "-spkr-align".toList items).getD [] ∧
      s.uemFile = ((uemGiven items).map (·.1)).getD [] ∧
      (getProp s.props "filter.uem.isg".toList = "true".toList ↔
        (∃ ref, refGiven items = some ref ∧ ref.2 ≠ "trn".toList) ∧ ¬ given "-noisg".toList items) ∧
      ("filter.spkrautooverlap".toList ∈ s.filters ↔ ∃ o, overlapGiven items = some o) ∧
      ("filter.uem".toList ∈ s.filters ↔ (∃ ref, refGiven items = some ref ∧ ref.2 ≠ "trn".toList) ∧
        ((∃ u, uemGiven items = some u) ∨ ¬ given "-noisg".toList items)) ∧
      s.output = (if reportsGiven items = [] then ["sum".toList, "stdout".toList] else reportsGiven items) ∧
      s.feedback = (feedbackGiven atoi items).getD 4 := by
  rw [main_items atoi items hg hne]
  refine ⟨_, finish_accept atoi items h ha, rfl, rfl, ?_⟩
  have hp := fold_props atoi items
  have hflag := fun n hn => fold_flags atoi n hn items start
  have hhas := fun n hn => fold_has atoi n hn items
  have hval := fun n => fold_val atoi n items
  have hr := fold_ref atoi items
  have h1 := fold_uem atoi items
  have h2 := fold_overlap atoi items
  have h3 := fold_optional atoi items
  have h4 := fold_dir atoi items
  have h5 := fold_threads atoi items
  have h6 := fold_feedback atoi items
  generalize items.foldl (effect atoi) start = s at hp hflag hhas hval hr h1 h2 h3 h4 h5 h6 ⊢
  obtain ⟨g1, g2, g3, g4, g5, g6, g7, -, g9, g10, g11⟩ := getProp_flag s (!s.has "-noisg") s.overlap s.uem s.optional hp
  obtain ⟨ref, eref, -⟩ := ha
  have htb := hhas "-time-base-cost" (by decide)
  have hisg := hhas "-noisg" (by decide)
  have hforce := hflag "-force-memory-compression".toList (by decide)
  have hreft : (s.ref.map (·.2)) = some "trn".toList ↔ ref.2 = "trn".toList := by rw [hr, eref]; simp
  have hrefn : (∃ r, refGiven items = some r ∧ r.2 ≠ "trn".toList) ↔ ref.2 ≠ "trn".toList := by
    rw [eref]
    constructor
    · rintro ⟨r, e, h⟩; cases e; exact h
    · intro h; exact ⟨ref, rfl, h⟩
  refine ⟨?_, ?_, ?_, ?_, ?_, ?_, ?_, ?_, ?_, ?_, ?_, ?_, ?_, ?_, ?_, ?_, ?_⟩
  · intro x hx
    refine (g1 x hx).trans (tf_yesNo ?_)
    have hn : x.1 ≠ "-spkrmap".toList := by revert x; decide
    rw [decide_eq_true_iff, hflag x.1 hn]
    simp [start]
  · intro x hx
    refine (g2 x hx).trans ?_
    rw [hval]
  · intro x hx
    refine (g3 x hx).trans (tf_yesNo ?_)
    rw [hval, Option.isSome_iff_exists]
  · intro v hv
    refine g9.trans ?_
    unfold St.val
    rw [hval, hv]
    rfl
  · refine g10.trans (tf_yesNo ?_)
    unfold isSet
    rw [hval, Bool.or_eq_true, Option.isSome_iff_exists, Bool.and_eq_true, decide_eq_true_iff, decide_eq_true_iff, hforce]
    simp [start]
  · show getProp (setProps s (!s.has "-noisg") s.overlap s.uem s.optional) _ = _ ∨
      getProp (setProps s (!s.has "-noisg") s.overlap s.uem s.optional) _ = _
    rw [g7]
    cases s.has "-time-base-cost" <;> decide
  · show getProp (setProps s (!s.has "-noisg") s.overlap s.uem s.optional) _ = _ ↔ _
    rw [g7, ← htb]
    cases s.has "-time-base-cost" <;> decide
  · exact g4.trans h3
  · exact g5.trans h4
  · exact g6.trans h5
  · show (s.vals.lookup "-spkr-align".toList).getD _ = _
    rw [hval]; rfl
  · show (s.uem.map (·.1)).getD [] = _
    rw [h1]
  · show getProp (setProps s (!s.has "-noisg") s.overlap s.uem s.optional) _ = _ ↔ _
    rw [g11, hrefn, ← hisg]
    rcases Decidable.em (ref.2 = "trn".toList) with e | e
    · rw [if_pos (hreft.2 e)]
      exact ⟨fun x => absurd x (by decide), fun x => absurd e x.1⟩
    · rw [if_neg (fun x => e (hreft.1 x))]
      cases s.has "-noisg"
      · exact ⟨fun _ => ⟨e, by decide⟩, fun _ => rfl⟩
      · exact ⟨fun x => absurd x (by decide), fun x => absurd rfl x.2⟩
  · show _ ∈ filters s (!s.has "-noisg") s.overlap s.uem ↔ _
    unfold filters
    rw [h2, List.mem_append]
    constructor
    · rintro (x | x)
      · cases ho : overlapGiven items with
        | none => rw [ho] at x; cases x
        | some o => exact ⟨o, rfl⟩
      · split at x
        · cases x
        · split at x
          · exact absurd x (by decide)
          · cases x
    · rintro ⟨o, ho⟩
      rw [ho]
      exact Or.inl (List.mem_singleton.2 rfl)
  · show _ ∈ filters s (!s.has "-noisg") s.overlap s.uem ↔ _
    unfold filters
    rw [h1, List.mem_append, hrefn, ← hisg]
    constructor
    · rintro (x | x)
      · split at x
        · exact absurd x (by decide)
        · cases x
      · split at x
        · cases x
        · rename_i hne
          refine ⟨fun e => hne (hreft.2 e), ?_⟩
          split at x
          · rename_i hc
            rw [Bool.or_eq_true, Option.isSome_iff_exists] at hc
            rcases hc with hc | hc
            · exact Or.inl hc
            · exact Or.inr (by intro e; rw [e] at hc; cases hc)
          · cases x
    · rintro ⟨e, hc⟩
      refine Or.inr ?_
      rw [if_neg (fun x => e (hreft.1 x)), if_pos]
      · exact List.mem_singleton.2 rfl
      · rw [Bool.or_eq_true, Option.isSome_iff_exists]
        rcases hc with hc | hc
        · exact Or.inl hc
        · refine Or.inr ?_
          cases hb : s.has "-noisg"
          · rfl
          · exact absurd hb hc
  · show (if (reportsGiven items).isEmpty then _ else _) = _
    cases reportsGiven items <;> rfl
  · exact h6

/-- A command line for the examples: `-r a.stm stm -h b.ctm ctm sys -i wsj -s -D hyp -o sum sgml -noisg`. -/
def sample : List Item := [.ref "a.stm".toList (some "stm".toList), .hyp "b.ctm".toList (some "ctm".toList) (some "sys".toList),
  .value "-overlap-limit".toList "2".toList, .flag "-s".toList, .optional (some "hyp".toList), .reports ["sum".toList, "sgml".toList],
  .flag "-noisg".toList]

theorem sample_good : ∀ i ∈ sample, i.Good (fun _ => 1) := by
  intro i hi
  simp only [sample, List.mem_cons, List.not_mem_nil, or_false] at hi
  rcases hi with rfl | rfl | rfl | rfl | rfl | rfl | rfl
  · exact ⟨fun x hx => by cases hx; decide, trivial⟩
  · exact ⟨⟨fun x hx => by cases hx; decide, fun x hx => by cases hx; decide⟩, trivial⟩
  · exact ⟨⟨by decide, by decide⟩, trivial⟩
  · exact ⟨by show _ ∈ docFlags; decide, trivial⟩
  · exact ⟨fun x hx => by cases hx; decide, trivial⟩
  · exact ⟨⟨by decide, by decide, by decide⟩, trivial⟩
  · exact ⟨by show _ ∈ docFlags; decide, trivial⟩

theorem sample_generic : ¬ given "-generic-cost".toList sample := by
  rintro ⟨i, hi, m, rfl, rfl⟩
  simp [sample] at hi

theorem sample_accept : Accept sample := by
  refine ⟨("a.stm".toList, "stm".toList), rfl, by decide, ?_, ?_⟩
  · intro h hh
    rw [show hypsGiven sample = [⟨"b.ctm".toList, "ctm".toList, "sys".toList⟩] from rfl, List.mem_singleton] at hh
    subst hh
    unfold Scorable; decide
  · rintro ⟨i, hi, m, rfl, rfl⟩
    simp [sample] at hi

example : ∃ s, main' (fun _ => 1) (cmd sample) = .run s ∧ getProp s.props "recording.maxspeakeroverlaping".toList = "2".toList ∧
    s.output = ["sum".toList, "sgml".toList] := by
  obtain ⟨s, h, _, _, _, hv, _, _, _, _, _, _, _, _, _, _, _, _, _, ho, _⟩ :=
    options_partial (fun _ => 1) sample sample_good (by decide) sample_generic sample_accept
  exact ⟨s, h, hv ("-overlap-limit".toList, "recording.maxspeakeroverlaping".toList, "4".toList) (by decide), ho⟩

example : ∃ s, main' (fun _ => 1) (cmd sample) = .run s :=
  (accepted_iff (fun _ => 1) sample sample_good (by decide) sample_generic).2 sample_accept

/-- C185 (violated): `-spkrmap` has no effect: the check of the speaker map stays off whatever documented options are given. -/
theorem spkrmap_no_effect (atoi : Str → Int) (items : List Item) (hg : ∀ i ∈ items, i.Good atoi) (hne : items ≠ [])
    (h : ¬ given "-generic-cost".toList items) (ha : Accept items) :
    ∃ s, main' atoi (cmd items) = .run s ∧ getProp s.props "filter.spkrmap".toList = "false".toList := by
  rw [main_items atoi items hg hne]
  refine ⟨_, finish_accept atoi items h ha, ?_⟩
  exact (getProp_flag _ _ _ _ _ (fold_props atoi items)).2.2.2.2.2.2.2.1

example : ∃ s, main' (fun _ => 1) (cmd (sample ++ [.flag "-spkrmap".toList])) = .run s ∧
    getProp s.props "filter.spkrmap".toList = "false".toList := by
  refine spkrmap_no_effect (fun _ => 1) _ ?_ (by decide) ?_ ?_
  · intro i hi
    rcases List.mem_append.1 hi with hi | hi
    · exact sample_good i hi
    · obtain rfl := List.mem_singleton.1 hi
      exact ⟨by show _ ∈ docFlags; decide, trivial⟩
  · rintro ⟨i, hi, m, rfl, rfl⟩
    simp [sample] at hi
  · refine ⟨("a.stm".toList, "stm".toList), rfl, by decide, ?_, ?_⟩
    · intro h hh
      rw [show hypsGiven (sample ++ [.flag "-spkrmap".toList]) = [⟨"b.ctm".toList, "ctm".toList, "sys".toList⟩] from rfl,
        List.mem_singleton] at hh
      subst hh
      unfold Scorable; decide
    · rintro ⟨i, hi, m, rfl, rfl⟩
      simp [sample] at hi

/-- Whether an option is the one for the width. -/
def Item.isWidth : Item → Bool
  | .width _ => true
  | _ => false

theorem effect_width (atoi : Str → Int) (s : St) (w : Int) (i : Item) (hi : i.isWidth = false) :
    effect atoi { s with width := w } i = { effect atoi s i with width := w } := by
  cases i with
  | width v => cases hi
  | flag n =>
    show (if n = "-spkrmap".toList then { s with width := w } else _) = { (if n = "-spkrmap".toList then s else _) with width := w }
    split <;> rfl
  | _ => rfl

theorem fold_width (atoi : Str → Int) : ∀ (items : List Item) (s : St), ∃ w,
    items.foldl (effect atoi) s = { (items.filter (fun i => !i.isWidth)).foldl (effect atoi) s with width := w }
  | [], s => ⟨s.width, rfl⟩
  | i :: items, s => by
    cases hi : i.isWidth with
    | false =>
      obtain ⟨w, h⟩ := fold_width atoi items (effect atoi s i)
      refine ⟨w, ?_⟩
      rw [List.foldl_cons, h, List.filter_cons_of_pos (by rw [hi]; rfl), List.foldl_cons]
    | true =>
      cases i with
      | width v =>
        obtain ⟨w, h⟩ := fold_width atoi items (effect atoi s (.width v))
        refine ⟨w, ?_⟩
        rw [List.foldl_cons, h, show (Item.width v :: items).filter (fun i => !i.isWidth) = items.filter (fun i => !i.isWidth) from rfl]
        have : ∀ (l : List Item) (t : St), (∀ j ∈ l, j.isWidth = false) →
            { l.foldl (effect atoi) { t with width := atoi v } with width := w } = { l.foldl (effect atoi) t with width := w } := by
          intro l
          induction l with
          | nil => intro t _; rfl
          | cons j l ih =>
            intro t hl
            rw [List.foldl_cons, List.foldl_cons, effect_width atoi t _ j (hl j List.mem_cons_self)]
            exact ih (effect atoi t j) (fun k hk => hl k (List.mem_cons_of_mem _ hk))
        refine this _ s (fun j hj => ?_)
        have := (List.mem_filter.1 hj).2
        cases hb : j.isWidth
        · rfl
        · rw [hb] at this; cases this
      | _ => cases hi

/-- C185 (violated): `-l` has no effect: without it the outcome is the same. -/
theorem width_no_effect (atoi : Str → Int) (items : List Item) (hg : ∀ i ∈ items, i.Good atoi)
    (hne : items.filter (fun i => !i.isWidth) ≠ []) :
    main' atoi (cmd items) = main' atoi (cmd (items.filter (fun i => !i.isWidth))) := by
  have hne' : items ≠ [] := by rintro rfl; exact hne rfl
  rw [main_items atoi items hg hne', main_items atoi _ (fun i hi => hg i (List.mem_filter.1 hi).1) hne]
  obtain ⟨w, h⟩ := fold_width atoi items start
  rw [h]
  rfl

example : main' (fun _ => 1) (cmd (sample ++ [.width "80".toList])) = main' (fun _ => 1) (cmd sample) := by
  have := width_no_effect (fun _ => 1) (sample ++ [.width "80".toList]) (by
    intro i hi
    rcases List.mem_append.1 hi with hi | hi
    · exact sample_good i hi
    · obtain rfl := List.mem_singleton.1 hi
      exact ⟨by show dash _ = false; decide, trivial⟩) (by
    rw [show (sample ++ [Item.width "80".toList]).filter (fun i => !i.isWidth) = sample from rfl]; decide)
  exact this

/-- C185 (violated): the memory limit without `-memory-limit` is 1 GB; the help text says 2.0. -/
theorem memory_limit_default (atoi : Str → Int) (items : List Item) (hg : ∀ i ∈ items, i.Good atoi) (hne : items ≠ [])
    (h : ¬ given "-generic-cost".toList items) (ha : Accept items) (hm : lastValue "-memory-limit".toList items = none) :
    ∃ s, main' atoi (cmd items) = .run s ∧ getProp s.props "recording.maxnbofgb".toList = "1".toList := by
  rw [main_items atoi items hg hne]
  refine ⟨_, finish_accept atoi items h ha, ?_⟩
  refine (getProp_flag _ _ _ _ _ (fold_props atoi items)).2.2.2.2.2.2.2.2.1.trans ?_
  unfold St.val
  rw [fold_val, hm]
  rfl

example : ∃ s, main' (fun _ => 1) (cmd sample) = .run s ∧ getProp s.props "recording.maxnbofgb".toList = "1".toList :=
  memory_limit_default _ sample sample_good (by decide) sample_generic sample_accept rfl

/-- C186: every hypothesis of an accepted command line keeps its file, format and title, in order; the format is trn unless it is given.
Missing: a title without a format (`title_without_format`). -/
theorem hypotheses_partial (atoi : Str → Int) (items : List Item) (hg : ∀ i ∈ items, i.Good atoi) (hne : items ≠ [])
    (h : ¬ given "-generic-cost".toList items) (ha : Accept items) :
    ∃ s, main' atoi (cmd items) = .run s ∧ s.hyps = hypsGiven items := by
  obtain ⟨s, h1, _, h2, _⟩ := options_partial atoi items hg hne h ha
  exact ⟨s, h1, h2⟩

example : ∃ s, main' (fun _ => 1) (cmd sample) = .run s ∧ s.hyps = [⟨"b.ctm".toList, "ctm".toList, "sys".toList⟩] :=
  hypotheses_partial _ sample sample_good (by decide) sample_generic sample_accept

theorem plain_unknown {t : Str} (h : dash t = false) : t ∉ names := by
  intro hm
  have : ∀ n ∈ names, dash n = true := by decide
  rw [this t hm] at h
  cases h

/-- C186 (violated): `-h file title`, with the optional format left out, is always rejected: the file name becomes the title and the title
is taken for an unknown parameter. -/
theorem title_without_format (atoi : Str → Int) (items : List Item) (hg : ∀ i ∈ items, i.Good atoi) (f t : Str) (rest : List Str)
    (ht : dash t = false) (hf : t ∉ ["ctm".toList, "rttm".toList, "trn".toList]) :
    ∀ s, main' atoi (cmd items ++ ["-h".toList, f, t] ++ rest) ≠ .run s := by
  have e : cmd items ++ ["-h".toList, f, t] ++ rest = cmd items ++ "-h".toList :: f :: t :: rest := by
    rw [List.append_assoc]; rfl
  rw [e]
  obtain ⟨f', h1, h2⟩ := loop_items atoi items (cmd items ++ "-h".toList :: f :: t :: rest).length start ("-h".toList :: f :: t :: rest) hg
    (fun x hx => by obtain rfl : "-h".toList = x := by simpa using hx
                    decide) (Nat.le_refl _)
  generalize items.foldl (effect atoi) start = s at h2
  have h3 : (loop atoi (cmd items ++ "-h".toList :: f :: t :: rest).length start (cmd items ++ "-h".toList :: f :: t :: rest)).1 = false := by
    rw [h2]
    obtain ⟨g, rfl⟩ : ∃ g, f' = g + 2 := ⟨f' - 2, by simp only [List.length_cons] at h1; omega⟩
    have e1 : step atoi s "-h".toList (f :: t :: rest) = (true, { s with hyps := s.hyps ++ [⟨f, "trn".toList, f⟩] }, t :: rest) := by
      rw [step_h]
      exact (if_neg hf).trans (if_pos ht)
    have e2 : ∀ (k : Nat) (u : St) (a : Str) (r : List Str), loop atoi (k + 1) u (a :: r) =
        if (step atoi u a r).1 = true then loop atoi k (step atoi u a r).2.1 (step atoi u a r).2.2 else (false, (step atoi u a r).2.1) :=
      fun _ _ _ _ => rfl
    rw [e2, e1]
    show (if true = true then loop atoi (g + 1) { s with hyps := s.hyps ++ [⟨f, "trn".toList, f⟩] } (t :: rest) else _).1 = false
    rw [if_pos rfl, e2, step_unknown atoi _ t rest (plain_unknown ht)]
    rfl
  cases hc : cmd items ++ "-h".toList :: f :: t :: rest with
  | nil => simp at hc
  | cons b r =>
    rw [hc] at h3
    show ∀ x, finish _ _ ≠ _
    rw [h3]
    exact finish_false _

example : ∀ s, main' (fun _ => 1) (cmd [.ref "r".toList none] ++ ["-h".toList, "h".toList, "sys".toList] ++ []) ≠ .run s :=
  title_without_format _ _ (by
    intro i hi
    obtain rfl := List.mem_singleton.1 hi
    exact ⟨(nofun), trivial⟩) _ _ _ (by decide) (by decide)

/-- C187: an unknown option is rejected. -/
theorem unknown_rejected (atoi : Str → Int) (items : List Item) (hg : ∀ i ∈ items, i.Good atoi) (a : Str) (rest : List Str)
    (ha : dash a = true) (hu : a ∉ names) : ∀ s, main' atoi (cmd items ++ a :: rest) ≠ .run s :=
  main_bad atoi items hg a rest ha (fun s => by rw [step_unknown atoi s a rest hu])

example : ∀ s, main' (fun _ => 1) (cmd sample ++ "-x".toList :: []) ≠ .run s :=
  unknown_rejected _ sample sample_good _ _ (by decide) (by decide)

/-- The names that are known are those of the documented options and `--set-property`. -/
theorem names_documented (a : Str) : a ∈ names ↔ a ∈ docFlags ∨ a ∈ docValues ∨ a = "--set-property".toList ∨
    a ∈ ["-h".toList, "-r".toList, "-uem".toList, "-spkrautooverlap".toList, "-D".toList, "-O".toList, "-f".toList, "-l".toList,
      "-o".toList, "-threads".toList] := by
  constructor
  · intro h
    have : ∀ a ∈ names, a ∈ docFlags ∨ a ∈ docValues ∨ a = "--set-property".toList ∨
      a ∈ ["-h".toList, "-r".toList, "-uem".toList, "-spkrautooverlap".toList, "-D".toList, "-O".toList, "-f".toList, "-l".toList,
        "-o".toList, "-threads".toList] := by decide +kernel
    exact this a h
  · rintro (h | h | rfl | h)
    · have : ∀ a ∈ docFlags, a ∈ names := by decide +kernel
      exact this a h
    · have : ∀ a ∈ docValues, a ∈ names := by decide +kernel
      exact this a h
    · decide
    · have : ∀ a ∈ ["-h".toList, "-r".toList, "-uem".toList, "-spkrautooverlap".toList, "-D".toList, "-O".toList, "-f".toList,
        "-l".toList, "-o".toList, "-threads".toList], a ∈ names := by decide +kernel
      exact this a h

/-- C187: an option that needs a file, a directory or a number is rejected at the end of the command line, as are fewer than one thread
and an unknown report. -/
theorem incomplete_rejected (atoi : Str → Int) (items : List Item) (hg : ∀ i ∈ items, i.Good atoi) :
    (∀ a ∈ ["-h".toList, "-r".toList, "-uem".toList, "-O".toList, "-f".toList, "-l".toList, "-threads".toList],
      ∀ s, main' atoi (cmd items ++ [a]) ≠ .run s) ∧
    (∀ v rest, dash v = false → atoi v < 1 → ∀ s, main' atoi (cmd items ++ "-threads".toList :: v :: rest) ≠ .run s) ∧
    (∀ l v rest, (∀ x ∈ l, x ∈ docReports) → l.length < 4 → dash v = false → v ∉ docReports →
      ∀ s, main' atoi (cmd items ++ "-o".toList :: (l ++ v :: rest)) ≠ .run s) := by
  refine ⟨?_, ?_, ?_⟩
  · intro a ha
    refine main_bad atoi items hg a [] (by revert a; decide) (fun s => ?_)
    simp only [List.mem_cons, List.not_mem_nil, or_false] at ha
    rcases ha with rfl | rfl | rfl | rfl | rfl | rfl | rfl <;> rfl
  · intro v rest hv ht
    refine main_bad atoi items hg _ _ (by decide) (fun s => ?_)
    have : step atoi s "-threads".toList (v :: rest) = (decide (¬ atoi v < 1), { s with threads := v }, rest) := if_pos hv
    rw [this]
    exact decide_eq_false (fun h => h ht)
  · intro l v rest hl hlen hv hn
    refine main_bad atoi items hg _ _ (by decide) (fun s => ?_)
    rw [step_o]
    have : ∀ (l : List Str) (k : Nat) (out : List Str), (∀ x ∈ l, x ∈ docReports) → l.length < k →
        (takeReports k out (l ++ v :: rest)).1 = false := by
      intro l
      induction l with
      | nil =>
        intro k out _ hk
        obtain ⟨k, rfl⟩ : ∃ j, k = j + 1 := ⟨k - 1, by simp at hk; omega⟩
        show (if dash v = true then _ else if v ∈ docReports then _ else _ : Bool × List Str × List Str).1 = false
        rw [if_neg (by rw [hv]; decide), if_neg hn]
      | cons a l ih =>
        intro k out hm hk
        rw [List.length_cons] at hk
        obtain ⟨k, rfl⟩ : ∃ j, k = j + 1 := ⟨k - 1, by omega⟩
        have ha := hm a List.mem_cons_self
        show (if dash a = true then _ else if a ∈ docReports then takeReports k (out ++ [a]) (l ++ v :: rest) else _ :
          Bool × List Str × List Str).1 = false
        rw [if_neg (by rw [report_plain ha]; decide), if_pos ha]
        exact ih k _ (fun x hx => hm x (List.mem_cons_of_mem _ hx)) (by omega)
    show ((takeReports 4 s.output (l ++ v :: rest)).1 && _) = false
    rw [this l 4 s.output hl hlen]
    rfl

example : ∀ s, main' (fun _ => 1) (cmd sample ++ ["-uem".toList]) ≠ .run s :=
  (incomplete_rejected _ sample sample_good).1 _ (by decide)
example : ∀ s, main' (fun _ => 0) (cmd [] ++ "-threads".toList :: "0".toList :: []) ≠ .run s :=
  (incomplete_rejected _ [] (nofun)).2.1 _ _ (by decide) (by decide)
example : ∀ s, main' (fun _ => 1) (cmd sample ++ "-o".toList :: (["sum".toList] ++ "pra".toList :: [])) ≠ .run s :=
  (incomplete_rejected _ sample sample_good).2.2 _ _ _ (by decide) (by decide) (by decide) (by decide)

/-- C187: whatever the arguments are, a run has a hypothesis, and every hypothesis can be scored with the reference if there is one. -/
theorem run_valid (atoi : Str → Int) (args : List Str) (s : Settings) (h : main' atoi args = .run s) :
    s.hyps ≠ [] ∧ (∀ r, s.ref = some r → ∀ x ∈ s.hyps, Scorable x.fmt r.2) := by
  cases args with
  | nil => cases h
  | cons a r =>
    have h : finish (loop atoi (a :: r).length start (a :: r)).1 (loop atoi (a :: r).length start (a :: r)).2 = .run s := h
    generalize (loop atoi (a :: r).length start (a :: r)).1 = ok at h
    generalize (loop atoi (a :: r).length start (a :: r)).2 = t at h
    unfold finish at h
    dsimp only at h
    split at h
    · split at h
      · cases h
      · split at h
        · rename_i hc
          injection h with h
          subst h
          refine ⟨hc.2.2.1, fun r hr x hx => ?_⟩
          have h4 := List.all_eq_true.1 hc.2.2.2.2 x hx
          have hr : t.ref = some r := hr
          rw [hr] at h4
          exact (scorable_iff _ _).1 h4
        · cases h
    · split at h
      · rename_i hc
        injection h with h
        subst h
        exact ⟨hc.2, fun r hr => by cases hr⟩
      · cases h

example : ∃ s, main' (fun _ => 1) ["-h".toList, "a".toList, "-r".toList, "b".toList] = .run s ∧ s.hyps ≠ [] := by
  refine ⟨_, rfl, ?_⟩
  exact (run_valid (fun _ => 1) ["-h".toList, "a".toList, "-r".toList, "b".toList] _ rfl).1

/-- C187 (violated): a word after `-D` that is no side is accepted and turns the option off, a directory that is missing before another
option is ignored, and so is a value that is missing for an option that was given before. -/
theorem bad_values_accepted :
    (∃ s, main' (fun _ => 1) ["-r".toList, "a".toList, "-h".toList, "b".toList, "-D".toList, "reference".toList] = .run s ∧
      getProp s.props "align.optionally".toList = "reference".toList) ∧
    (∃ s, main' (fun _ => 1) ["-r".toList, "a".toList, "-h".toList, "b".toList, "-O".toList, "-s".toList] = .run s ∧
      getProp s.props "report.outputdir".toList = []) ∧
    (∃ s, main' (fun _ => 1) ["-r".toList, "a".toList, "-h".toList, "b".toList, "-i".toList, "wsj".toList, "-i".toList] = .run s ∧
      getProp s.props "inputparser.trn.uid".toList = "wsj".toList) :=
  ⟨⟨_, rfl, rfl⟩, ⟨_, rfl, rfl⟩, ⟨_, rfl, rfl⟩⟩

/-- C187 (violated): `-time-base-cost` without a hypothesis reads the format of a hypothesis that is not there. -/
theorem time_base_undefined (atoi : Str → Int) (items : List Item) (hg : ∀ i ∈ items, i.Good atoi) (hne : items ≠ [])
    (h : ¬ given "-generic-cost".toList items) (ht : given "-time-base-cost".toList items) (hh : hypsGiven items = []) :
    main' atoi (cmd items) = .undef := by
  rw [main_items atoi items hg hne]
  have hf := fold_hyps atoi items start
  rw [show start.hyps = [] from rfl, List.nil_append, hh] at hf
  unfold finish
  dsimp only
  rw [if_pos (not_generic atoi items h), if_pos ⟨(fold_has atoi "-time-base-cost" (by decide) items).2 ht, hf⟩]

example : main' (fun _ => 1) (cmd [.ref "r".toList (some "rttm".toList), .flag "-time-base-cost".toList]) = .undef := by
  refine time_base_undefined _ _ ?_ (by decide) ?_ ⟨_, List.mem_cons_of_mem _ List.mem_cons_self, _, rfl, rfl⟩ rfl
  · intro i hi
    simp only [List.mem_cons, List.not_mem_nil, or_false] at hi
    rcases hi with rfl | rfl
    · exact ⟨fun x hx => by cases hx; decide, trivial⟩
    · exact ⟨by show _ ∈ docFlags; decide, trivial⟩
  · rintro ⟨i, hi, m, rfl, rfl⟩
    simp at hi

/-- The side of the hypotheses, if a side has it. -/
def HypSide (o : Str) : Prop := o = "hyp".toList ∨ o = "both".toList

/-- C188: with the generic cost model a command line of documented options is carried out exactly if it names a hypothesis; the reference
is ignored, the inter-segment gaps are not used, and the filters are those that were asked for the hypotheses. -/
theorem generic_run (atoi : Str → Int) (items : List Item) (hg : ∀ i ∈ items, i.Good atoi) (hne : items ≠ [])
    (h : given "-generic-cost".toList items) :
    (hypsGiven items = [] → main' atoi (cmd items) = .exit) ∧
    (hypsGiven items ≠ [] → ∃ s, main' atoi (cmd items) = .run s ∧ s.ref = none ∧ s.hyps = hypsGiven items ∧
      getProp s.props "filter.uem.isg".toList = "false".toList ∧
      getProp s.props "align.genericmethod".toList = "true".toList ∧
      ("filter.spkrautooverlap".toList ∈ s.filters ↔ ∃ o, overlapGiven items = some o ∧ HypSide o) ∧
      (getProp s.props "filter.spkrautooverlap.option".toList ∈ [[], "hyp".toList]) ∧
      ("filter.uem".toList ∈ s.filters → ∃ u, uemGiven items = some u ∧ HypSide u.2) ∧
      (getProp s.props "filter.uem.option".toList ∈ [[], "hyp".toList]) ∧
      s.output = (if "stdout".toList ∈ reportsGiven items then ["stdout".toList] else [])) := by
  rw [main_items atoi items hg hne]
  have hgen := (fold_has atoi "-generic-cost" (by decide) items).2 h
  have hh := fold_hyps atoi items start
  have ho := fold_output atoi items start
  have hp := fold_props atoi items
  have h1 := fold_uem atoi items
  have h2 := fold_overlap atoi items
  generalize items.foldl (effect atoi) start = s at hgen hh ho hp h1 h2 ⊢
  rw [show start.hyps = [] from rfl, List.nil_append] at hh
  rw [show start.output = [] from rfl, List.nil_append] at ho
  have hng : ¬ s.has "-generic-cost" = false := by rw [hgen]; decide
  unfold finish
  dsimp only
  rw [if_neg hng]
  have hside : ∀ o, (hypSide o).isSome = true ↔ HypSide o := by
    intro o
    unfold hypSide HypSide
    split
    · rename_i hc; exact ⟨fun _ => hc, fun _ => rfl⟩
    · rename_i hc; exact ⟨(nofun), fun x => absurd x hc⟩
  have hsv : ∀ o x, hypSide o = some x → x = "hyp".toList := by
    intro o x hx
    unfold hypSide at hx
    split at hx
    · injection hx with hx; exact hx.symm
    · cases hx
  constructor
  · intro he
    rw [if_neg (fun x => x.2 (hh.trans he))]
  · intro hn
    refine ⟨_, if_pos ⟨rfl, by rw [hh]; exact hn⟩, rfl, hh, ?_, ?_, ?_, ?_, ?_, ?_, ?_⟩
    · refine (getProp_flag _ _ _ _ _ hp).2.2.2.2.2.2.2.2.2.2.trans ?_
      split <;> rfl
    · refine ((getProp_flag _ _ _ _ _ hp).1 ("-generic-cost".toList, "align.genericmethod".toList) (by decide)).trans ?_
      have : decide ("-generic-cost".toList ∈ s.flags) = true := hgen
      show tf (decide ("-generic-cost".toList ∈ s.flags)) = _
      rw [this]; rfl
    · show _ ∈ filters s false (s.overlap.bind hypSide) _ ↔ _
      unfold filters
      rw [h2, List.mem_append]
      constructor
      · rintro (x | x)
        · split at x
          · rename_i hc
            cases hov : overlapGiven items with
            | none => rw [hov] at hc; cases hc
            | some o => rw [hov] at hc; exact ⟨o, rfl, (hside o).1 hc⟩
          · cases x
        · split at x
          · cases x
          · split at x
            · exact absurd x (by decide)
            · cases x
      · rintro ⟨o, hov, hs⟩
        refine Or.inl ?_
        rw [hov, if_pos (show ((some o).bind hypSide).isSome = true from (hside o).2 hs)]
        exact List.mem_singleton.2 rfl
    · have e : getProp (setProps s false (s.overlap.bind hypSide) (s.uem.bind (fun u => (hypSide u.2).map (fun o => (u.1, o))))
          ((hypSide s.optional).getD s.optional)) "filter.spkrautooverlap.option".toList = (s.overlap.bind hypSide).getD [] := by
        unfold setProps; rw [hp]; rfl
      show getProp (setProps _ _ _ _ _) _ ∈ _
      rw [e]
      cases hov : s.overlap with
      | none => decide
      | some o =>
        show (hypSide o).getD [] ∈ _
        cases hs : hypSide o with
        | none => decide
        | some x => rw [hsv o x hs]; decide
    · show _ ∈ filters s false _ (s.uem.bind (fun u => (hypSide u.2).map (fun o => (u.1, o)))) → _
      unfold filters
      rw [h1, List.mem_append]
      rintro (x | x)
      · split at x
        · exact absurd x (by decide)
        · cases x
      · split at x
        · cases x
        · split at x
          · rename_i hc
            rw [Bool.or_false] at hc
            cases hu : uemGiven items with
            | none => rw [hu] at hc; cases hc
            | some u =>
              rw [hu] at hc
              refine ⟨u, rfl, (hside u.2).1 ?_⟩
              have hc : ((hypSide u.2).map (fun o => (u.1, o))).isSome = true := hc
              rw [Option.isSome_map] at hc
              exact hc
          · cases x
    · have e : getProp (setProps s false (s.overlap.bind hypSide) (s.uem.bind (fun u => (hypSide u.2).map (fun o => (u.1, o))))
          ((hypSide s.optional).getD s.optional)) "filter.uem.option".toList =
          if (s.ref.map (·.2)) = some "trn".toList then []
          else ((s.uem.bind (fun u => (hypSide u.2).map (fun o => (u.1, o)))).map (·.2)).getD [] := by
        unfold setProps; rw [hp]; rfl
      show getProp (setProps _ _ _ _ _) _ ∈ _
      rw [e]
      split
      · decide
      · cases hu : s.uem with
        | none => decide
        | some u =>
          show ((Option.map (fun o => (u.1, o)) (hypSide u.2)).map (·.2)).getD [] ∈ _
          cases hs : hypSide u.2 with
          | none => exact List.mem_cons_self
          | some x => rw [hsv u.2 x hs]; exact List.mem_cons_of_mem _ List.mem_cons_self
    · show (if "stdout".toList ∈ s.output then _ else _) = _
      rw [ho]

example : ∃ s, main' (fun _ => 1) (cmd [.hyp "a".toList (some "rttm".toList) none, .flag "-generic-cost".toList,
    .overlap (some "ref".toList)]) = .run s ∧ s.filters = [] := by
  refine ⟨_, rfl, rfl⟩

example : ∃ s, main' (fun _ => 1) (cmd [.hyp "a".toList (some "rttm".toList) none, .flag "-generic-cost".toList]) = .run s ∧
    s.ref = none := by
  obtain ⟨s, h1, h2, _⟩ := (generic_run (fun _ => 1) [.hyp "a".toList (some "rttm".toList) none, .flag "-generic-cost".toList] (by
    intro i hi
    simp only [List.mem_cons, List.not_mem_nil, or_false] at hi
    rcases hi with rfl | rfl
    · exact ⟨⟨fun x hx => by cases hx; decide, fun x hx => by cases hx⟩, trivial⟩
    · exact ⟨by show _ ∈ docFlags; decide, trivial⟩) (by decide)
    ⟨_, List.mem_cons_of_mem _ List.mem_cons_self, _, rfl, rfl⟩).2 (by decide)
  exact ⟨s, h1, h2⟩

/-- C188 (violated): the reference is ignored, but its format still counts: with a trn reference a UEM file for the hypotheses is not
used. -/
theorem generic_uem_lost :
    (∃ s, main' (fun _ => 1) ["-h".toList, "a".toList, "rttm".toList, "-generic-cost".toList, "-uem".toList, "u".toList] = .run s ∧
      s.filters = ["filter.uem".toList]) ∧
    (∃ s, main' (fun _ => 1) ["-h".toList, "a".toList, "rttm".toList, "-generic-cost".toList, "-uem".toList, "u".toList,
      "-r".toList, "r".toList] = .run s ∧ s.filters = []) :=
  ⟨⟨_, rfl, rfl⟩, ⟨_, rfl, rfl⟩⟩

end Verif.AscArgs
