import Verif.Unified.Report
import Verif.Anovar.Model
/-!
# The options of `sc_stats` and its report on all tests: properties
-/
set_option autoImplicit false
namespace Verif.Unified
open Verif.Stats

/-! ### C180 -/

theorem fold_flag (atoi : Str → Int) (φ : Opts → Prop) (P : Item → Prop) (h : ∀ o i, φ (effect atoi o i) ↔ φ o ∨ P i) :
    ∀ (items : List Item) (o : Opts), φ (items.foldl (effect atoi) o) ↔ φ o ∨ ∃ i ∈ items, P i
  | [], o => by simp
  | i :: items, o => by
    rw [List.foldl_cons, fold_flag atoi φ P h items, h]
    simp only [List.mem_cons, exists_eq_or_imp, or_assoc]

/-- C180: the program runs with the settings of its options.  `-p`, `-v` and `-u` are on exactly if they are given, a directory, a
name, a description and a width are those last given, and the tests, reports and graphs are those named.  Missing: names given
twice, `std4`, `none`, the report `npr` and the formula (see below). -/
theorem options_partial (atoi : Str → Int) (items : List Item) (hne : items ≠ []) (hg : ∀ i ∈ items, i.Good)
    (ht : (testsNamed items).Nodup) (hr : (reportsNamed items).Nodup) (hgr : (graphsNamed items).Nodup)
    (h4 : "std4".toList ∉ testsNamed items) (h0 : "none".toList ∉ reportsNamed items) :
    ∃ o, procArgs atoi (items.flatMap Item.render) = .run o ∧
      (o.pipein = some true ↔ Item.pipe ∈ items) ∧ (o.verbose = true ↔ Item.verbose ∈ items) ∧
      (o.unified = true ↔ Item.unified ∈ items) ∧
      o.outDir = lastOf (fun i => match i with | .outDir s => some (some s) | _ => none) none items ∧
      o.outName = lastOf (fun i => match i with | .outName s => some s | _ => none) "Ensemble".toList items ∧
      o.testName = lastOf (fun i => match i with | .desc s => some s | _ => none) [] items ∧
      o.width = lastOf (fun i => match i with | .width s => some (atoi s) | _ => none) 100 items ∧
      (∀ x ∈ testNames, x ∈ o.tests ↔ x ∈ testsNamed items) ∧
      (∀ x ∈ reportNames, x ≠ "npr".toList → (x ∈ o.reports ↔ x ∈ reportsNamed items)) ∧
      (∀ x ∈ graphNames, x ∈ o.graphs ↔ x ∈ graphsNamed items) := by
  refine ⟨_, args_render atoi items hne hg, ?_, ?_, ?_, ?_, ?_, ?_, ?_, ?_, ?_, ?_⟩
  · rw [fold_flag atoi (fun o => o.pipein = some true) (fun i => i = .pipe) (by intro o i; cases i <;> simp [effect])]
    simp [defaults]
  · rw [fold_flag atoi (fun o => o.verbose = true) (fun i => i = .verbose) (by intro o i; cases i <;> simp [effect])]
    simp [defaults]
  · rw [fold_flag atoi (fun o => o.unified = true) (fun i => i = .unified) (by intro o i; cases i <;> simp [effect])]
    simp [defaults]
  · exact fold_last atoi (fun o => o.outDir) _ (by intro o i; cases i <;> rfl) items defaults
  · exact fold_last atoi (fun o => o.outName) _ (by intro o i; cases i <;> rfl) items defaults
  · exact fold_last atoi (fun o => o.testName) _ (by intro o i; cases i <;> rfl) items defaults
  · exact fold_last atoi (fun o => o.width) _ (by intro o i; cases i <;> rfl) items defaults
  · intro x hx
    rw [fold_names atoi (fun o => o.tests) (fun i => match i with | .tests l => l | _ => []) testStep
      (by intro o i; cases i <;> rfl) items defaults]
    refine (fold_distinct testStep knownTests _ ?_ ht x).trans ⟨fun h => h.2, fun h => ⟨?_, h⟩⟩
    · intro s hs l
      have : s ≠ "std4".toList := fun h => h4 (h ▸ hs)
      unfold testStep
      rw [if_neg this]
    · clear h
      revert x; decide
  · intro x hx hnp
    rw [fold_names atoi (fun o => o.reports) (fun i => match i with | .reports l => l | _ => []) reportStep
      (by intro o i; cases i <;> rfl) items defaults]
    refine (fold_distinct reportStep knownReports _ ?_ hr x).trans ⟨fun h => h.2, fun h => ⟨?_, h⟩⟩
    · intro s hs l
      have : s ≠ "none".toList := fun h => h0 (h ▸ hs)
      unfold reportStep
      rw [if_neg this]
    · clear h
      revert x; decide
  · intro x hx
    rw [fold_names atoi (fun o => o.graphs) (fun i => match i with | .graphs l => l | _ => []) graphStep
      (by intro o i; cases i <;> rfl) items defaults]
    refine (fold_distinct graphStep knownGraphs _ ?_ hgr x).trans ⟨fun h => h.2, fun h => ⟨?_, h⟩⟩
    · intro s hs l
      rfl
    · exact hx

/-- A command line that meets the hypotheses. -/
def exItems : List Item := [.pipe, .tests ["mcn".toList, "anovar".toList], .unified, .outName "all".toList, .width "80".toList,
  .reports ["sum".toList, "lur".toList], .graphs ["det".toList], .outName "dry".toList]

example : exItems ≠ [] ∧ (∀ i ∈ exItems, i.Good) ∧ (testsNamed exItems).Nodup ∧ (reportsNamed exItems).Nodup ∧
    (graphsNamed exItems).Nodup ∧ "std4".toList ∉ testsNamed exItems ∧ "none".toList ∉ reportsNamed exItems := by
  refine ⟨List.cons_ne_nil _ _, ?_, by decide, by decide, by decide, by decide, by decide⟩
  intro i hi
  simp only [exItems, List.mem_cons, List.not_mem_nil, or_false] at hi
  rcases hi with h | h | h | h | h | h | h | h <;> subst h <;> simp only [Item.Good] <;> decide

/-- C180, `std4`: if it is the only test named, the tests are the four it stands for. -/
theorem std4_alone (atoi : Str → Int) (items : List Item) (hg : ∀ i ∈ items, i.Good)
    (ht : testsNamed items = ["std4".toList]) :
    ∃ o, procArgs atoi (items.flatMap Item.render) = .run o ∧
      ∀ x, x ∈ o.tests ↔ x ∈ ["mcn".toList, "mapsswe".toList, "sign".toList, "wilc".toList] := by
  have hne : items ≠ [] := by intro h; subst h; exact absurd ht (by decide)
  refine ⟨_, args_render atoi items hne hg, ?_⟩
  intro x
  have e : (items.foldl (effect atoi) defaults).tests = (testsNamed items).foldl testStep defaults.tests :=
    fold_names atoi (fun o => o.tests) (fun i => match i with | .tests l => l | _ => []) testStep
      (by intro o i; cases i <;> rfl) items defaults
  rw [e, ht]
  exact Iff.rfl

/-- What the code does instead for repeated names: a test named an even number of times is not performed. -/
theorem even_times_off (atoi : Str → Int) (items : List Item) (hne : items ≠ []) (hg : ∀ i ∈ items, i.Good)
    (h4 : "std4".toList ∉ testsNamed items) (x : Str) (hx : (testsNamed items).count x % 2 = 0) :
    ∃ o, procArgs atoi (items.flatMap Item.render) = .run o ∧ x ∉ o.tests := by
  refine ⟨_, args_render atoi items hne hg, ?_⟩
  have e : (items.foldl (effect atoi) defaults).tests = (testsNamed items).foldl testStep defaults.tests :=
    fold_names atoi (fun o => o.tests) (fun i => match i with | .tests l => l | _ => []) testStep
      (by intro o i; cases i <;> rfl) items defaults
  rw [e, fold_parity testStep knownTests (testsNamed items) ?_ x]
  · simp [defaults, hx]
  · intro s hs l
    have : s ≠ "std4".toList := fun h => h4 (h ▸ hs)
    unfold testStep
    rw [if_neg this]

/-- The claim is false of the code: `-t mcn -t mcn` performs no test, `-t anovar std4` not the analysis of variance, `-t std4 mcn` not
McNemar's test, and `-r npr` writes no report, although the usage message lists all of them. -/
theorem names_lost (atoi : Str → Int) :
    procArgs atoi ["-t".toList, "mcn".toList, "-t".toList, "mcn".toList] = .run defaults ∧
    procArgs atoi ["-t".toList, "anovar".toList, "std4".toList] = procArgs atoi ["-t".toList, "std4".toList] ∧
    procArgs atoi ["-t".toList, "std4".toList, "mcn".toList] =
      .run { defaults with tests := ["mapsswe".toList, "sign".toList, "wilc".toList] } ∧
    "npr".toList ∈ reportNames ∧ procArgs atoi ["-r".toList, "npr".toList] = .run defaults := by
  refine ⟨rfl, rfl, rfl, by decide, rfl⟩

/-- What follows an argument without a hyphen is not looked at. -/
theorem rest_ignored (atoi : Str → Int) (x : Str) (hx : dash x = false) (rest : List Str) :
    procArgs atoi ("-p".toList :: x :: rest) = procArgs atoi ["-p".toList] := by
  show (if dash x = false then Out.run _ else _) = _
  rw [if_pos hx]; rfl

/-! ### C181 -/

theorem ite_both {X : Type} (Q : X → Prop) (c : Prop) [Decidable c] (x y : X) (hx : Q x) (hy : ¬ c → Q y) : Q (if c then x else y) := by
  by_cases h : c
  · rw [if_pos h]; exact hx
  · rw [if_neg h]; exact hy h

/-- A property of the settings that none of the assignments of the loop changes. -/
theorem loop_keeps {X : Type} (atoi : Str → Int) (φ : Opts → X) (bad : Str → Prop)
    (hbad : ¬ bad "-p".toList → ∀ o b, φ { o with pipein := b } = φ o)
    (h1 : ∀ o n, φ { o with npralign := n } = φ o) (h2 : ∀ o n, φ { o with feedback := n } = φ o)
    (h3 : ∀ o n, φ { o with outDir := n } = φ o) (h4 : ∀ o n, φ { o with outName := n } = φ o)
    (h5 : ∀ o n, φ { o with testName := n } = φ o) (h6 : ∀ o n, φ { o with width := n } = φ o)
    (h7 : ∀ o n, φ { o with verbose := n } = φ o) (h8 : ∀ o n, φ { o with unified := n } = φ o)
    (h9 : ∀ o n, φ { o with tests := n } = φ o) (h10 : ∀ o n, φ { o with reports := n } = φ o)
    (h11 : ∀ o n, φ { o with graphs := n } = φ o)
    (h12 : ∀ o g t u, φ { o with graphs := g, tests := t, unified := u } = φ o) :
    ∀ (f : Nat) (o : Opts) (args : List Str), (∀ a ∈ args, ¬ bad a) →
      ∀ o', procLoop atoi f o args = .run o' → φ o' = φ o := by
  intro f
  induction f with
  | zero => intro o args _ o' h; cases h; rfl
  | succ f ih =>
    intro o args hp
    cases args with
    | nil => intro o' h; cases h; rfl
    | cons a rest =>
      have hr : ∀ x ∈ rest, ¬ bad x := fun x h => hp x (List.mem_cons_of_mem _ h)
      have hs : ∀ l : List Str, (∀ x ∈ l, ¬ bad x) → ∀ x ∈ skip l, ¬ bad x :=
        fun l h x h2 => h x ((List.dropWhile_sublist _).mem h2)
      have go : ∀ (o2 : Opts) (args2 : List Str), φ o2 = φ o → (∀ a ∈ args2, ¬ bad a) →
          ∀ o', procLoop atoi f o2 args2 = .run o' → φ o' = φ o :=
        fun o2 args2 he hb o' h => (ih o2 args2 hb o' h).trans he
      unfold procLoop
      have ex : ∀ o', Out.exit = .run o' → φ o' = φ o := nofun
      have un : ∀ o', Out.undef = .run o' → φ o' = φ o := nofun
      refine ite_both (fun out : Out => ∀ o', out = .run o' → φ o' = φ o) _ _ _ (fun o' h => by cases h; rfl) (fun _ => ?_)
      cases rest with
      | nil =>
        dsimp only
        by_cases hpp : a = "-p".toList
        · subst hpp
          exact go _ _ (hbad (hp _ List.mem_cons_self) _ _) hr
        · rw [if_neg hpp]
          repeat' (refine ite_both (fun out : Out => ∀ o', out = .run o' → φ o' = φ o) _ _ _ ?_ (fun _ => ?_))
          all_goals first
            | exact ex
            | exact go _ _ (h7 _ _) hr
            | exact go _ _ (h8 _ _) hr
            | exact go _ _ (h12 _ _ _ _) hr
      | cons b r =>
        have hr2 : ∀ x ∈ r, ¬ bad x := fun x h => hr x (List.mem_cons_of_mem _ h)
        dsimp only
        by_cases hpp : a = "-p".toList
        · subst hpp
          exact go _ _ (hbad (hp _ List.mem_cons_self) _ _) hr
        · rw [if_neg hpp]
          repeat' (refine ite_both (fun out : Out => ∀ o', out = .run o' → φ o' = φ o) _ _ _ ?_ (fun _ => ?_))
          all_goals first
            | exact ex
            | exact un
            | exact go _ _ (h7 _ _) hr
            | exact go _ _ (h8 _ _) hr
            | exact go _ _ (h12 _ _ _ _) hr
            | exact go _ _ (h1 _ _) (hs _ hr)
            | exact go _ _ (h9 _ _) (hs _ hr)
            | exact go _ _ (h10 _ _) (hs _ hr)
            | exact go _ _ (h11 _ _) (hs _ hr)
            | exact go _ _ (h2 _ _) hr2
            | exact go _ _ (h3 _ _) hr2
            | exact go _ _ (h4 _ _) hr2
            | exact go _ _ (h5 _ _) hr2
            | exact go _ _ (h6 _ _) hr2

/-- C181 is false of the code: whatever the command line, the formula is the error rate. -/
theorem formula_always_E (atoi : Str → Int) (args : List Str) (o : Opts) (h : procArgs atoi args = .run o) :
    o.formula = "E".toList := by
  cases args with
  | nil => cases h
  | cons a r =>
    exact loop_keeps atoi (fun o => o.formula) (fun _ => False) (fun _ _ _ => rfl) (fun _ _ => rfl) (fun _ _ => rfl) (fun _ _ => rfl)
      (fun _ _ => rfl) (fun _ _ => rfl) (fun _ _ => rfl) (fun _ _ => rfl) (fun _ _ => rfl) (fun _ _ => rfl) (fun _ _ => rfl)
      (fun _ _ => rfl) (fun _ _ _ _ => rfl) _ _ _ (fun _ _ h => h) _ h

/-- In place of the formula `-f W` sets how much the program tells. -/
theorem formula_is_feedback (atoi : Str → Int) :
    procArgs atoi ["-p".toList, "-f".toList, "W".toList] = .run { defaults with pipein := some true, feedback := atoi "W".toList } := rfl

/-! ### C182 -/

/-- C182: a command line of options among which is `-p` is carried out.  Missing: command lines without `-p` (see below). -/
theorem runs_partial (atoi : Str → Int) (items : List Item) (hg : ∀ i ∈ items, i.Good) (hp : Item.pipe ∈ items) :
    ∃ o, mainRun atoi (items.flatMap Item.render) = .run o := by
  have hne : items ≠ [] := by intro h; subst h; cases hp
  refine ⟨items.foldl (effect atoi) defaults, ?_⟩
  have hpi : (items.foldl (effect atoi) defaults).pipein = some true := by
    rw [fold_flag atoi (fun o => o.pipein = some true) (fun i => i = .pipe) (by intro o i; cases i <;> simp [effect])]
    exact .inr ⟨_, hp, rfl⟩
  unfold mainRun
  rw [args_render atoi items hne hg]
  dsimp only
  rw [hpi]

/-- The claim is false of the code: without `-p` the variable that says whether to read alignments has no value, whatever the other
arguments are. -/
theorem without_pipe_undefined (atoi : Str → Int) (args : List Str) (h : "-p".toList ∉ args) (o : Opts) :
    mainRun atoi args ≠ .run o := by
  intro hr
  unfold mainRun at hr
  cases hp : procArgs atoi args with
  | exit => rw [hp] at hr; cases hr
  | undef => rw [hp] at hr; cases hr
  | run o' =>
    rw [hp] at hr
    dsimp only at hr
    have : o'.pipein = none := by
      cases args with
      | nil => cases hp
      | cons a r =>
        exact loop_keeps atoi (fun o => o.pipein) (fun a => a = "-p".toList) (fun h => absurd rfl h) (fun _ _ => rfl) (fun _ _ => rfl)
          (fun _ _ => rfl) (fun _ _ => rfl) (fun _ _ => rfl) (fun _ _ => rfl) (fun _ _ => rfl) (fun _ _ => rfl) (fun _ _ => rfl)
          (fun _ _ => rfl) (fun _ _ => rfl) (fun _ _ _ _ => rfl) _ _ _ (fun x hx e => h (e ▸ hx)) _ hp
    rw [this] at hr
    cases hr

/-- For one, `-t mcn` alone is a legal command line. -/
example (atoi : Str → Int) : mainRun atoi ["-t".toList, "mcn".toList] = .undef ∧
    procArgs atoi ["-t".toList, "mcn".toList] = .run { defaults with tests := ["mcn".toList] } := ⟨rfl, rfl⟩

/-! ### C183 -/

/-- C183, McNemar's test: stars are printed exactly if a difference is reported. -/
theorem mcnemar_stars (a b : Nat) : stars (mcnConf a b) ≠ [] ↔ mcNemar a b ≠ 0 := by
  unfold mcnConf mcNemar
  by_cases h : (b = 0 ∧ a = 0) ∨ b = a
  · rw [if_pos h, if_pos h]
    constructor
    · intro h2; exact absurd h2 (by decide +kernel)
    · intro h2; exact absurd rfl h2
  · rw [if_neg h, if_neg h]
    rw [binom_star _ (binom_ne a b (by omega))]
    constructor
    · intro h2
      rw [if_pos h2]
      split <;> decide
    · intro h2
      by_cases h3 : 2 * accBinomial (min a b) (a + b) (1 / 2) < 1 / 20
      · exact h3
      · rw [if_neg h3] at h2; exact absurd rfl h2

/-- C183, the sign test. -/
theorem sign_stars (a b z : Nat) (zb : Bool) : stars (signConf a b z) ≠ [] ↔ signAnalysis a b z zb ≠ 0 := by
  unfold signConf signAnalysis
  dsimp only
  generalize b + (z / 2 + z % 2) = b
  generalize a + z / 2 = a
  have hne : (if a ≠ b then 2 * accBinomial (min a b) (a + b) (1 / 2) else 1) ≠ 1 / 20 := by
    by_cases h : a ≠ b
    · rw [if_pos h]; exact binom_ne a b h
    · rw [if_neg h]; decide +kernel
  generalize (if a ≠ b then 2 * accBinomial (min a b) (a + b) (1 / 2) else 1) = c at *
  rw [binom_star _ hne]
  constructor
  · intro h2
    rw [if_pos h2]
    cases zb <;> decide
  · intro h2
    by_cases h3 : c < 1 / 20
    · exact h3
    · rw [if_neg h3] at h2; exact absurd rfl h2

/-- C183, the tests with a normal statistic: three stars from 3.30, two from 2.58, one from 1.96. -/
theorem normal_stars (q : Rat) : stars (normConf q) =
    if (330 / 100 : Rat) * (330 / 100) ≤ q then "***".toList
    else if (258 / 100 : Rat) * (258 / 100) ≤ q then "**".toList
    else if (196 / 100 : Rat) * (196 / 100) ≤ q then "*".toList
    else [] := by
  unfold stars
  simp only [conf_5, conf_1, conf_01]

theorem normal_some (q : Rat) : stars (normConf q) ≠ [] ↔ (196 / 100 : Rat) * (196 / 100) ≤ q := by
  rw [stars_some, conf_5]

/-- C183, the Wilcoxon test: unless the statistic is exactly 1.96 or -1.96, stars are printed exactly if a difference is reported. -/
theorem wilcoxon_stars_partial (a b : Nat) (sa sb : Rat) (zb : Bool) (hn : 1 ≤ a + b)
    (hq : wilcoxonSq a b sa sb ≠ (196 / 100) * (196 / 100)) :
    stars (normConf (wilcoxonSq a b sa sb)) ≠ [] ↔ wilcoxonAnalysis a b sa sb zb ≠ 0 := by
  rw [normal_some]
  have hz : zThreshold = 196 / 100 := by decide +kernel
  unfold wilcoxonSq at *
  unfold wilcoxonAnalysis
  dsimp only at *
  rw [hz]
  generalize ((if a < b then sa else sb) - ((a + b : Nat) : Rat) * (((a + b : Nat) : Rat) + 1) / 4) = d at *
  have hv : 0 < (((a + b) * (a + b + 1) * (2 * (a + b) + 1) : Nat) : Rat) / 24 := by
    have : 0 < (a + b) * (a + b + 1) * (2 * (a + b) + 1) := Nat.mul_pos (Nat.mul_pos (by omega) (by omega)) (by omega)
    have := Rat.natCast_pos.mpr this
    grind
  generalize (((a + b) * (a + b + 1) * (2 * (a + b) + 1) : Nat) : Rat) / 24 = v at *
  generalize (196 / 100 : Rat) * (196 / 100) = t at *
  have hiff : t ≤ d * d / v ↔ d * d > t * v := by
    generalize d * d = e at *
    constructor
    · intro h
      have h2 : t < e / v := by
        refine Rat.not_le.1 (fun h3 => hq (Rat.le_antisymm h3 h))
      have := Rat.mul_lt_mul_of_pos_right h2 hv
      rw [Rat.div_def, Rat.mul_assoc, Rat.inv_mul_cancel _ (fun h => by rw [h] at hv; exact Rat.lt_irrefl hv), Rat.mul_one] at this
      exact this
    · intro h
      refine Rat.not_lt.1 (fun h2 => ?_)
      rw [Rat.div_lt_iff hv] at h2
      grind
  rw [hiff]
  constructor
  · intro h
    rw [if_pos h]
    cases zb <;> by_cases hab : a < b <;> simp [hab]
  · intro h
    by_cases h3 : d * d > t * v
    · exact h3
    · rw [if_neg h3] at h; exact absurd rfl h

/-- C183, the matched pairs test, likewise. -/
theorem matched_stars_partial (d : List Int) (hd : d ≠ []) (hq : matchedSq d ≠ (196 / 100) * (196 / 100)) :
    stars (normConf (matchedSq d)) ≠ [] ↔ Mapsswe.zVerdict d ≠ some 0 := by
  rw [normal_some]
  have hl : d.length ≠ 0 := by cases d with | nil => exact absurd rfl hd | cons => simp
  have e : Mapsswe.zVerdict d = some (if (d.sum : Rat) / (d.length : Rat) < 0 then
      (if matchedSq d > (1960 / 1000) * (1960 / 1000) then 1 else 0) * (-1)
      else if matchedSq d > (1960 / 1000) * (1960 / 1000) then 1 else 0) := by
    unfold Mapsswe.zVerdict
    rw [if_neg hl]
    rfl
  have ht : (1960 / 1000 : Rat) * (1960 / 1000) = (196 / 100) * (196 / 100) := by decide +kernel
  rw [e, ht]
  generalize matchedSq d = z at *
  have hiff : (196 / 100 : Rat) * (196 / 100) ≤ z ↔ z > (196 / 100) * (196 / 100) :=
    ⟨fun h => Rat.not_le.1 (fun h3 => hq (Rat.le_antisymm h3 h)), Rat.le_of_lt⟩
  rw [hiff]
  by_cases h : z > (196 / 100) * (196 / 100)
  · rw [if_pos h]
    refine ⟨fun _ => ?_, fun _ => h⟩
    split <;> decide
  · rw [if_neg h]
    refine ⟨fun h2 => absurd h2 h, fun h2 => absurd ?_ h2⟩
    split <;> rfl

example : mcNemar 1 12 = -1 ∧ stars (mcnConf 1 12) = "**".toList ∧ mcNemar 4 6 = 0 ∧ stars (mcnConf 4 6) = [] ∧
    signAnalysis 9 1 0 true = 1 ∧ stars (signConf 9 1 0) = "*".toList := by decide +kernel

/-- Ten speakers, for all of whom the first system is better. -/
example : wilcoxonSq 10 0 55 0 ≠ (196 / 100) * (196 / 100) ∧ stars (normConf (wilcoxonSq 10 0 55 0)) = "**".toList ∧
    wilcoxonAnalysis 10 0 55 0 false = -1 := by decide +kernel

example : matchedSq [1, -1, 2, 0] ≠ (196 / 100) * (196 / 100) ∧ stars (normConf (matchedSq [1, 2, 1, 2, 3])) = "***".toList ∧
    Mapsswe.zVerdict [1, 2, 1, 2, 3] = some 1 := by decide +kernel

/-- Fifty segments for which the statistic is exactly 1.96. -/
def exactly : List Int := List.replicate 24 3 ++ List.replicate 13 (-3) ++ [2] ++ List.replicate 12 0

/-- For a statistic of exactly 1.96 no difference is reported, and a star is printed. -/
theorem boundary_star : matchedSq exactly = (196 / 100) * (196 / 100) ∧ Mapsswe.zVerdict exactly = some 0 ∧
    stars (normConf (matchedSq exactly)) = "*".toList := by decide +kernel

/-- The claim is false of the code for the analysis of variance: its confidences are never computed, and where it finds no difference
between two systems the report has three stars. -/
theorem anovar_stars : ∃ (p : Anovar.Table) (ptrsT ptrsB : List (List Nat)),
    (Anovar.computeAnovar 2 2 p ptrsT ptrsB).map (fun r => (r.1.2, r.2.1 0 1)) = some (false, 0) ∧
    stars anovarConf = "***".toList ∧ ∀ x y, named 0 x y = "~".toList :=
  ⟨[[1, 2], [2, 1]], [[0, 1], [1, 0]], [[0, 1], [1, 0]], by decide +kernel, by decide +kernel, fun _ _ => rfl⟩

/-- C183: the summary for each system says the same as the table, whichever of the two systems it is for. -/
theorem summary_agrees (wins : Nat → Nat → Int) (names : Nat → Str) (i j : Nat) (h : i < j) :
    summaryEntry wins names i j = summaryEntry wins names j i ∧
    (wins i j ≠ 0 → summaryEntry wins names i j = named (wins i j) (names i) (names j)) ∧
    (wins i j = 0 → summaryEntry wins names i j = "same".toList ∧ named (wins i j) (names i) (names j) = "~".toList) := by
  unfold summaryEntry named
  dsimp only
  rw [if_pos h, if_pos h, if_neg (show ¬ j < i by omega), if_neg (show ¬ j < i by omega)]
  refine ⟨rfl, ?_, ?_⟩
  · intro hw
    rw [if_neg hw, if_neg hw]
  · intro hw
    rw [if_pos hw, if_pos hw]
    exact ⟨rfl, rfl⟩

example : summaryEntry (fun _ _ => -1) (fun k => [Char.ofNat (97 + k)]) 0 1 = ['a'] ∧
    summaryEntry (fun _ _ => -1) (fun k => [Char.ofNat (97 + k)]) 1 0 = ['a'] := by decide

/-! ### C184 -/

theorem flat_len (n : Nat) (s : Str) : ((List.replicate n s).flatten).length = n * s.length := by
  simp

/-- C184: for up to 23 systems the report has a format. -/
theorem formats_partial (n : Nat) (h : n ≤ 23) : ∃ f, formats n = some f := by
  unfold formats
  dsimp only
  refine ⟨_, if_pos ?_⟩
  simp only [List.length_append, flat_len]
  have e1 : "c=c".toList.length = 3 := rfl
  have e2 : "|caa".toList.length = 4 := rfl
  have e3 : "=c".toList.length = 2 := rfl
  have e4 : "|rrl".toList.length = 4 := rfl
  have e5 : "ca".toList.length = 2 := rfl
  have e6 : "aaa".toList.length = 3 := rfl
  have e7 : "a".toList.length = 1 := rfl
  rw [e1, e2, e3, e4, e5, e6, e7]
  omega

/-- The claim is false of the code: from 24 systems on, and 40 may be compared, the formats overflow. -/
theorem formats_overflow (n : Nat) (h : 24 ≤ n) : formats n = none := by
  unfold formats
  dsimp only
  refine if_neg ?_
  simp only [List.length_append, flat_len]
  have e1 : "c=c".toList.length = 3 := rfl
  have e2 : "|caa".toList.length = 4 := rfl
  have e3 : "=c".toList.length = 2 := rfl
  rw [e1, e2, e3]
  omega

example : formats 1 = some ("c=c|caa=c".toList, "c=c|rrl=c".toList, "caaaaa".toList) := by decide

end Verif.Unified
