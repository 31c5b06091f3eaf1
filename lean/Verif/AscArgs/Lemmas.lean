import Verif.AscArgs.Model
/-!
# Lemmas about the command line of asclite
-/
set_option autoImplicit false
namespace Verif.AscArgs

/-- The options that the code reads as the help text has them: a title of a hypothesis is only read after a format. -/
def Item.Good (atoi : Str → Int) (i : Item) : Prop :=
  i.Doc atoi ∧ (match i with | .hyp _ none title => title = none | _ => True)

/-- What an option does. -/
def effect (atoi : Str → Int) (s : St) : Item → St
  | .ref f fmt => { s with ref := some (f, fmt.getD "trn".toList) }
  | .hyp f fmt title => { s with hyps := s.hyps ++ [⟨f, fmt.getD "trn".toList, title.getD []⟩] }
  | .uem f side => { s with uem := some (f, side.getD "both".toList) }
  | .overlap side => { s with overlap := some (side.getD "both".toList) }
  | .flag n => if n = "-spkrmap".toList then s else { s with flags := n :: s.flags }
  | .value n v => { s with vals := (n, v) :: s.vals }
  | .optional side => { s with optional := side.getD "both".toList }
  | .outDir v => { s with outDir := v }
  | .feedback v => { s with feedback := atoi v }
  | .width v => { s with width := atoi v }
  | .threads v => { s with threads := v }
  | .reports l => { s with output := s.output ++ l }

/-- Nothing or an option comes next. -/
def Next (rest : List Str) : Prop := ∀ x ∈ rest.head?, dash x = true

theorem ne_of_dash {a n : Str} (h : dash a = false) (hn : dash n = true) : a ≠ n := by
  rintro rfl; rw [h] at hn; cases hn

theorem ne_of_dash' {a n : Str} (h : dash a = true) (hn : dash n = false) : a ≠ n := by
  rintro rfl; rw [h] at hn; cases hn

theorem not_fmt {x : Str} (h : dash x = true) : x ∉ ["ctm".toList, "rttm".toList, "trn".toList] := by
  intro hm
  simp only [List.mem_cons, List.not_mem_nil, or_false] at hm
  rcases hm with rfl | rfl | rfl <;> exact absurd h (by decide)

theorem not_rfmt {x : Str} (h : dash x = true) : x ∉ ["stm".toList, "rttm".toList, "trn".toList] := by
  intro hm
  simp only [List.mem_cons, List.not_mem_nil, or_false] at hm
  rcases hm with rfl | rfl | rfl <;> exact absurd h (by decide)

theorem not_side {x : Str} (h : dash x = true) : x ∉ ["ref".toList, "hyp".toList, "both".toList] := by
  intro hm
  simp only [List.mem_cons, List.not_mem_nil, or_false] at hm
  rcases hm with rfl | rfl | rfl <;> exact absurd h (by decide)

theorem side_plain {x : Str} (h : x ∈ sides) : dash x = false := by
  simp only [sides, List.mem_cons, List.not_mem_nil, or_false] at h
  rcases h with rfl | rfl | rfl <;> decide

theorem report_plain {x : Str} (h : x ∈ docReports) : dash x = false := by
  simp only [docReports, List.mem_cons, List.not_mem_nil, or_false] at h
  rcases h with rfl | rfl | rfl | rfl <;> decide

theorem takeReports_all : ∀ (l : List Str) (k : Nat) (out rest : List Str), (∀ x ∈ l, x ∈ docReports) → l.length ≤ k → Next rest →
    takeReports k out (l ++ rest) = (true, out ++ l, rest)
  | [], k, out, rest, _, _, hn => by
    rw [List.nil_append, List.append_nil]
    cases k with
    | zero => rfl
    | succ k =>
      cases rest with
      | nil => rfl
      | cons a rest =>
        have : dash a = true := hn a rfl
        unfold takeReports
        rw [if_pos this]
  | a :: l, k, out, rest, hm, hl, hn => by
    cases k with
    | zero => exact absurd hl (by simp)
    | succ k =>
      have ha := hm a List.mem_cons_self
      have hd : ¬ dash a = true := by rw [report_plain ha]; decide
      rw [List.cons_append]
      unfold takeReports
      rw [if_neg hd, if_pos (show a ∈ ["sum".toList, "rsum".toList, "sgml".toList, "stdout".toList] from ha),
        takeReports_all l k (out ++ [a]) rest (fun x hx => hm x (List.mem_cons_of_mem _ hx)) (by simpa using hl) hn, List.append_assoc]
      rfl

/-- The steps for the options with arguments. -/
theorem step_r (atoi : Str → Int) (s : St) (rest : List Str) : step atoi s "-r".toList rest =
    (match rest with
    | [] => (false, s, [])
    | [f] => (true, { s with ref := some (f, "trn".toList) }, [])
    | f :: b :: r =>
      if b ∈ ["stm".toList, "rttm".toList, "trn".toList] then (true, { s with ref := some (f, b) }, r)
      else (true, { s with ref := some (f, "trn".toList) }, b :: r)) := by
  unfold step; rfl

theorem step_h (atoi : Str → Int) (s : St) (rest : List Str) : step atoi s "-h".toList rest =
    (match rest with
    | [] => (false, s, [])
    | [f] => (true, { s with hyps := s.hyps ++ [⟨f, "trn".toList, []⟩] }, [])
    | f :: b :: r =>
      if b ∈ ["ctm".toList, "rttm".toList, "trn".toList] then
        (match r with
        | [] => (true, { s with hyps := s.hyps ++ [⟨f, b, []⟩] }, [])
        | c :: r' =>
          if dash c = false then (true, { s with hyps := s.hyps ++ [⟨f, b, c⟩] }, r')
          else (true, { s with hyps := s.hyps ++ [⟨f, b, []⟩] }, r))
      else if dash b = false then (true, { s with hyps := s.hyps ++ [⟨f, "trn".toList, f⟩] }, b :: r)
      else (true, { s with hyps := s.hyps ++ [⟨f, "trn".toList, []⟩] }, b :: r)) := by
  unfold step; rfl

theorem step_uem (atoi : Str → Int) (s : St) (rest : List Str) : step atoi s "-uem".toList rest =
    (match rest with
    | [] => (false, s, [])
    | [f] => (true, { s with uem := some (f, "both".toList) }, [])
    | f :: b :: r =>
      if b ∈ ["ref".toList, "hyp".toList, "both".toList] then (true, { s with uem := some (f, b) }, r)
      else (true, { s with uem := some (f, "both".toList) }, b :: r)) := by
  unfold step; rfl

theorem step_overlap (atoi : Str → Int) (s : St) (rest : List Str) : step atoi s "-spkrautooverlap".toList rest =
    (match rest with
    | [] => (true, { s with overlap := some "both".toList }, [])
    | b :: r =>
      if b ∈ ["ref".toList, "hyp".toList, "both".toList] then (true, { s with overlap := some b }, r)
      else (true, { s with overlap := some "both".toList }, b :: r)) := by
  unfold step; rfl

theorem step_D (atoi : Str → Int) (s : St) (rest : List Str) : step atoi s "-D".toList rest =
    (match rest with
    | [] => (true, { s with optional := "both".toList }, [])
    | v :: r =>
      if dash v = false ∧ (v ≠ "ref".toList ∨ v ≠ "hyp".toList ∨ v ≠ "both".toList) then (true, { s with optional := v }, r)
      else (true, { s with optional := "both".toList }, v :: r)) := by
  unfold step; rfl

theorem step_o (atoi : Str → Int) (s : St) (rest : List Str) : step atoi s "-o".toList rest =
    ((takeReports 4 s.output rest).1 && !(takeReports 4 s.output rest).2.1.isEmpty,
      { s with output := (takeReports 4 s.output rest).2.1 }, (takeReports 4 s.output rest).2.2) := by
  unfold step; rfl

theorem step_value (atoi : Str → Int) (s : St) (n v : Str) (rest : List Str) (hn : n ∈ docValues) (hv : dash v = false) :
    step atoi s n (v :: rest) = (true, { s with vals := (n, v) :: s.vals }, rest) := by
  simp only [docValues, List.mem_cons, List.not_mem_nil, or_false] at hn
  rcases hn with rfl | rfl | rfl | rfl | rfl | rfl | rfl | rfl | rfl | rfl | rfl <;>
    exact if_pos hv

theorem step_flag (atoi : Str → Int) (s : St) (n : Str) (rest : List Str) (hn : n ∈ docFlags) :
    step atoi s n rest = (true, effect atoi s (.flag n), rest) := by
  simp only [docFlags, List.mem_cons, List.not_mem_nil, or_false] at hn
  rcases hn with rfl | rfl | rfl | rfl | rfl | rfl | rfl | rfl | rfl <;> rfl

/-- One option is read. -/
theorem loop_item (atoi : Str → Int) (f : Nat) (s : St) (i : Item) (rest : List Str) (hg : i.Good atoi) (hn : Next rest) :
    loop atoi (f + 1) s (i.render ++ rest) = loop atoi f (effect atoi s i) rest := by
  obtain ⟨hd, hg⟩ := hg
  have key : ∀ (a : Str) (r : List Str), i.render ++ rest = a :: r → step atoi s a r = (true, effect atoi s i, rest) →
      loop atoi (f + 1) s (i.render ++ rest) = loop atoi f (effect atoi s i) rest := by
    intro a r e h
    rw [e]
    have e2 : loop atoi (f + 1) s (a :: r) =
        if (step atoi s a r).1 = true then loop atoi f (step atoi s a r).2.1 (step atoi s a r).2.2 else (false, (step atoi s a r).2.1) := rfl
    rw [e2, h]
    exact if_pos rfl
  cases i with
  | ref x fmt =>
    cases fmt with
    | some b =>
      refine key _ _ rfl ?_
      rw [step_r]
      exact if_pos (hd b rfl)
    | none =>
      refine key _ _ rfl ?_
      rw [step_r]
      cases rest with
      | nil => rfl
      | cons y rest => exact if_neg (not_rfmt (hn y rfl))
  | hyp x fmt title =>
    cases fmt with
    | some b =>
      refine key _ _ rfl ?_
      rw [step_h]
      refine (if_pos (hd.1 b rfl)).trans ?_
      cases title with
      | some c => exact if_pos (hd.2 c rfl).1
      | none =>
        cases rest with
        | nil => rfl
        | cons y rest =>
          have : ¬ dash y = false := by rw [hn y rfl]; decide
          exact if_neg this
    | none =>
      have ht : title = none := hg
      subst ht
      refine key _ _ rfl ?_
      rw [step_h]
      cases rest with
      | nil => rfl
      | cons y rest =>
        have : ¬ dash y = false := by rw [hn y rfl]; decide
        refine (if_neg (not_fmt (hn y rfl))).trans ?_
        exact if_neg this
  | uem x side =>
    cases side with
    | some b =>
      refine key _ _ rfl ?_
      rw [step_uem]
      exact if_pos (hd b rfl)
    | none =>
      refine key _ _ rfl ?_
      rw [step_uem]
      cases rest with
      | nil => rfl
      | cons y rest => exact if_neg (not_side (hn y rfl))
  | overlap side =>
    cases side with
    | some b =>
      refine key _ _ rfl ?_
      rw [step_overlap]
      exact if_pos (hd b rfl)
    | none =>
      refine key _ _ rfl ?_
      rw [step_overlap]
      cases rest with
      | nil => rfl
      | cons y rest => exact if_neg (not_side (hn y rfl))
  | flag n => exact key n rest rfl (step_flag atoi s n rest hd)
  | value n v => exact key n (v :: rest) rfl (step_value atoi s n v rest hd.1 hd.2)
  | optional side =>
    cases side with
    | some b =>
      refine key _ _ rfl ?_
      rw [step_D]
      refine if_pos ⟨side_plain (hd b rfl), ?_⟩
      rcases Decidable.em (b = "ref".toList) with rfl | h
      · exact Or.inr (Or.inl (by decide))
      · exact Or.inl h
    | none =>
      refine key _ _ rfl ?_
      rw [step_D]
      cases rest with
      | nil => rfl
      | cons y rest =>
        have : ¬ dash y = false := by rw [hn y rfl]; decide
        exact if_neg (fun h => this h.1)
  | outDir v =>
    have hv : dash v = false := hd
    exact key "-O".toList (v :: rest) rfl (if_pos hv)
  | feedback v =>
    have hv : dash v = false := hd
    exact key "-f".toList (v :: rest) rfl (if_pos hv)
  | width v =>
    have hv : dash v = false := hd
    exact key "-l".toList (v :: rest) rfl (if_pos hv)
  | threads v =>
    have hv : dash v = false := hd.1
    refine key "-threads".toList (v :: rest) rfl ((if_pos hv).trans ?_)
    have : ¬ atoi v < 1 := by have := hd.2; omega
    rw [decide_eq_true this]
    rfl
  | reports l =>
    refine key "-o".toList (l ++ rest) rfl ?_
    rw [step_o, takeReports_all l 4 s.output rest hd.2.1 hd.2.2 hn]
    have : (s.output ++ l).isEmpty = false := by
      cases h : s.output ++ l with
      | nil => exact absurd (List.append_eq_nil_iff.1 h).2 hd.1
      | cons => rfl
    show (true && !(s.output ++ l).isEmpty, _, _) = _
    rw [this]
    rfl

theorem render_ne (i : Item) (atoi : Str → Int) (h : i.Doc atoi) : ∃ a r, i.render = a :: r ∧ dash a = true := by
  cases i with
  | flag n =>
    refine ⟨n, [], rfl, ?_⟩
    have hn : n ∈ docFlags := h
    simp only [docFlags, List.mem_cons, List.not_mem_nil, or_false] at hn
    rcases hn with rfl | rfl | rfl | rfl | rfl | rfl | rfl | rfl | rfl <;> decide
  | value n v =>
    refine ⟨n, [v], rfl, ?_⟩
    have hn : n ∈ docValues := h.1
    simp only [docValues, List.mem_cons, List.not_mem_nil, or_false] at hn
    rcases hn with rfl | rfl | rfl | rfl | rfl | rfl | rfl | rfl | rfl | rfl | rfl <;> decide
  | _ => exact ⟨_, _, rfl, by decide⟩

/-- The command line that is written with the options `items`. -/
def cmd (items : List Item) : List Str := items.flatMap Item.render

theorem next_cmd (atoi : Str → Int) (items : List Item) (rest : List Str) (hg : ∀ i ∈ items, i.Good atoi) (hn : Next rest) :
    Next (cmd items ++ rest) := by
  cases items with
  | nil => exact hn
  | cons i items =>
    obtain ⟨a, r, e, hd⟩ := render_ne i atoi (hg i List.mem_cons_self).1
    intro x hx
    rw [cmd, List.flatMap_cons, e] at hx
    obtain rfl : a = x := by simpa using hx
    exact hd

/-- The options are read one after the other. -/
theorem loop_items (atoi : Str → Int) : ∀ (items : List Item) (f : Nat) (s : St) (rest : List Str), (∀ i ∈ items, i.Good atoi) → Next rest →
    (cmd items ++ rest).length ≤ f →
    ∃ f', rest.length ≤ f' ∧ loop atoi f s (cmd items ++ rest) = loop atoi f' (items.foldl (effect atoi) s) rest
  | [], f, s, rest, _, _, hl => ⟨f, hl, rfl⟩
  | i :: items, f, s, rest, hg, hn, hl => by
    have hg' : ∀ j ∈ items, j.Good atoi := fun j hj => hg j (List.mem_cons_of_mem _ hj)
    obtain ⟨a, r, e, _⟩ := render_ne i atoi (hg i List.mem_cons_self).1
    have hc : cmd (i :: items) ++ rest = i.render ++ (cmd items ++ rest) := by
      rw [cmd, List.flatMap_cons, List.append_assoc]; rfl
    have hr : 1 ≤ i.render.length := by rw [e]; simp
    rw [hc, List.length_append] at hl
    obtain ⟨g, rfl⟩ : ∃ g, f = g + 1 := ⟨f - 1, by omega⟩
    obtain ⟨f', h1, h2⟩ := loop_items atoi items g (effect atoi s i) rest hg' hn (by omega)
    refine ⟨f', h1, ?_⟩
    rw [hc, loop_item atoi g s i _ (hg i List.mem_cons_self) (next_cmd atoi items rest hg' hn), h2]
    rfl

/-- A command line of documented options leads to the checks with what the options do. -/
theorem main_items (atoi : Str → Int) (items : List Item) (hg : ∀ i ∈ items, i.Good atoi) (hne : items ≠ []) :
    main' atoi (cmd items) = finish true (items.foldl (effect atoi) start) := by
  cases items with
  | nil => exact absurd rfl hne
  | cons i items =>
    obtain ⟨a, r, e, _⟩ := render_ne i atoi (hg i List.mem_cons_self).1
    have hc : cmd (i :: items) = a :: (r ++ cmd items) := by
      rw [cmd, List.flatMap_cons, e]; rfl
    obtain ⟨f', _, h2⟩ := loop_items atoi (i :: items) (cmd (i :: items)).length start [] hg (nofun) (by rw [List.append_nil]; exact Nat.le_refl _)
    rw [List.append_nil] at h2
    have h3 : loop atoi f' ((i :: items).foldl (effect atoi) start) [] = (true, (i :: items).foldl (effect atoi) start) := by
      cases f' <;> rfl
    rw [h3] at h2
    rw [hc] at h2 ⊢
    show finish _ _ = _
    rw [h2]

theorem lastOf_cons {X : Type} (f : Item → Option X) (i : Item) (items : List Item) :
    lastOf f (i :: items) = (lastOf f items).or (f i) := by
  unfold lastOf
  cases h : f i with
  | none => rw [List.filterMap_cons_none h, Option.or_none]
  | some x =>
    rw [List.filterMap_cons_some h, List.getLast?_cons]
    cases (items.filterMap f).getLast? <;> rfl

theorem fold_last {X : Type} (atoi : Str → Int) (π : St → X) (f : Item → Option X) (h : ∀ s i, π (effect atoi s i) = (f i).getD (π s)) :
    ∀ (items : List Item) (s : St), π (items.foldl (effect atoi) s) = (lastOf f items).getD (π s)
  | [], _ => rfl
  | i :: items, s => by
    rw [List.foldl_cons, fold_last atoi π f h items, h, lastOf_cons]
    cases lastOf f items <;> rfl

theorem fold_lastO {X : Type} (atoi : Str → Int) (π : St → Option X) (f : Item → Option X)
    (h : ∀ s i, π (effect atoi s i) = (f i).or (π s)) :
    ∀ (items : List Item) (s : St), π (items.foldl (effect atoi) s) = (lastOf f items).or (π s)
  | [], _ => rfl
  | i :: items, s => by
    rw [List.foldl_cons, fold_lastO atoi π f h items, h, lastOf_cons]
    cases lastOf f items <;> rfl

theorem effect_flag_field {X : Type} (atoi : Str → Int) (π : St → X) (hπ : ∀ (s : St) (l : List Str), π { s with flags := l } = π s)
    (s : St) (n : Str) : π (effect atoi s (.flag n)) = π s := by
  show π (if n = "-spkrmap".toList then s else { s with flags := n :: s.flags }) = π s
  split
  · rfl
  · exact hπ s _

theorem fold_ref (atoi : Str → Int) (items : List Item) : (items.foldl (effect atoi) start).ref = refGiven items := by
  rw [fold_lastO atoi (·.ref) (fun i => match i with | .ref f fmt => some (f, fmt.getD "trn".toList) | _ => none)]
  · exact Option.or_none
  · intro s i
    cases i <;> first | rfl | exact effect_flag_field atoi (·.ref) (fun _ _ => rfl) s _

theorem fold_val (atoi : Str → Int) (n : Str) (items : List Item) :
    (items.foldl (effect atoi) start).vals.lookup n = lastValue n items := by
  rw [fold_lastO atoi (fun s => s.vals.lookup n) (fun i => match i with | .value m v => if m = n then some v else none | _ => none)]
  · exact Option.or_none
  · intro s i
    cases i with
    | value m v =>
      show List.lookup n ((m, v) :: s.vals) = (if m = n then some v else none).or _
      rw [List.lookup_cons]
      rcases Decidable.em (m = n) with rfl | h
      · simp
      · have : (n == m) = false := by simpa using fun e : n = m => h e.symm
        rw [this, if_neg h]
        rfl
    | flag m => exact effect_flag_field atoi (fun s => s.vals.lookup n) (fun _ _ => rfl) s _
    | _ => rfl

theorem fold_hyps (atoi : Str → Int) : ∀ (items : List Item) (s : St),
    (items.foldl (effect atoi) s).hyps = s.hyps ++ hypsGiven items
  | [], s => (List.append_nil _).symm
  | i :: items, s => by
    rw [List.foldl_cons, fold_hyps atoi items]
    cases i with
    | hyp f fmt title => show _ ++ _ ++ _ = _; rw [List.append_assoc]; rfl
    | flag m => rw [effect_flag_field atoi (·.hyps) (fun _ _ => rfl) s _]; rfl
    | _ => rfl

theorem fold_output (atoi : Str → Int) : ∀ (items : List Item) (s : St),
    (items.foldl (effect atoi) s).output = s.output ++ reportsGiven items
  | [], s => (List.append_nil _).symm
  | i :: items, s => by
    rw [List.foldl_cons, fold_output atoi items]
    cases i with
    | reports l => show _ ++ _ ++ _ = _; rw [List.append_assoc]; rfl
    | flag m => rw [effect_flag_field atoi (·.output) (fun _ _ => rfl) s _]; rfl
    | _ => rfl

theorem fold_props (atoi : Str → Int) (items : List Item) : (items.foldl (effect atoi) start).props = [] := by
  have : ∀ (items : List Item) (s : St), (items.foldl (effect atoi) s).props = s.props := by
    intro items
    induction items with
    | nil => intro s; rfl
    | cons i items ih =>
      intro s
      rw [List.foldl_cons, ih]
      cases i with
      | flag m => exact effect_flag_field atoi (·.props) (fun _ _ => rfl) s _
      | _ => rfl
  exact this items start

theorem fold_flags (atoi : Str → Int) (n : Str) (hn : n ≠ "-spkrmap".toList) : ∀ (items : List Item) (s : St),
    n ∈ (items.foldl (effect atoi) s).flags ↔ n ∈ s.flags ∨ given n items
  | [], s => by simp [given]
  | i :: items, s => by
    rw [List.foldl_cons, fold_flags atoi n hn items]
    have hg : given n (i :: items) ↔ i = .flag n ∨ given n items := by
      constructor
      · rintro ⟨j, hj, m, e, rfl⟩
        rcases List.mem_cons.1 hj with rfl | hj
        · exact Or.inl e
        · exact Or.inr ⟨j, hj, _, e, rfl⟩
      · rintro (e | ⟨j, hj, m, e, h⟩)
        · exact ⟨i, List.mem_cons_self, n, e, rfl⟩
        · exact ⟨j, List.mem_cons_of_mem _ hj, m, e, h⟩
    rw [hg]
    cases i with
    | flag m =>
      show n ∈ (if m = "-spkrmap".toList then s else { s with flags := m :: s.flags }).flags ∨ _ ↔ _
      rcases Decidable.em (m = "-spkrmap".toList) with rfl | h
      · rw [if_pos rfl]
        have : ¬ Item.flag "-spkrmap".toList = Item.flag n := by
          intro e; injection e with e; exact hn e.symm
        simp only [this, false_or]
      · rw [if_neg h]
        show n ∈ m :: s.flags ∨ _ ↔ _
        rw [List.mem_cons]
        constructor
        · rintro ((rfl | h) | h)
          · exact Or.inr (Or.inl rfl)
          · exact Or.inl h
          · exact Or.inr (Or.inr h)
        · rintro (h | e | h)
          · exact Or.inl (Or.inr h)
          · injection e with e; exact Or.inl (Or.inl e.symm)
          · exact Or.inr h
    | _ =>
      simp [effect]

/-- The variables after the documented options. -/
theorem fold_has (atoi : Str → Int) (n : String) (hn : n.toList ≠ "-spkrmap".toList) (items : List Item) :
    (items.foldl (effect atoi) start).has n = true ↔ given n.toList items := by
  unfold St.has
  rw [decide_eq_true_iff, fold_flags atoi _ hn]
  simp [start]

/-- The options that are known. -/
def names : List Str := ["-h".toList, "-r".toList, "-uem".toList, "-spkrautooverlap".toList, "-spkrmap".toList, "--set-property".toList,
  "-D".toList, "-O".toList, "-f".toList, "-l".toList, "-o".toList, "-threads".toList] ++ flagNames ++ valueNames

theorem step_unknown (atoi : Str → Int) (s : St) (a : Str) (rest : List Str) (h : a ∉ names) : step atoi s a rest = (false, s, rest) := by
  have h' : ∀ n ∈ names, a ≠ n := fun n hn e => h (e ▸ hn)
  have hf : a ∉ flagNames := fun hm => h (by unfold names; simp [hm])
  have hv : a ∉ valueNames := fun hm => h (by unfold names; simp [hm])
  unfold step
  rw [if_neg (h' "-h".toList (by decide)), if_neg (h' "-r".toList (by decide)), if_neg (h' "-uem".toList (by decide)),
    if_neg (h' "-spkrautooverlap".toList (by decide)), if_neg (h' "-spkrmap".toList (by decide)), if_neg hf, if_neg hv,
    if_neg (h' "--set-property".toList (by decide)), if_neg (h' "-D".toList (by decide)), if_neg (h' "-O".toList (by decide)),
    if_neg (h' "-f".toList (by decide)), if_neg (h' "-l".toList (by decide)), if_neg (h' "-o".toList (by decide)),
    if_neg (h' "-threads".toList (by decide))]

theorem finish_false (s : St) : ∀ x, finish false s ≠ .run x := by
  intro x
  unfold finish
  dsimp only
  split
  · split
    · nofun
    · split
      · rename_i h; exact absurd h.1 (by decide)
      · nofun
  · split
    · rename_i h; exact absurd h.1 (by decide)
    · nofun

/-- A bad option after documented ones. -/
theorem main_bad (atoi : Str → Int) (items : List Item) (hg : ∀ i ∈ items, i.Good atoi) (a : Str) (rest : List Str) (ha : dash a = true)
    (hb : ∀ s, (step atoi s a rest).1 = false) : ∀ x, main' atoi (cmd items ++ a :: rest) ≠ .run x := by
  obtain ⟨f', h1, h2⟩ := loop_items atoi items (cmd items ++ a :: rest).length start (a :: rest) hg
    (fun x hx => by obtain rfl : a = x := by simpa using hx
                    exact ha) (Nat.le_refl _)
  have h3 : (loop atoi (cmd items ++ a :: rest).length start (cmd items ++ a :: rest)).1 = false := by
    rw [h2]
    cases f' with
    | zero => exact absurd h1 (by simp)
    | succ g =>
      unfold loop
      dsimp only
      rw [if_neg (by rw [hb]; decide)]
  cases hc : cmd items ++ a :: rest with
  | nil => simp at hc
  | cons b r =>
    rw [hc] at h3
    show ∀ x, finish _ _ ≠ _
    rw [h3]
    exact finish_false _

end Verif.AscArgs
