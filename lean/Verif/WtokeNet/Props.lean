import Verif.WtokeNet.Total
import Verif.Net.Props
/-!
# Networks from time-marked words (sclite): properties
-/
set_option autoImplicit false
namespace Verif.WtokeNet
open Verif.Net Verif.Split Verif.Text
open Verif.Chop (Out)

/-! ### C113 -/

/-- C113: the network made of the lines of a time-marked file can be read as exactly the word sequences the lines stand for: every
word that is not to be ignored, and one alternative of each alternation, all in the order of the file, with their times and
confidences; an empty last alternative is read as the null word.  The lines after the given ones make no difference.
Missing: alternations with an empty alternative that is not the last of several, or without `<ALT_END>` (see below). -/
theorem network_readings_partial (enc : Enc) (hasConf : Bool) (its : List Item) (after : List Tok) (hok : ∀ i ∈ its, i.Ok enc) :
    ∃ n, create enc hasConf true (linesOf its ++ after) (linesOf its).length = .ok n ∧ ∀ ws, n.Produces ws ↔ Reads enc hasConf its ws := by
  obtain ⟨n, h1, h2⟩ := create_made enc hasConf true its after hok
  exact ⟨n, h1, h2.lang⟩

/-- The network is well-formed: acyclic, every node on the way from start to stop, every arc with a word; and it has no more arcs
than there are lines. -/
theorem network_well_formed_partial (enc : Enc) (hasConf ltr : Bool) (its : List Item) (after : List Tok) (hok : ∀ i ∈ its, i.Ok enc) :
    ∃ n, create enc hasConf ltr (linesOf its ++ after) (linesOf its).length = .ok n ∧ (∃ r, n.WF r) ∧ n.Words ∧
      n.nArcs ≤ (linesOf its).length := by
  obtain ⟨n, h1, h2⟩ := create_made enc hasConf ltr its after hok
  exact ⟨n, h1, h2.wf, h2.words, h2.arcs⟩

/-! ### C114 -/

/-- C114: for scripts written from right to left, the readings are the same with the words in reverse order. -/
theorem reversed_readings_partial (enc : Enc) (hasConf : Bool) (its : List Item) (after : List Tok) (hok : ∀ i ∈ its, i.Ok enc) :
    ∃ n, create enc hasConf false (linesOf its ++ after) (linesOf its).length = .ok n ∧
      ∀ ws, n.Produces ws ↔ Reads enc hasConf its ws.reverse := by
  obtain ⟨n, h1, h2⟩ := create_made enc hasConf false its after hok
  exact ⟨n, h1, h2.lang⟩

/-! ### C115 -/

theorem lefts_dir (ltr : Bool) (s : List (Step Wd)) : lefts (dir ltr s) = dir ltr (lefts s) := by
  cases ltr with
  | true => rfl
  | false => simp [dir, lefts]

theorem rights_dir (ltr : Bool) (s : List (Step Wd)) : rights (dir ltr s) = dir ltr (rights s) := by
  cases ltr with
  | true => rfl
  | false => simp [dir, rights]

theorem cost_dir (F : Funcs Wd) (ltr : Bool) (s : List (Step Wd)) : costOf F (dir ltr s) = costOf F s := by
  cases ltr with
  | true => rfl
  | false =>
    show ((s.reverse.map (Step.cost F)).sum : Int) = _
    unfold costOf
    rw [List.map_reverse]
    induction s with
    | nil => rfl
    | cons x s ih => simp [ih]; omega

/-- C115: two time-marked word lists, both possibly with alternations, are aligned at the lowest total of the standard costs over
all readings of the one and all readings of the other, and that total is the same whether the lines are read from left to right
or from right to left.  The path reported belongs to one reading of each, in that order. -/
theorem alignment_best_partial (F : Funcs Wd) (hd : F.dist = wwd F.isNull F.optDel F.equal) (enc : Enc) (rc hc : Bool)
    (ref hyp : List Item) (ra ha : List Tok) (hr : ∀ i ∈ ref, i.Ok enc) (hh : ∀ i ∈ hyp, i.Ok enc)
    (fr : (linesOf ref).length < 65534) (fh : (linesOf hyp).length < 65534) :
    ∃ c, (∃ s, Reads enc rc ref (lefts s) ∧ Reads enc hc hyp (rights s) ∧ Total F s c) ∧
      (∀ s' c', Reads enc rc ref (lefts s') → Reads enc hc hyp (rights s') → Total F s' c' → c ≤ c') ∧
      ∀ ltr, ∃ a b, create enc rc ltr (linesOf ref ++ ra) (linesOf ref).length = .ok a ∧
        create enc hc ltr (linesOf hyp ++ ha) (linesOf hyp).length = .ok b ∧
        ∀ (fa fb : Net.Flags) (t0 : Table) (incl : Bool), fa.Uniform a → fb.Uniform b →
          ∃ la lb r s, dpalign F a b fa fb t0 incl = some (la, lb, r) ∧ r.cost = c ∧ Total F s c ∧
            Reads enc rc ref (if ltr then lefts s else (lefts s).reverse) ∧
            Reads enc hc hyp (if ltr then rights s else (rights s).reverse) ∧ r.path = s.flatMap (reported F incl) := by
  have key : ∀ ltr, ∃ a b, create enc rc ltr (linesOf ref ++ ra) (linesOf ref).length = .ok a ∧
        create enc hc ltr (linesOf hyp ++ ha) (linesOf hyp).length = .ok b ∧
        ∀ (fa fb : Net.Flags) (t0 : Table) (incl : Bool), fa.Uniform a → fb.Uniform b →
          ∃ la lb r s, dpalign F a b fa fb t0 incl = some (la, lb, r) ∧ costOf F s = r.cost ∧
            Reads enc rc ref (dir ltr (lefts s)) ∧ Reads enc hc hyp (dir ltr (rights s)) ∧ r.path = s.flatMap (reported F incl) ∧
            ∀ s', Reads enc rc ref (lefts s') → Reads enc hc hyp (rights s') → r.cost ≤ costOf F s' := by
    intro ltr
    obtain ⟨a, a1, a2⟩ := create_made enc rc ltr ref ra hr
    obtain ⟨b, b1, b2⟩ := create_made enc hc ltr hyp ha hh
    refine ⟨a, b, a1, b1, fun fa fb t0 incl ua ub => ?_⟩
    obtain ⟨xa, wa⟩ := a2.wf
    obtain ⟨xb, wb⟩ := b2.wf
    have na := a2.arcs
    have nb := b2.arcs
    obtain ⟨la, lb, r, h1, s, h2, h3, h4, h5, _⟩ := dpalign_spec F a b xa xb fa fb t0 incl 4000 wa wb a2.words b2.words ua ub (by omega)
      (by omega) (wwd_below F hd _ _ (by omega) (by omega))
    refine ⟨la, lb, r, s, h1, h3, (a2.lang _).1 h2.1, (b2.lang _).1 h2.2, h5, fun s' e1 e2 => ?_⟩
    have := h4 (dir ltr s') ⟨(a2.lang _).2 (by rw [lefts_dir, dir_dir]; exact e1), (b2.lang _).2 (by rw [rights_dir, dir_dir]; exact e2)⟩
    rw [cost_dir] at this
    exact this
  obtain ⟨a, b, _, _, h⟩ := key true
  obtain ⟨la, lb, r, s, _, h2, h3, h4, _, h6⟩ := h ⟨fun _ => 0, fun _ => false⟩ ⟨fun _ => 0, fun _ => false⟩ (fun _ _ => ⟨0, 0, 0⟩) false
    (fun _ _ => rfl) (fun _ _ => rfl)
  refine ⟨r.cost, ⟨s, h3, h4, (wwd_total F hd _ _).2 h2⟩, fun s' c' e1 e2 e3 => (wwd_total F hd _ _).1 e3 ▸ h6 s' e1 e2, fun ltr => ?_⟩
  obtain ⟨a', b', k1, k2, k⟩ := key ltr
  refine ⟨a', b', k1, k2, fun fa fb t0 incl ua ub => ?_⟩
  obtain ⟨la', lb', r', s', q1, q2, q3, q4, q5, q6⟩ := k fa fb t0 incl ua ub
  have e1 : r'.cost ≤ r.cost := by rw [← h2]; exact q6 s h3 h4
  have e2 : r.cost ≤ r'.cost := by
    have := h6 (dir ltr s') (by rw [lefts_dir]; exact q3) (by rw [rights_dir]; exact q4)
    rw [cost_dir, q2] at this
    exact this
  exact ⟨la', lb', r', s', q1, by omega, (wwd_total F hd _ _).2 (by omega), q3, q4, q5⟩

/-! ### C116 -/

/-- C116: making a network ends, however the lines are marked. -/
theorem construction_ends (enc : Enc) (hasConf ltr : Bool) (lines : List Tok) (k : Nat) : create enc hasConf ltr lines k ≠ .hang :=
  create_ends enc hasConf ltr lines k

/-! ### Cases that meet the hypotheses -/

/-- A line of an alternation. -/
def exT (sp : List Nat) (t : Rat) : Tok := ⟨sp, t, 1 / 2, 1, false, true⟩

/-- "<ALT_BEGIN>" -/
def exB : Tok := exT [60, 65, 76, 84, 95, 66, 69, 71, 73, 78, 62] 1
/-- "<ALT>" -/
def exO : Tok := exT [60, 65, 76, 84, 62] 1
/-- "<ALT_END>" -/
def exE : Tok := exT [60, 65, 76, 84, 95, 69, 78, 68, 62] 1

/-- a, an ignored x, and the alternation "b c" or "d" or nothing. -/
def exIts : List Item :=
  [.single ⟨[97], 0, 1, 1, false, false⟩, .skip ⟨[120], 1, 1, 1, true, false⟩,
    .block exB [exT [98] 1, exT [99] 2] [(exO, [exT [100] 1]), (exO, [])] exE]

example : ∀ i ∈ exIts, i.Ok .ascii := by
  intro i hi
  simp only [exIts, List.mem_cons, List.not_mem_nil, or_false] at hi
  rcases hi with e | e | e
  · subst e; exact ⟨rfl, rfl, ⟨[97], none, none⟩, by decide⟩
  · subst e; exact rfl
  · subst e
    refine ⟨rfl, rfl, (by unfold Is; decide), (by unfold Is; decide), (by decide), ?_, ?_, ?_⟩
    · intro t ht
      simp only [List.mem_cons, List.not_mem_nil, or_false] at ht
      rcases ht with e | e
      · subst e; exact ⟨by unfold Plain; decide, ⟨[98], none, none⟩, by decide⟩
      · subst e; exact ⟨by unfold Plain; decide, ⟨[99], none, none⟩, by decide⟩
    · intro x hx
      simp only [List.mem_cons, List.not_mem_nil, or_false] at hx
      rcases hx with e | e
      · subst e
        refine ⟨by unfold Is; decide, fun t ht => ?_⟩
        rw [List.mem_singleton.1 ht]
        exact ⟨by unfold Plain; decide, ⟨[100], none, none⟩, by decide⟩
      · subst e
        exact ⟨by unfold Is; decide, fun t ht => by cases ht⟩
    · intro x hx
      rw [List.mem_singleton.1 hx]
      decide

/-- The arcs of a network: from, to, text. -/
def arcsOf (o : Out (Net Wd)) : List (Nat × Nat × Option (List Nat)) :=
  match o with
  | .ok n => ((List.range n.nNodes).flatMap n.out).map fun a => (n.src a, n.dst a, (n.data a).map (·.parts.value))
  | _ => []

/-- The example, from left to right and from right to left. -/
example : arcsOf (create .ascii true true (linesOf exIts) (linesOf exIts).length) =
    [(0, 2, some [97]), (2, 5, some [98]), (2, 1, some [100]), (2, 1, some [64]), (5, 1, some [99])] := by decide +kernel
example : arcsOf (create .ascii true false (linesOf exIts) (linesOf exIts).length) =
    [(0, 5, some [99]), (0, 2, some [100]), (0, 2, some [64]), (2, 1, some [97]), (5, 2, some [98])] := by decide +kernel

/-! ### Outside of the hypotheses -/

/-- No word of a network has the text `v`. -/
def Lacks (v : List Nat) (o : Out (Net Wd)) : Prop := ∃ n, o = .ok n ∧ ∀ ws, n.Produces ws → ∀ w ∈ ws, w.parts.value ≠ v

/-- A check that the nodes below `nNodes` are closed under the arcs and that no arc between them has a word with the text `v`. -/
def lackCheck (v : List Nat) (o : Out (Net Wd)) : Bool :=
  match o with
  | .ok n => n.start < n.nNodes && (List.range n.nNodes).all fun u => (n.out u).all fun a =>
      n.dst a < n.nNodes && (n.data a).map (·.parts.value) ≠ some v
  | _ => false

theorem lacks_of_check {v : List Nat} {o : Out (Net Wd)} (h : lackCheck v o = true) : Lacks v o := by
  cases o with
  | ok n =>
    refine ⟨n, rfl, fun ws hw => ?_⟩
    simp only [lackCheck, Bool.and_eq_true, decide_eq_true_eq, List.all_eq_true, List.mem_range] at h
    obtain ⟨h0, h1⟩ := h
    have key : ∀ p u s, n.Walk u p s → u < n.nNodes → ∀ ws : List Wd, p.map n.data = ws.map some → ∀ w ∈ ws, w.parts.value ≠ v := by
      intro p
      induction p with
      | nil =>
        intro u s _ _ ws e w hm
        cases ws with
        | nil => cases hm
        | cons _ _ => cases e
      | cons a p ih =>
        intro u s hp hu ws e w hm
        cases hp with
        | cons _ _ _ _ ha hp =>
          cases ws with
          | nil => cases e
          | cons x ws =>
            rw [List.map_cons, List.map_cons, List.cons.injEq] at e
            have h2 := h1 u hu a ha
            cases hm with
            | head =>
              intro hv
              apply h2.2
              rw [e.1]
              show some w.parts.value = _
              rw [hv]
            | tail _ hm => exact ih _ _ hp h2.1 ws e.2 w hm
    unfold Net.Produces at hw
    revert hw
    cases n.stop with
    | none => intro e w hm; subst e; cases hm
    | some s => exact fun ⟨p, hp, e⟩ => key p _ s hp h0 ws e
  | undef => cases h
  | hang => cases h
  | fail => cases h

/-- An empty alternative that is not the last one loses the first word of the next: `<ALT_BEGIN> <ALT> b <ALT_END>` cannot be read
as b, and `<ALT_BEGIN> b <ALT> <ALT> c <ALT_END>` cannot be read as c. -/
theorem empty_alternative_loses_word : Lacks [98] (create .ascii true true [exB, exO, exT [98] 1, exE] 4) ∧
    Lacks [99] (create .ascii true true [exB, exT [98] 1, exO, exO, exT [99] 1, exE] 6) :=
  ⟨lacks_of_check (by decide +kernel), lacks_of_check (by decide +kernel)⟩

/-- An alternation with nothing in it loses the word after it, although that is outside of the alternation, and takes the words
after that for another alternative, up to and beyond the last line. -/
theorem empty_alternation_loses_next_word :
    Lacks [99] (create .ascii true true [exB, exE, ⟨[99], 2, 1, 1, false, false⟩] 3) ∧
    (match create .ascii true true [exB, exE, ⟨[99], 2, 1, 1, false, false⟩, ⟨[100], 2, 1, 1, false, false⟩] 4 with
      | .undef => true | _ => false) = true :=
  ⟨lacks_of_check (by decide +kernel), by decide +kernel⟩

/-- Without `<ALT_END>` the lines after the last one are read. -/
theorem open_alternation_undefined : (match create .ascii true true [exB, exT [98] 1] 2 with | .undef => true | _ => false) = true := by
  decide +kernel

end Verif.WtokeNet
