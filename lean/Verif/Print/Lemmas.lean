import Verif.Print.Model
/-!
# Lemmas about the printing of alignments
-/
set_option autoImplicit false
namespace Verif.Print

/-- The characters taken by entries. -/
def tot (aux : Nat) (es : List Entry) : Nat := (es.map (fun e => 1 + width aux e)).sum

theorem tot_cons (aux : Nat) (e : Entry) (es : List Entry) : tot aux (e :: es) = 1 + width aux e + tot aux es := by
  simp [tot]

theorem scan_le (aux mx : Nat) : ∀ (es : List Entry) (p : Nat), scan aux mx p es ≤ es.length
  | [], p => by simp [scan]
  | e :: es, p => by
    unfold scan
    split
    · have := scan_le aux mx es (p + 1 + width aux e); simp; omega
    · simp

theorem scan_full (aux mx : Nat) : ∀ (es : List Entry) (p : Nat), scan aux mx p es < es.length →
    mx ≤ p + tot aux (es.take (scan aux mx p es))
  | [], p, h => by simp at h
  | e :: es, p, h => by
    unfold scan at h ⊢
    by_cases hp : p < mx
    · rw [if_pos hp] at h ⊢
      have := scan_full aux mx es (p + 1 + width aux e) (by simpa using h)
      rw [List.take_succ_cons, tot_cons]; omega
    · rw [if_neg hp]; simp [tot]; omega

theorem scan_fits (aux mx : Nat) : ∀ (es : List Entry) (p k : Nat), k < scan aux mx p es → p + tot aux (es.take k) < mx
  | [], p, k, h => by simp [scan] at h
  | e :: es, p, k, h => by
    unfold scan at h
    by_cases hp : p < mx
    · rw [if_pos hp] at h
      cases k with
      | zero => simp [tot]; exact hp
      | succ k =>
        have := scan_fits aux mx es (p + 1 + width aux e) k (by omega)
        rw [List.take_succ_cons, tot_cons]; omega
    · rw [if_neg hp] at h; omega

theorem scan_ge (aux mx : Nat) (es : List Entry) (p k : Nat) (hk : k < es.length)
    (h : p + tot aux (es.take k) < mx) : k < scan aux mx p es := by
  apply Classical.byContradiction
  intro hn
  have h1 := scan_full aux mx es p (by omega)
  have h2 : tot aux (es.take (scan aux mx p es)) ≤ tot aux (es.take k) := by
    have : es.take k = es.take (scan aux mx p es) ++ (es.drop (scan aux mx p es)).take (k - scan aux mx p es) := by
      rw [← List.take_add]; congr 1; omega
    rw [this]
    simp [tot]
  omega

theorem cell_length (w : Nat) (t : Text) (h : t.length ≤ w) : (cell w t).length = w + 1 := by
  simp [cell]; omega

theorem field_append_right (a l : Text) (c w : Nat) : field (a.length + c) w (a ++ l) = field c w l := by
  unfold field
  rw [← List.drop_drop, List.drop_left]

theorem cells_spec (f : Entry → Option Text) (aux : Nat) : ∀ (es : List Entry) (t : Text), cells f aux es = some t →
    (∀ e ∈ es, ∀ x, f e = some x → x.length ≤ width aux e) →
    t.length = tot aux es ∧ ∀ (k : Nat) (e : Entry), es[k]? = some e → ∃ x, f e = some x ∧
      Filled x (field (tot aux (es.take k)) (width aux e) t) ∧ field (tot aux (es.take k) + width aux e) 1 t = [' ']
  | [], t, h, _ => by
    unfold cells at h; cases h
    exact ⟨rfl, by intro k e h; simp at h⟩
  | e :: es, t, h, hw => by
    unfold cells at h
    cases hf : f e with
    | none => rw [hf] at h; cases h
    | some x =>
      cases hc : cells f aux es with
      | none => rw [hf, hc] at h; cases h
      | some ts =>
        rw [hf, hc] at h
        simp only [Option.some.injEq] at h
        obtain ⟨h1, h2⟩ := cells_spec f aux es ts hc (fun e' he => hw e' (by simp [he]))
        have hx := hw e (by simp) x hf
        have hl := cell_length (width aux e) x hx
        refine ⟨by rw [← h, List.length_append, hl, h1, tot_cons]; omega, ?_⟩
        intro k e' hk
        cases k with
        | zero =>
          simp only [List.getElem?_cons_zero, Option.some.injEq] at hk
          subst hk
          refine ⟨x, hf, ⟨width aux e - x.length, ?_⟩, ?_⟩
          · rw [← h]
            simp only [List.take_zero, tot, List.map_nil, List.sum_nil, field, List.drop_zero, cell]
            rw [List.append_assoc, List.take_append_of_le_length (by simp; omega), List.take_of_length_le (by simp; omega)]
          · rw [← h]
            simp only [List.take_zero, tot, List.map_nil, List.sum_nil, field, cell, Nat.zero_add]
            rw [List.append_assoc, List.drop_left' (by simp; omega)]
            rfl
        | succ k =>
          simp only [List.getElem?_cons_succ] at hk
          obtain ⟨y, y1, y2, y3⟩ := h2 k e' hk
          refine ⟨y, y1, ?_, ?_⟩
          · rw [← h, List.take_succ_cons, tot_cons, show 1 + width aux e = (cell (width aux e) x).length by rw [hl]; omega,
              field_append_right]
            exact y2
          · rw [← h, List.take_succ_cons, tot_cons, show 1 + width aux e = (cell (width aux e) x).length by rw [hl]; omega,
              Nat.add_assoc, field_append_right]
            exact y3

theorem asterisks_eq (n : Nat) (t : Text) (h : asterisks n = some t) : t = List.replicate n '*' := by
  unfold asterisks at h
  split at h
  · exact (Option.some.inj h).symm
  · cases h

theorem refCell_shown (up : Text → Text) (e : Entry) (t : Text) (h : refCell up e = some t) : t = shownRef up e := by
  cases e with
  | ins h' => exact asterisks_eq _ _ h
  | del r => exact (Option.some.inj h).symm
  | pair a r h' => cases a <;> exact (Option.some.inj h).symm

theorem hypCell_shown (up : Text → Text) (e : Entry) (t : Text) (h : hypCell up e = some t) : t = shownHyp up e := by
  cases e with
  | ins h' => exact (Option.some.inj h).symm
  | del r => exact asterisks_eq _ _ h
  | pair a r h' => cases a <;> exact (Option.some.inj h).symm

theorem evalCell_letter (e : Entry) : evalCell e = letter e := by
  cases e with
  | ins => rfl
  | del => rfl
  | pair a => cases a <;> rfl

theorem shownRef_fits (up : Text → Text) (hup : ∀ t, (up t).length = t.length) (aux : Nat) (e : Entry) :
    (shownRef up e).length ≤ width aux e := by
  cases e with
  | ins h => simp [shownRef, width, lenB]; omega
  | del r => simp [shownRef, width, lenA, hup]; omega
  | pair a r h => cases a <;> simp [shownRef, width, lenA, hup] <;> omega

theorem shownHyp_fits (up : Text → Text) (hup : ∀ t, (up t).length = t.length) (aux : Nat) (e : Entry) :
    (shownHyp up e).length ≤ width aux e := by
  cases e with
  | ins h => simp [shownHyp, width, lenB, hup]; omega
  | del r => simp [shownHyp, width, lenA]; omega
  | pair a r h => cases a <;> simp [shownHyp, width, lenB, hup] <;> omega

theorem letter_fits (aux : Nat) (e : Entry) (hw : e.Wf) : (letter e).length ≤ width aux e := by
  cases e with
  | ins h => simp [letter, width, lenA]; omega
  | del r => simp [letter, width, lenB]; omega
  | pair a r h =>
    cases a
    · have : 1 ≤ r.length ∨ 1 ≤ h.length := by
        rcases hw with h1 | h1
        · left; exact List.length_pos_iff.mpr h1
        · right; exact List.length_pos_iff.mpr h1
      simp [letter, width, lenA, lenB]; omega
    · simp [letter]

/-- The columns of entries. -/
def columns (aux base : Nat) (es : List Entry) : List (Nat × Nat) :=
  (List.range es.length).map (fun k => (base + tot aux (es.take k), (es[k]?.map (width aux)).getD 0))

theorem columns_get (aux base : Nat) (es : List Entry) (k c w : Nat) (h : (columns aux base es)[k]? = some (c, w)) :
    ∃ e, es[k]? = some e ∧ c = base + tot aux (es.take k) ∧ w = width aux e := by
  unfold columns at h
  rw [List.getElem?_map] at h
  cases hr : (List.range es.length)[k]? with
  | none => rw [hr] at h; cases h
  | some j =>
    rw [hr] at h
    have hk : k < es.length := by
      have := (List.getElem?_eq_some_iff.mp hr).1
      simpa using this
    rw [List.getElem?_range hk] at hr
    simp only [Option.some.injEq] at hr
    subst hr
    simp only [Option.map_some] at h
    rw [List.getElem?_eq_getElem hk] at h
    simp only [Option.map_some, Option.getD_some, Option.some.injEq, Prod.mk.injEq] at h
    exact ⟨es[k], List.getElem?_eq_getElem hk, h.1.symm, h.2.symm⟩

theorem tot_take_succ (aux : Nat) (es : List Entry) (k : Nat) (e : Entry) (h : es[k]? = some e) :
    tot aux (es.take (k + 1)) = tot aux (es.take k) + width aux e + 1 := by
  rw [List.take_add_one, h]
  simp [tot]; omega

theorem label_length (cont : Bool) (l : String) (h : l.toList.length = 6) :
    (label cont l).length = if cont then 9 else 6 := by
  cases cont <;> simp [label, h] <;> (try decide)

theorem block_shows (up : Text → Text) (hup : ∀ t, (up t).length = t.length) (aux : Nat) (cont : Bool) (es : List Entry) (b : Block)
    (hw : ∀ e ∈ es, e.Wf) (h : block up aux cont es = some b) :
    Shows up cont es b ∧ b.ref.length = (if cont then 9 else 6) + tot aux es := by
  unfold block at h
  cases h1 : cells (refCell up) aux es with
  | none => rw [h1] at h; cases h
  | some r =>
    cases h2 : cells (hypCell up) aux es with
    | none => rw [h1, h2] at h; cases h
    | some hh =>
      cases h3 : cells (fun e => some (evalCell e)) aux es with
      | none => rw [h1, h2, h3] at h; cases h
      | some v =>
        rw [h1, h2, h3] at h
        simp only [Option.some.injEq] at h
        obtain ⟨r1, r2⟩ := cells_spec _ aux es r h1 (by
          intro e _ x hx; rw [refCell_shown up e x hx]; exact shownRef_fits up hup aux e)
        obtain ⟨p1, p2⟩ := cells_spec _ aux es hh h2 (by
          intro e _ x hx; rw [hypCell_shown up e x hx]; exact shownHyp_fits up hup aux e)
        obtain ⟨v1, v2⟩ := cells_spec _ aux es v h3 (by
          intro e he x hx; rw [← Option.some.inj hx, evalCell_letter e]; exact letter_fits aux e (hw e he))
        have lr := label_length cont "REF:  " (by decide)
        have lh := label_length cont "HYP:  " (by decide)
        have lv := label_length cont "Eval: " (by decide)
        subst h
        refine ⟨⟨?_, ?_, ?_, columns aux (if cont then 9 else 6) es, ?_, ?_, ?_, ?_, ?_⟩, ?_⟩
        · cases cont <;> exact ⟨r, rfl⟩
        · cases cont <;> exact ⟨hh, rfl⟩
        · cases cont <;> exact ⟨v, rfl⟩
        · simp [columns]
        · intro c w hc
          obtain ⟨e, _, e2, _⟩ := columns_get aux _ es 0 c w hc
          rw [e2]; simp [tot]
        · intro k c w c' w' hc hc'
          obtain ⟨e, e1, e2, e3⟩ := columns_get aux _ es k c w hc
          obtain ⟨_, _, e2', _⟩ := columns_get aux _ es (k + 1) c' w' hc'
          rw [e2', tot_take_succ aux es k e e1, e2, e3]; omega
        · intro c w hc
          rw [List.getLast?_eq_getElem?] at hc
          obtain ⟨e, e1, e2, e3⟩ := columns_get aux _ es _ c w hc
          have hlen : (columns aux (if cont then 9 else 6) es).length = es.length := by simp [columns]
          rw [hlen] at e1 e2
          have hpos : 0 < es.length := by
            apply Classical.byContradiction
            intro hn
            have : es = [] := List.length_eq_zero_iff.mp (by omega)
            rw [this] at e1; simp at e1
          have ht : tot aux es = tot aux (es.take (es.length - 1)) + width aux e + 1 := by
            rw [← tot_take_succ aux es _ e e1, show es.length - 1 + 1 = es.length by omega, List.take_length]
          simp only [List.length_append, lr, lh, lv, r1, p1, v1]
          rw [ht, e2, e3]
          omega
        · intro k e c w hk hc
          obtain ⟨e', e1, e2, e3⟩ := columns_get aux _ es k c w hc
          rw [hk] at e1
          simp only [Option.some.injEq] at e1
          subst e1
          subst e2 e3
          obtain ⟨x, x1, x2, x3⟩ := r2 k e hk
          obtain ⟨y, y1, y2, y3⟩ := p2 k e hk
          obtain ⟨z, z1, z2, z3⟩ := v2 k e hk
          rw [refCell_shown up e x x1] at x2
          rw [hypCell_shown up e y y1] at y2
          rw [← Option.some.inj z1, evalCell_letter e] at z2
          refine ⟨?_, ?_, ?_, ?_, ?_, ?_⟩
          · rw [← lr, field_append_right]; exact x2
          · rw [← lh, field_append_right]; exact y2
          · rw [← lv, field_append_right]; exact z2
          · rw [← lr, Nat.add_assoc, field_append_right]; exact x3
          · rw [← lh, Nat.add_assoc, field_append_right]; exact y3
          · rw [← lv, Nat.add_assoc, field_append_right]; exact z3
        · simp only [List.length_append, lr, r1]

end Verif.Print
