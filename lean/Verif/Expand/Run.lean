import Verif.Expand.Nodes
import Verif.Expand.Subst
import Verif.Expand.Lexing
/-!
# Running the expansion
-/
set_option autoImplicit false
namespace Verif.Expand
open Verif.LineStyle

theorem mem_erase_once {l : List Nat} {t : Nat} (h : l.count t ≤ 1) (y : Nat) : y ∈ l.erase t ↔ y ∈ l ∧ y ≠ t := by
  by_cases hy : y = t
  · subst hy
    constructor
    · intro h1
      have := List.count_pos_iff.2 h1
      rw [List.count_erase_self] at this
      omega
    · rintro ⟨_, h1⟩
      exact absurd rfl h1
  · rw [List.mem_erase_of_ne hy]
    simp [hy]

theorem mem_ids {l : List Node} {y : Nat} : y ∈ l.map Node.id ↔ ∃ x ∈ l, x.id = y := by simp [List.mem_map]

/-- What a turn of the loop does for a token that is taken apart. -/
structure Turned (v : Env) (t : Nat) (s s' : Store) (sg sg' : Seg) (p : Piece) : Prop where
  wf : WF s'
  grows : s.fresh ≤ s'.fresh
  old : ∀ k, k < s.fresh → s'.tok k = s.tok k
  new : ∀ x ∈ nodes p, s'.tok x.id = mkTok v (s.tok t) x
  ids : ∀ x ∈ nodes p, s.fresh ≤ x.id ∧ x.id < s'.fresh
  same : ∀ x, x < s.fresh → x ≠ t → t ∉ s.next x → s'.next x = s.next x
  gone : ∀ x, t ∉ s'.next x ∧ x ∉ s'.next t
  links : ∀ x y, y ∈ s'.next x ↔ x ≠ t ∧ y ≠ t ∧ (y ∈ s.next x ∨ (∃ e ∈ p.edges, e.1.id = x ∧ e.2.id = y) ∨
    (t ∈ s.next x ∧ ∃ z ∈ p.starts, z.id = y) ∨ ((∃ z ∈ p.ends, z.id = x) ∧ y ∈ s.next t))
  first : ∀ y, y ∈ sg'.first ↔ (y ∈ sg.first ∧ y ≠ t) ∨ (t ∈ sg.first ∧ ∃ z ∈ p.starts, z.id = y)
  last : ∀ y, y ∈ sg'.last ↔ (y ∈ sg.last ∧ y ≠ t) ∨ (t ∈ sg.last ∧ ∃ z ∈ p.ends, z.id = y)
  firstOnce : ∀ k, k < s.fresh → sg'.first.count k ≤ sg.first.count k
  lastOnce : ∀ k, k < s.fresh → sg'.last.count k ≤ sg.last.count k
  time : sg'.start = sg.start ∧ sg'.stop = sg.stop

theorem expandTok_turned {f : Nat} {v : Env} {t : Nat} {s : Store} {sg : Seg} (hw : WF s) (ht : t < s.fresh) (hm : Marked (textOf v s t))
    (hT : Timed s sg t) (hF : sg.first.count t ≤ 1) (hL : sg.last.count t ≤ 1) {p : Piece} {c : Nat}
    (hp : parse f (lex [] (blanked (textOf v s t))) s.fresh = some (p, c)) :
    ∃ s' sg', expandTok f v t s sg = .ok (s', sg') ∧ Turned v t s s' sg sg' p := by
  have hf := fwd_parse _ _ _ _ _ hp
  have h1 := one_parse _ _ _ _ _ hp
  obtain ⟨i1, i2, i3, i4, i5, i6, i7⟩ := install_spec v (s.tok t) (s := s) hf h1 hw.sym
  have hin : ∀ z, z ∈ nodes p → s.fresh ≤ z.id ∧ z.id < c := fun z hz => fwd_nodes hf z hz
  have hS : t ∉ p.starts.map Node.id := by
    intro h
    obtain ⟨z, hz, e⟩ := mem_ids.1 h
    have := hin z (mem_nodes.2 (Or.inl hz))
    omega
  have hTn : t ∉ p.ends.map Node.id := by
    intro h
    obtain ⟨z, hz, e⟩ := mem_ids.1 h
    have := hin z (mem_nodes.2 (Or.inr (Or.inl hz)))
    omega
  have htimes := times_within f _ _ _ p hp (s.tok t).start (s.tok t).stop hT.order
  obtain ⟨s', sg', r1, r2, r3, r4, r5, r6, r7, r8, r9⟩ := replace_spec (s := install v (s.tok t) p c s) i1 (sg := sg) (t := t)
    (S := p.starts.map Node.id) (T := p.ends.map Node.id) (by rw [i6 t ht]; exact hw.noloop t) hS hTn
    (by
      intro h x hx
      obtain ⟨z, hz, rfl⟩ := mem_ids.1 hx
      rw [i3 z (mem_nodes.2 (Or.inl hz))]
      have := (htimes z (Or.inl hz)).1
      have := hT.first h
      show ¬ (z.start _ _ ≠ -1 ∧ z.start _ _ < _)
      omega)
    (by
      intro h x hx
      obtain ⟨z, hz, rfl⟩ := mem_ids.1 hx
      rw [i3 z (mem_nodes.2 (Or.inr (Or.inl hz)))]
      have := (htimes z (Or.inr (Or.inl hz))).2.2
      have := hT.last h
      show ¬ (z.start _ _ + z.dur _ _ ≠ -1 ∧ z.start _ _ + z.dur _ _ > _)
      omega)
  have hlinks : ∀ x y, y ∈ s'.next x ↔ x ≠ t ∧ y ≠ t ∧ (y ∈ s.next x ∨ (∃ e ∈ p.edges, e.1.id = x ∧ e.2.id = y) ∨
      (t ∈ s.next x ∧ ∃ z ∈ p.starts, z.id = y) ∨ ((∃ z ∈ p.ends, z.id = x) ∧ y ∈ s.next t)) := by
    intro x y
    rw [r5, i5, i5 x t, i6 t ht, mem_ids, mem_ids]
    have hno : ¬ ∃ e ∈ p.edges, e.1.id = x ∧ e.2.id = t := by
      rintro ⟨e, he, _, e2⟩
      have := (hf.inside.edges e he).2
      omega
    constructor
    · rintro ⟨a, b, (h | h) | ⟨h | h, h'⟩ | h⟩
      · exact ⟨a, b, Or.inl h⟩
      · exact ⟨a, b, Or.inr (Or.inl h)⟩
      · exact ⟨a, b, Or.inr (Or.inr (Or.inl ⟨h, h'⟩))⟩
      · exact absurd h hno
      · exact ⟨a, b, Or.inr (Or.inr (Or.inr h))⟩
    · rintro ⟨a, b, h | h | ⟨h, h'⟩ | h⟩
      · exact ⟨a, b, Or.inl (Or.inl h)⟩
      · exact ⟨a, b, Or.inl (Or.inr h)⟩
      · exact ⟨a, b, Or.inr (Or.inl ⟨Or.inl h, h'⟩)⟩
      · exact ⟨a, b, Or.inr (Or.inr h)⟩
  have hcf : s'.fresh = c := by rw [r4, i2]
  have hfc : s.fresh ≤ c := hf.le
  refine ⟨s', sg', ?_, ⟨⟨r2, ?_, ?_⟩, by rw [hcf]; exact hfc, ?_, ?_, ?_, ?_, ?_, hlinks, ?_, ?_, ?_, ?_, r9⟩⟩
  · unfold expandTok
    have hm' : marked (v.text (s.tok t).src) = true := (marked_iff _).2 hm
    rw [if_pos hm', text_words, show lex [] (blanked (v.text (s.tok t).src)) = lex [] (blanked (textOf v s t)) from rfl, hp]
    dsimp only
    rw [r1]
  · intro x y hy
    rw [hcf]
    rcases ((hlinks x y).1 hy).2.2 with h | ⟨e, he, rfl, rfl⟩ | ⟨h, z, hz, rfl⟩ | ⟨⟨z, hz, rfl⟩, h⟩
    · have := hw.inside x y h; omega
    · exact ⟨(hf.inside.edges e he).1.2, (hf.inside.edges e he).2.2⟩
    · have := hw.inside x t h; have := hin z (mem_nodes.2 (Or.inl hz)); omega
    · have := hw.inside t y h; have := hin z (mem_nodes.2 (Or.inr (Or.inl hz))); omega
  · intro x hx
    rcases ((hlinks x x).1 hx).2.2 with h | ⟨e, he, e1, e2⟩ | ⟨h, z, hz, rfl⟩ | ⟨⟨z, hz, rfl⟩, h⟩
    · exact hw.noloop x h
    · have := hf.up e he; omega
    · have := hw.inside _ t h; have := hin z (mem_nodes.2 (Or.inl hz)); omega
    · have := hw.inside t _ h; have := hin z (mem_nodes.2 (Or.inr (Or.inl hz))); omega
  · intro k hk
    rw [r3, i4 k hk]
  · intro x hx
    rw [r3, i3 x hx]
  · intro x hx
    rw [hcf]
    exact hin x hx
  · intro x hx hxt hn
    rw [r6 x hxt (by rw [i6 x hx]; exact hn) ?_, i6 x hx]
    intro h
    obtain ⟨z, hz, rfl⟩ := mem_ids.1 h
    have := hin z (mem_nodes.2 (Or.inr (Or.inl hz)))
    omega
  · intro x
    exact ⟨fun h => ((hlinks x t).1 h).2.1 rfl, fun h => ((hlinks t x).1 h).1 rfl⟩
  · intro y
    rw [r7]
    by_cases h : t ∈ sg.first
    · rw [if_pos h, mem_erase_once (by rw [List.count_append, List.count_eq_zero.2 hS]; exact hF), List.mem_append, mem_ids]
      constructor
      · rintro ⟨h1 | h1, h2⟩
        · exact Or.inl ⟨h1, h2⟩
        · exact Or.inr ⟨h, h1⟩
      · rintro (⟨h1, h2⟩ | ⟨_, z, hz, rfl⟩)
        · exact ⟨Or.inl h1, h2⟩
        · refine ⟨Or.inr ⟨z, hz, rfl⟩, ?_⟩
          have := hin z (mem_nodes.2 (Or.inl hz))
          omega
    · rw [if_neg h, mem_erase_once hF]
      simp [h]
  · intro y
    rw [r8]
    by_cases h : t ∈ sg.last
    · rw [if_pos h, mem_erase_once (by rw [List.count_append, List.count_eq_zero.2 hTn]; exact hL), List.mem_append, mem_ids]
      constructor
      · rintro ⟨h1 | h1, h2⟩
        · exact Or.inl ⟨h1, h2⟩
        · exact Or.inr ⟨h, h1⟩
      · rintro (⟨h1, h2⟩ | ⟨_, z, hz, rfl⟩)
        · exact ⟨Or.inl h1, h2⟩
        · refine ⟨Or.inr ⟨z, hz, rfl⟩, ?_⟩
          have := hin z (mem_nodes.2 (Or.inr (Or.inl hz)))
          omega
    · rw [if_neg h, mem_erase_once hL]
      simp [h]
  · intro k hk
    have hk' : (p.starts.map Node.id).count k = 0 := by
      rw [List.count_eq_zero]
      intro h
      obtain ⟨z, hz, e⟩ := mem_ids.1 h
      have := hin z (mem_nodes.2 (Or.inl hz))
      omega
    rw [r7]
    refine Nat.le_trans (List.erase_sublist.count_le _) ?_
    split
    · rw [List.count_append, hk']; omega
    · omega
  · intro k hk
    have hk' : (p.ends.map Node.id).count k = 0 := by
      rw [List.count_eq_zero]
      intro h
      obtain ⟨z, hz, e⟩ := mem_ids.1 h
      have := hin z (mem_nodes.2 (Or.inr (Or.inl hz)))
      omega
    rw [r8]
    refine Nat.le_trans (List.erase_sublist.count_le _) ?_
    split
    · rw [List.count_append, hk']; omega
    · omega

/-! ## Reading -/

/-- The token `t` stands for `M t` wherever its text is parsed. -/
def Parses (f : Nat) (v : Env) (s : Store) (M : Nat → List Word → Prop) (t : Nat) : Prop :=
  ∀ c p c', parse f (lex [] (blanked (textOf v s t))) c = some (p, c') →
    ∀ u, M t u ↔ ∃ w, Spells p w ∧ u = w.map (deco (v.optional (s.tok t).src))

theorem turned_lang {f : Nat} {v : Env} {t : Nat} {s s' : Store} {sg sg' : Seg} {p : Piece} {c : Nat} (h : Turned v t s s' sg sg' p) (hw : WF s)
    (ht : t < s.fresh) (hm : Marked (textOf v s t)) (hp : parse f (lex [] (blanked (textOf v s t))) s.fresh = some (p, c))
    (M : Nat → List Word → Prop) (hM : Parses f v s M t) (Q : List Nat) (hQ : ∀ x ∈ Q, x < s.fresh) (F F' L L' : Nat → Prop)
    (hF : ∀ y, F' y ↔ (F y ∧ y ≠ t) ∨ (F t ∧ ∃ z ∈ p.starts, z.id = y)) (hL : ∀ y, L' y ↔ (L y ∧ y ≠ t) ∨ (L t ∧ ∃ z ∈ p.ends, z.id = y))
    (hF0 : ∀ y, F y → y < s.fresh) (hL0 : ∀ y, L y → y < s.fresh) (u : List Word) :
    Lang (fun x y => y ∈ s'.next x) F' L' (Val v s' M Q) u ↔ Lang (fun x y => y ∈ s.next x) F L (Val v s M (t :: Q)) u := by
  have htext : ∀ k, k < s.fresh → textOf v s' k = textOf v s k := fun k hk => by unfold textOf; rw [h.old k hk]
  have hf := fwd_parse _ _ _ _ _ hp
  refine subst_lang (N := fun x => s.fresh ≤ x) (R := fun x y => ∃ e ∈ p.edges, e.1.id = x ∧ e.2.id = y) (S := fun y => ∃ z ∈ p.starts, z.id = y)
    (T := fun y => ∃ z ∈ p.ends, z.id = y) ⟨h.links, hF, hL, ?_, ?_, ?_, ?_, ?_, ?_, by omega, hw.noloop t⟩ ?_ ?_ u
  · intro x y hy
    have := hw.inside x y hy
    omega
  · rintro x y ⟨e, he, rfl, rfl⟩
    exact ⟨(hf.inside.edges e he).1.1, (hf.inside.edges e he).2.1⟩
  · rintro x ⟨z, hz, rfl⟩
    exact (hf.inside.starts z hz).1
  · rintro x ⟨z, hz, rfl⟩
    exact (hf.inside.ends z hz).1
  · intro x hx; have := hF0 x hx; omega
  · intro x hx; have := hL0 x hx; omega
  · intro x hx hn w
    unfold Val
    rw [htext x (by omega), h.old x (by omega), List.mem_cons]
    simp [hx]
  · intro w
    have hV : ∀ x ∈ nodes p, ∀ u, Val v s' M Q x.id u ↔ u = [deco (v.optional (s.tok t).src) x.word] := by
      intro x hx u
      have hq : x.id ∉ Q := by
        intro hq
        have := hQ _ hq
        have := (h.ids x hx).1
        omega
      unfold Val
      rw [h.new x hx]
      simp [hq, mkTok]
    rw [piece_reads (one_parse _ _ _ _ _ hp) hV w, ← hM _ p c hp w]
    unfold Val
    simp [hm]

/-- A token that is not taken apart stays as it is. -/
theorem expandTok_plain {f : Nat} {v : Env} {t : Nat} {s : Store} {sg : Seg} (hm : ¬ Marked (textOf v s t)) :
    expandTok f v t s sg = .ok (s, sg) := by
  unfold expandTok
  rw [if_neg]
  exact fun h => hm ((marked_iff _).1 h)

theorem val_plain {v : Env} {s : Store} {M : Nat → List Word → Prop} {t : Nat} {Q : List Nat} (hm : ¬ Marked (textOf v s t)) (x : Nat) (u : List Word) :
    Val v s M Q x u ↔ Val v s M (t :: Q) x u := by
  unfold Val
  rw [List.mem_cons]
  by_cases h : x = t
  · subst h; simp [hm]
  · simp [h]

end Verif.Expand
