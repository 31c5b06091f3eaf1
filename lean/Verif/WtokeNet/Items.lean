import Verif.WtokeNet.Lemmas
/-!
# The loop over the lines
-/
set_option autoImplicit false
namespace Verif.WtokeNet
open Verif.Net Verif.Split Verif.Text
open Verif.Chop (Out)

/-- The readings of an alternation. -/
theorem block_reads (enc : Enc) (hc : Bool) (b : Tok) (first : List Tok) (mr : List (Tok × List Tok)) (e : Tok) (ws : List Wd) :
    (Item.block b first mr e).Reads enc hc ws ↔ AreWords enc hc first ws ∨ TailReads enc hc mr ws := by
  constructor
  · intro h
    cases h with
    | first _ _ _ _ _ h => exact Or.inl h
    | other _ _ _ _ s alt _ h1 h2 h3 => exact Or.inr ⟨(s, alt), h1, Or.inl ⟨h2, h3⟩⟩
    | empty _ _ _ _ s h => exact Or.inr ⟨(s, []), h, Or.inr ⟨rfl, rfl⟩⟩
  · rintro (h | ⟨⟨s, alt⟩, hx, ⟨h1, h2⟩ | ⟨h1, h2⟩⟩)
    · exact .first _ _ _ _ _ h
    · exact .other _ _ _ _ s alt _ hx h1 h2
    · have h1 : alt = [] := h1
      subst h1
      rw [h2]
      exact .empty _ _ _ _ s hx

/-- Adding the network of an alternation. -/
theorem addNet_made (ltr : Bool) {net m : Net Wd} {k j : Nat} {R Q : List Wd → Prop} (hn : Made net k (fun ws => R (dir ltr ws)))
    (hs : m.stop ≠ none) (hm : Made m j (fun ws => Q (dir ltr ws))) :
    ∃ g, (if ltr then addNetTail net m else addNetHead net m) = some g ∧
      Made g (k + 1 + j) (fun ws => ∃ vs us, dir ltr ws = vs ++ us ∧ R vs ∧ Q us) := by
  obtain ⟨t, ht⟩ := Option.ne_none_iff_exists'.1 hs
  cases ltr with
  | true =>
    obtain ⟨g, h1, _, h2⟩ := addNetTail_made hn hm ht
    exact ⟨g, h1, h2⟩
  | false =>
    obtain ⟨g, h1, _, h2⟩ := addNetHead_made hn hm ht
    refine ⟨g, h1, h2.congr fun ws => ?_⟩
    constructor
    · rintro ⟨us, vs, e, hq, hr⟩
      exact ⟨vs.reverse, us.reverse, by rw [e]; simp [dir], hr, hq⟩
    · rintro ⟨vs, us, e, hr, hq⟩
      have e : ws.reverse = vs ++ us := e
      refine ⟨us.reverse, vs.reverse, ?_, by simpa [dir] using hq, by simpa [dir] using hr⟩
      rw [← List.reverse_reverse ws, e]
      simp

/-- The lines of an alternation. -/
theorem alternation_made (enc : Enc) (hc ltr : Bool) (b : Tok) (first : List Tok) (mr : List (Tok × List Tok)) (e : Tok)
    (hok : (Item.block b first mr e).Ok enc) (net : Net Wd) (k : Nat) (R : List Wd → Prop)
    (hn : Made net k (fun ws => R (dir ltr ws))) (after : List Tok) (k' : Nat) :
    ∃ g, alternation enc hc ltr net ((Item.block b first mr e).lines ++ after) ((Item.block b first mr e).lines.length + k') =
        .ok (g, e :: after, k' + 1) ∧
      Made g (k + (Item.block b first mr e).lines.length)
        (fun ws => ∃ vs us, dir ltr ws = vs ++ us ∧ R vs ∧ (Item.block b first mr e).Reads enc hc us) := by
  obtain ⟨_, _, hb, he, hne, hp, hm, hd⟩ := hok
  obtain ⟨u, us, eu⟩ := List.exists_cons_of_ne_nil hne
  have hup := (hp u (by rw [eu]; simp)).1
  have el : (Item.block b first mr e).lines ++ after = b :: (first ++ (tailLines mr ++ e :: after)) := by
    simp [Item.lines, tailLines]
  have ek : (Item.block b first mr e).lines.length + k' = first.length + ((tailLines mr).length + (k' + 1)) + 1 := by
    simp [Item.lines, tailLines]; omega
  have hsk : skipBegin (b :: (first ++ (tailLines mr ++ e :: after))) (first.length + ((tailLines mr).length + (k' + 1)) + 1) =
      (first ++ (tailLines mr ++ e :: after), first.length + ((tailLines mr).length + (k' + 1))) := by
    unfold skipBegin
    rw [if_pos ((is_iff _ _).2 hb), eu]
    have : (u :: us).length + ((tailLines mr).length + (k' + 1)) = (us.length + ((tailLines mr).length + (k' + 1))) + 1 := by
      rw [List.length_cons]; omega
    rw [this, List.cons_append]
    unfold skipBegin
    rw [if_neg (by rw [plain_not (by decide) hup]; simp)]
  have hfuel : mr.length < (first ++ (tailLines mr ++ e :: after)).length + 2 := by
    have : ∀ l : List (Tok × List Tok), l.length ≤ (tailLines l).length := by
      intro l
      induction l with
      | nil => exact Nat.le_refl _
      | cons x l ih =>
        have : tailLines (x :: l) = x.1 :: (x.2 ++ tailLines l) := by simp [tailLines]
        rw [this]
        simp
        omega
    have := this mr
    simp
    omega
  obtain ⟨n, h1, h2, h3⟩ := altLoop_made enc hc ltr e he after k' mr _ none first 0 (fun _ => False) hfuel (fun _ h => h) hne hp hm hd
  obtain ⟨g, h4, h5⟩ := addNet_made ltr (Q := fun ws => False ∨ AreWords enc hc first ws ∨ TailReads enc hc mr ws) hn h2 h3
  refine ⟨g, ?_, ⟨h5.wf, h5.words, ?_, fun ws => (h5.lang ws).trans ?_⟩⟩
  · rw [el, ek]
    unfold alternation
    simp only [hsk, h1, Out.bind, h4]
  · have := h5.arcs
    have : (Item.block b first mr e).lines.length = first.length + (tailLines mr).length + 2 := by
      simp [Item.lines, tailLines]; omega
    omega
  · constructor
    · rintro ⟨vs, us, e1, h6, h7⟩
      exact ⟨vs, us, e1, h6, (block_reads enc hc b first mr e us).2 (h7.resolve_left id)⟩
    · rintro ⟨vs, us, e1, h6, h7⟩
      exact ⟨vs, us, e1, h6, Or.inr ((block_reads enc hc b first mr e us).1 h7)⟩

/-- The loop over the lines of properly marked items. -/
theorem lineLoop_made (enc : Enc) (hc ltr : Bool) (after : List Tok) : ∀ (its : List Item) (f : Nat) (net : Net Wd) (k : Nat) (R : List Wd → Prop),
    (∀ i ∈ its, i.Ok enc) → its.length ≤ f → Made net k (fun ws => R (dir ltr ws)) →
    ∃ n, lineLoop enc hc ltr f net (linesOf its ++ after) (linesOf its).length = .ok n ∧
      Made n (k + (linesOf its).length) (fun ws => ∃ vs us, dir ltr ws = vs ++ us ∧ R vs ∧ Reads enc hc its us) := by
  intro its
  induction its with
  | nil =>
    intro f net k R _ _ h
    refine ⟨net, ?_, h.congr fun ws => ?_⟩
    · show lineLoop enc hc ltr f net after 0 = _
      cases after <;> (unfold lineLoop; rfl)
    · constructor
      · intro hr; exact ⟨_, [], by simp, hr, .nil⟩
      · rintro ⟨vs, us, e, hr, h0⟩
        cases h0
        show R (dir ltr ws)
        rw [e, List.append_nil]; exact hr
  | cons i its ih =>
    intro f net k R hok hf h
    rw [List.length_cons] at hf
    obtain ⟨f, rfl⟩ : ∃ g, f = g + 1 := ⟨f - 1, by omega⟩
    have e1 : linesOf (i :: its) = i.lines ++ linesOf its := by simp [linesOf]
    have hi := hok i (by simp)
    have hrest := fun j hj => hok j (List.mem_cons_of_mem i hj)
    have assoc : ∀ (S : List Wd → Prop), (∀ us, S us ↔ i.Reads enc hc us) → ∀ ws : List Wd,
        (∃ vs us, dir ltr ws = vs ++ us ∧ (∃ vs' us', vs = vs' ++ us' ∧ R vs' ∧ S us') ∧ Reads enc hc its us) ↔
        ∃ vs us, dir ltr ws = vs ++ us ∧ R vs ∧ Reads enc hc (i :: its) us := by
      intro S hS ws
      constructor
      · rintro ⟨vs, us, e, ⟨vs', us', e', hr, hs⟩, hrd⟩
        exact ⟨vs', us' ++ us, by rw [e, e', List.append_assoc], hr, .cons _ _ _ _ ((hS us').1 hs) hrd⟩
      · rintro ⟨vs, us, e, hr, hrd⟩
        cases hrd with
        | cons _ _ us' vs' h1 h2 =>
          exact ⟨vs ++ us', vs', by rw [e, List.append_assoc], ⟨vs, us', rfl, hr, (hS us').2 h1⟩, h2⟩
    cases i with
    | skip t =>
      have ht : t.ignore = true := hi
      obtain ⟨n, h1, h2⟩ := ih f net k R hrest (by omega) h
      refine ⟨n, ?_, ⟨h2.wf, h2.words, ?_, fun ws => (h2.lang ws).trans ?_⟩⟩
      · rw [e1]
        show lineLoop enc hc ltr (f + 1) net (t :: (linesOf its ++ after)) ((linesOf its).length + 1) = _
        unfold lineLoop
        simp only [ht]
        exact h1
      · have := h2.arcs; rw [e1]; simp; omega
      · rw [← assoc (fun us => us = []) (fun us => ⟨fun e => by subst e; exact .skip t, fun h => by cases h; rfl⟩)]
        constructor
        · rintro ⟨vs, us, e, hr, hrd⟩
          exact ⟨vs, us, e, ⟨vs, [], by simp, hr, rfl⟩, hrd⟩
        · rintro ⟨vs, us, e, ⟨vs', us', e', hr, hs⟩, hrd⟩
          subst hs
          rw [List.append_nil] at e'
          subst e'
          exact ⟨vs, us, e, hr, hrd⟩
    | single t =>
      obtain ⟨ht1, ht2, ht3⟩ := hi
      obtain ⟨w, hw⟩ := word_exists hc ht3
      obtain ⟨hm, _⟩ := foldl_made ltr [w] net k R h
      obtain ⟨n, h1, h2⟩ := ih f (addWord ltr net w) (k + 1) (fun us => ∃ vs, R vs ∧ us = vs ++ [w]) hrest (by omega) hm
      refine ⟨n, ?_, ⟨h2.wf, h2.words, ?_, fun ws => (h2.lang ws).trans ?_⟩⟩
      · rw [e1]
        show lineLoop enc hc ltr (f + 1) net (t :: (linesOf its ++ after)) ((linesOf its).length + 1) = _
        unfold lineLoop
        simp only [ht1, ht2, hw]
        exact h1
      · have := h2.arcs; rw [e1]; simp [Item.lines]; omega
      · rw [← assoc (fun us => us = [w]) (fun us => ⟨fun e => by subst e; exact .single t w ((word_iff enc hc t w).1 hw), fun h => by
          cases h with
          | single _ w' h =>
            have := (word_iff enc hc t w').2 h
            rw [hw] at this
            cases this
            rfl⟩)]
        constructor
        · rintro ⟨vs, us, e, ⟨vs', hr, e'⟩, hrd⟩
          exact ⟨vs, us, e, ⟨vs', [w], e', hr, rfl⟩, hrd⟩
        · rintro ⟨vs, us, e, ⟨vs', us', e', hr, hs⟩, hrd⟩
          subst hs
          exact ⟨vs, us, e, ⟨vs', hr, e'⟩, hrd⟩
    | block b first mr e =>
      have hb := hi.1
      have hb2 := hi.2.1
      obtain ⟨g, h3, h4⟩ := alternation_made enc hc ltr b first mr e hi net k R h (linesOf its ++ after) (linesOf its).length
      obtain ⟨n, h1, h2⟩ := ih f g _ (fun us => ∃ vs' us', us = vs' ++ us' ∧ R vs' ∧ (Item.block b first mr e).Reads enc hc us') hrest (by omega) h4
      refine ⟨n, ?_, ⟨h2.wf, h2.words, ?_, fun ws => (h2.lang ws).trans (assoc _ (fun us => Iff.rfl) ws)⟩⟩
      · rw [e1, List.append_assoc, List.length_append]
        generalize hL : (Item.block b first mr e).lines ++ (linesOf its ++ after) = L at h3
        generalize hK : (Item.block b first mr e).lines.length + (linesOf its).length = K at h3
        have hL2 : L = b :: L.tail := by rw [← hL]; rfl
        have hK2 : K = (K - 1) + 1 := by
          have : (Item.block b first mr e).lines.length ≠ 0 := by simp [Item.lines]
          omega
        rw [hL2, hK2] at h3 ⊢
        unfold lineLoop
        simp only [hb, hb2]
        rw [if_pos (by rfl), h3]
        exact h1
      · have := h2.arcs; rw [e1, List.length_append]; omega

/-- The network of properly marked lines. -/
theorem create_made (enc : Enc) (hc ltr : Bool) (its : List Item) (after : List Tok) (h : ∀ i ∈ its, i.Ok enc) :
    ∃ n, create enc hc ltr (linesOf its ++ after) (linesOf its).length = .ok n ∧
      Made n (linesOf its).length (fun ws => Reads enc hc its (dir ltr ws)) := by
  have hlen : its.length ≤ (linesOf its ++ after).length + 1 := by
    have : ∀ l : List Item, l.length ≤ (linesOf l).length := by
      intro l
      induction l with
      | nil => exact Nat.le_refl _
      | cons i l ih =>
        have e : linesOf (i :: l) = i.lines ++ linesOf l := by simp [linesOf]
        have : 1 ≤ i.lines.length := by cases i <;> simp [Item.lines]
        rw [e, List.length_append, List.length_cons]
        omega
    have := this its
    simp
    omega
  have h0 : Made (Net.init Wd) 0 (fun ws => (fun us => us = []) (dir ltr ws)) :=
    made_init.congr fun ws => by cases ltr <;> simp [dir]
  obtain ⟨n, h1, h2⟩ := lineLoop_made enc hc ltr after its _ (Net.init Wd) 0 (fun us => us = []) h hlen h0
  rw [Nat.zero_add] at h2
  refine ⟨n, h1, h2.congr fun ws => ?_⟩
  constructor
  · rintro ⟨vs, us, e, e2, hr⟩
    subst e2
    rw [List.nil_append] at e
    rw [e]; exact hr
  · intro hr; exact ⟨[], _, rfl, rfl, hr⟩

end Verif.WtokeNet
