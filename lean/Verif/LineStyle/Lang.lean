import Verif.LineStyle.Texts
/-!
# What the parser makes of written alternatives
-/
set_option autoImplicit false
namespace Verif.LineStyle

/-- The piece stands for the language. -/
def Reads (p : Piece) (L : List Word → Prop) : Prop := (∀ u, u ≠ [] → (Spells p u ↔ L u)) ∧ (p.trav = true ↔ L [])

/-- Concatenation of languages. -/
def cat (K M : List Word → Prop) (u : List Word) : Prop := ∃ v w, u = v ++ w ∧ K v ∧ M w

theorem cat_nil (K M : List Word → Prop) : cat K M [] ↔ K [] ∧ M [] := by
  constructor
  · rintro ⟨v, w, h, hv, hw⟩
    have := List.append_eq_nil_iff.mp h.symm
    rw [this.1] at hv; rw [this.2] at hw
    exact ⟨hv, hw⟩
  · rintro ⟨h1, h2⟩; exact ⟨[], [], rfl, h1, h2⟩

theorem cat_assoc (K M N : List Word → Prop) (u : List Word) : cat (cat K M) N u ↔ cat K (cat M N) u := by
  constructor
  · rintro ⟨v, w, rfl, ⟨v1, v2, rfl, h1, h2⟩, h3⟩
    exact ⟨v1, v2 ++ w, by simp, h1, v2, w, rfl, h2, h3⟩
  · rintro ⟨v, w, rfl, h1, w1, w2, rfl, h2, h3⟩
    exact ⟨v ++ w1, w2, by simp, ⟨v, w1, rfl, h1, h2⟩, h3⟩

theorem cat_eps (K M : List Word → Prop) (h : ∀ u, M u ↔ u = []) (u : List Word) : cat K M u ↔ K u := by
  constructor
  · rintro ⟨v, w, rfl, h1, h2⟩
    rw [h] at h2; subst h2; simpa using h1
  · intro hu; exact ⟨u, [], by simp, hu, (h _).mpr rfl⟩

theorem eps_cat (M : List Word → Prop) (u : List Word) : cat (fun v => v = []) M u ↔ M u := by
  constructor
  · rintro ⟨v, w, rfl, rfl, h2⟩; simpa using h2
  · intro hu; exact ⟨[], u, rfl, rfl, hu⟩

/-- What holds in the loop over the words of a statement when the words so far stand for `K`. -/
structure LInv (st : LoopSt) (lo : Nat) (K : List Word → Prop) : Prop where
  spells : ∀ u, u ≠ [] → (Spells st.out u ↔ K u)
  first : st.first = true ↔ K []
  prec : st.prec.getD [] = st.out.ends
  inside : Inside st.out lo st.next
  le : lo ≤ st.next

theorem LInv.congr {st : LoopSt} {lo : Nat} {K K' : List Word → Prop} (h : LInv st lo K) (hk : ∀ u, K u ↔ K' u) : LInv st lo K' :=
  ⟨fun u hu => (h.spells u hu).trans (hk u), h.first.trans (hk []), h.prec, h.inside, h.le⟩

theorem Reads.congr {p : Piece} {K K' : List Word → Prop} (h : Reads p K) (hk : ∀ u, K u ↔ K' u) : Reads p K' :=
  ⟨fun u hu => (h.1 u hu).trans (hk u), h.2.trans (hk [])⟩

theorem place_out (st : LoopSt) (q : Piece) (c : Nat) (h : st.prec.getD [] = st.out.ends) :
    (place st q c).out = seqPiece st.first q.trav st.out q st.out.trav := by
  unfold place seqPiece
  simp only
  congr 1
  cases hp : st.prec with
  | none => rw [hp] at h; simp only [Option.getD_none] at h; rw [← h]; simp [links]
  | some F => rw [hp] at h; simp only [Option.getD_some] at h; rw [h]

theorem inside_seq (p q : Piece) (lo mid hi : Nat) (hp : Inside p lo mid) (hq : Inside q mid hi) (h1 : lo ≤ mid) (h2 : mid ≤ hi) (b t tr : Bool) :
    Inside (seqPiece b t p q tr) lo hi := by
  have hp' := hp.mono (Nat.le_refl lo) h2
  have hq' := hq.mono h1 (Nat.le_refl hi)
  refine ⟨?_, ?_, ?_⟩
  · intro x hx
    simp only [seqPiece, List.mem_append] at hx
    rcases hx with h | h
    · exact hp'.starts x h
    · cases b <;> simp at h
      exact hq'.starts x h
  · intro x hx
    simp only [seqPiece, List.mem_append] at hx
    rcases hx with h | h
    · cases t <;> simp at h
      exact hp'.ends x h
    · exact hq'.ends x h
  · intro e he
    simp only [seqPiece, List.mem_append] at he
    rcases he with (h | h) | h
    · exact hp'.edges e h
    · exact hq'.edges e h
    · obtain ⟨e1, e2⟩ := e
      have := mem_links.mp h
      exact ⟨hp'.ends _ this.1, hq'.starts _ this.2⟩

theorem place_inv {st : LoopSt} {lo : Nat} {K M : List Word → Prop} (h : LInv st lo K) (q : Piece) (c : Nat) (hq : Inside q st.next c)
    (hc : st.next ≤ c) (hr : Reads q M) : LInv (place st q c) lo (cat K M) := by
  have ho := place_out st q c h.prec
  refine ⟨?_, ?_, ?_, ?_, ?_⟩
  · intro u hu
    rw [ho, spells_seq st.out q lo st.next c h.inside hq]
    constructor
    · rintro (⟨h1, h2⟩ | ⟨h1, h2⟩ | ⟨v, w, rfl, h1, h2⟩)
      · exact ⟨u, [], by simp, (h.spells u hu).mp h1, hr.2.mp h2⟩
      · exact ⟨[], u, rfl, h.first.mp h1, (hr.1 u hu).mp h2⟩
      · exact ⟨v, w, rfl, (h.spells v (spells_ne h1)).mp h1, (hr.1 w (spells_ne h2)).mp h2⟩
    · rintro ⟨v, w, rfl, h1, h2⟩
      by_cases hv : v = []
      · subst hv
        right; left
        exact ⟨h.first.mpr h1, (hr.1 w (by simpa using hu)).mpr h2⟩
      · by_cases hw : w = []
        · subst hw
          left
          rw [List.append_nil]
          exact ⟨(h.spells v hv).mpr h1, hr.2.mpr h2⟩
        · right; right
          exact ⟨v, w, rfl, (h.spells v hv).mpr h1, (hr.1 w hw).mpr h2⟩
  · rw [cat_nil]
    show (st.first && q.trav) = true ↔ _
    rw [Bool.and_eq_true, h.first, hr.2]
  · rw [ho]
    show ((match st.prec with
      | some F => if q.trav = true then some (F ++ q.ends) else some q.ends
      | none => some q.ends).getD []) = (if q.trav = true then st.out.ends else []) ++ q.ends
    have hp := h.prec
    cases hs : st.prec with
    | none =>
      rw [hs] at hp
      simp only [Option.getD_none] at hp
      rw [← hp]
      cases q.trav <;> simp
    | some F =>
      rw [hs] at hp
      simp only [Option.getD_some] at hp
      rw [hp]
      cases q.trav <;> simp
  · rw [ho]
    exact inside_seq st.out q lo st.next c h.inside hq h.le hc _ _ _
  · show lo ≤ c
    have := h.le; omega

theorem inside_empty (c d : Nat) (tr : Bool) : Inside ⟨[], [], tr, []⟩ c d := ⟨by simp, by simp, by simp⟩

theorem inside_one (t : Node) (tr : Bool) : Inside ⟨[t], [t], tr, []⟩ t.id (t.id + 1) := by
  refine ⟨?_, ?_, by simp⟩
  · intro x hx; simp only [List.mem_singleton] at hx; subst hx; omega
  · intro x hx; simp only [List.mem_singleton] at hx; subst hx; omega

theorem reads_one (t : Node) : Reads ⟨[t], [t], false, []⟩ (fun u => u = [t.word]) :=
  ⟨fun u _ => spells_one t false u, by simp⟩

/-- The state before the loop. -/
def LoopSt.init (c : Nat) : LoopSt := ⟨Piece.empty, true, none, c⟩

theorem init_inv (c : Nat) : LInv (LoopSt.init c) c (fun u => u = []) := by
  refine ⟨?_, by simp [LoopSt.init], rfl, inside_empty c c _, Nat.le_refl c⟩
  intro u hu
  constructor
  · intro h; exact absurd h (spells_empty _ rfl u)
  · intro h; exact absurd h hu

/-- Alternatives written with fewer than two words. -/
theorem short_alts (a : Alts) (hp : a.Plain) (hs : a.text ≠ [slash]) (hl : a.text.length < 2) :
    ((a.text = [] ∨ a.text = [at']) ∧ ∀ u, a.got u ↔ u = []) ∨ (∃ w, Ordinary w ∧ a.text = [w] ∧ ∀ u, a.got u ↔ u = [w]) := by
  cases a with
  | one s =>
    cases s with
    | nil => left; exact ⟨Or.inl rfl, fun u => by simp [Alts.got, Seq.prod, Seq.length]⟩
    | cons i s =>
      have hnil : s = .nil := by
        apply text_nil
        apply List.length_eq_zero_iff.mp
        cases i with
        | word w => simp only [Alts.text, Seq.text, Item.text, List.length_append, List.length_cons] at hl; omega
        | eps => simp only [Alts.text, Seq.text, Item.text, List.length_append, List.length_cons] at hl; omega
        | alt a => simp only [Alts.text, Seq.text, Item.text, List.length_append, List.length_cons] at hl; omega
      subst hnil
      cases i with
      | word w =>
        right
        refine ⟨w, hp.1, rfl, fun u => ?_⟩
        simp [Alts.got, Seq.prod, Seq.length, Item.got]
      | eps =>
        left
        refine ⟨Or.inr rfl, fun u => ?_⟩
        simp [Alts.got, Seq.prod, Seq.length, Item.got]
      | alt a =>
        simp [Alts.text, Seq.text, Item.text] at hl
        omega
  | or s a =>
    exfalso
    simp only [Alts.text, List.length_append, List.length_cons] at hl
    have h1 : s.text = [] := List.length_eq_zero_iff.mp (by omega)
    have h2 : a.text = [] := List.length_eq_zero_iff.mp (by omega)
    apply hs
    simp [Alts.text, h1, h2]

/-- The recursive call works on the alternatives. -/
def ParseOK (f : Nat) (ws : List Word) (L : List Word → Prop) : Prop :=
  ∀ c, ∃ p c', parse f ws c = some (p, c') ∧ c ≤ c' ∧ Inside p c c' ∧ Reads p L

/-- An item of a longer sequence. -/
def ItemMany (i : Item) : Prop := ∀ (f n k lo : Nat) (st : LoopSt) (K : List Word → Prop), i.text.length ≤ f → n ≠ 1 → LInv st lo K →
  ∃ st', turn (parse f) n k i.content st = some st' ∧ LInv st' lo (cat K i.got) ∧ st'.out.trav = st.out.trav ∧ st.next ≤ st'.next

/-- An item that is alone. -/
def ItemSingle (i : Item) : Prop := ∀ (f k c : Nat), i.text.length ≤ f →
  ∃ st', turn (parse f) 1 k i.content (LoopSt.init c) = some st' ∧ Reads st'.out i.got ∧ Inside st'.out c st'.next ∧ c ≤ st'.next

/-- Items of a longer sequence. -/
def SeqMany (s : Seq) : Prop := ∀ (f n k lo : Nat) (st : LoopSt) (K : List Word → Prop), s.text.length ≤ f → n ≠ 1 → LInv st lo K →
  ∃ st', turns (parse f) n k s.contents st = some st' ∧ LInv st' lo (cat K s.prod) ∧ st'.out.trav = st.out.trav ∧ st.next ≤ st'.next

theorem word_turn (f n k : Nat) (w : Word) (hw : Ordinary w) (st : LoopSt) :
    turn (parse f) n k [w] st = some (place st ⟨[⟨st.next, w, k, n⟩], [⟨st.next, w, k, n⟩], false, []⟩ (st.next + 1)) := by
  unfold turn
  rw [if_neg (by simp), if_neg (by
    rintro (h | h)
    · simp at h
    · simp only [List.cons.injEq, and_true] at h; exact hw.2.2.2.2 h)]
  simp

theorem word_many (f n k lo : Nat) (w : Word) (hw : Ordinary w) (st : LoopSt) (K M : List Word → Prop) (h : LInv st lo K) (hM : ∀ u, M u ↔ u = [w]) :
    ∃ st', turn (parse f) n k [w] st = some st' ∧ LInv st' lo (cat K M) ∧ st'.out.trav = st.out.trav ∧ st.next ≤ st'.next := by
  refine ⟨_, word_turn f n k w hw st, ?_, rfl, ?_⟩
  · exact place_inv h _ _ (inside_one ⟨st.next, w, k, n⟩ false) (by omega) ((reads_one ⟨st.next, w, k, n⟩).congr (fun u => (hM u).symm))
  · show st.next ≤ st.next + 1; omega

theorem place_init (c c' : Nat) (q : Piece) (tr : Bool) :
    (place ⟨⟨[], [], tr, []⟩, true, none, c⟩ q c').out = ⟨q.starts, q.ends, tr, q.edges⟩ := by
  unfold place
  simp

theorem spells_trav (p : Piece) (tr : Bool) (u : List Word) : Spells ⟨p.starts, p.ends, tr, p.edges⟩ u ↔ Spells p u := Iff.rfl

theorem word_single (f k c : Nat) (w : Word) (hw : Ordinary w) (M : List Word → Prop) (hM : ∀ u, M u ↔ u = [w]) :
    ∃ st', turn (parse f) 1 k [w] (LoopSt.init c) = some st' ∧ Reads st'.out M ∧ Inside st'.out c st'.next ∧ c ≤ st'.next := by
  refine ⟨_, word_turn f 1 k w hw _, ?_, ?_, ?_⟩
  · show Reads ⟨[⟨c, w, k, 1⟩], [⟨c, w, k, 1⟩], false, []⟩ M
    exact (reads_one ⟨c, w, k, 1⟩).congr (fun u => (hM u).symm)
  · exact inside_one ⟨c, w, k, 1⟩ false
  · show c ≤ c + 1; omega

theorem empty_turn_many (f n k : Nat) (ws : List Word) (hws : ws = [] ∨ ws = [at']) (st : LoopSt) (hn : n ≠ 1) : turn (parse f) n k ws st = some st := by
  unfold turn
  rw [if_neg (by rcases hws with rfl | rfl <;> simp), if_pos hws, if_neg hn]

theorem empty_many (f n k lo : Nat) (ws : List Word) (hws : ws = [] ∨ ws = [at']) (st : LoopSt) (K M : List Word → Prop) (hn : n ≠ 1) (h : LInv st lo K)
    (hM : ∀ u, M u ↔ u = []) :
    ∃ st', turn (parse f) n k ws st = some st' ∧ LInv st' lo (cat K M) ∧ st'.out.trav = st.out.trav ∧ st.next ≤ st'.next :=
  ⟨st, empty_turn_many f n k ws hws st hn, h.congr (fun u => (cat_eps K M hM u).symm), rfl, Nat.le_refl _⟩

theorem empty_single (f k c : Nat) (ws : List Word) (hws : ws = [] ∨ ws = [at']) (M : List Word → Prop) (hM : ∀ u, M u ↔ u = []) :
    ∃ st', turn (parse f) 1 k ws (LoopSt.init c) = some st' ∧ Reads st'.out M ∧ Inside st'.out c st'.next ∧ c ≤ st'.next := by
  refine ⟨place (LoopSt.init c).skip Piece.empty c, ?_, ?_, ?_, Nat.le_refl c⟩
  · unfold turn
    rw [if_neg (by rcases hws with rfl | rfl <;> simp), if_pos hws, if_pos rfl]
    rfl
  · show Reads ⟨[], [], true, []⟩ M
    refine ⟨?_, by simp [hM]⟩
    intro u hu
    rw [hM]
    exact ⟨fun h => absurd h (spells_empty _ rfl u), fun h => absurd h hu⟩
  · exact inside_empty c _ true

theorem item_alt (a : Alts) (hp : (Item.alt a).Plain) (h : ∀ f, a.text.length < f → ParseOK f a.text a.got) : ItemMany (.alt a) ∧ ItemSingle (.alt a) := by
  constructor
  · intro f n k lo st K hf hn hi
    simp only [Item.text, List.length_cons, List.length_append, List.length_nil] at hf
    by_cases hl : a.text.length < 2
    · rcases short_alts a hp.2 hp.1 hl with ⟨h1, h2⟩ | ⟨w, hw, h1, h2⟩
      · exact empty_many f n k lo a.text h1 st K a.got hn hi h2
      · simp only [Item.content, h1]
        exact word_many f n k lo w hw st K a.got hi h2
    · obtain ⟨p, c', hpa, hc, hin, hr⟩ := h f (by omega) st.next
      refine ⟨place st p c', ?_, place_inv hi p c' hin hc hr, rfl, hc⟩
      rw [show (Item.alt a).content = a.text from rfl]
      unfold turn
      rw [if_pos (show 2 ≤ a.text.length by omega), hpa]
      show some (place (if p.trav = true ∧ n = 1 then st.skip else st) p c') = _
      rw [if_neg (fun hh => hn hh.2)]
  · intro f k c hf
    simp only [Item.text, List.length_cons, List.length_append, List.length_nil] at hf
    by_cases hl : a.text.length < 2
    · rcases short_alts a hp.2 hp.1 hl with ⟨h1, h2⟩ | ⟨w, hw, h1, h2⟩
      · exact empty_single f k c a.text h1 a.got h2
      · simp only [Item.content, h1]
        exact word_single f k c w hw a.got h2
    · obtain ⟨p, c', hpa, hc, hin, hr⟩ := h f (by omega) c
      have hpl := place_init c c' p p.trav
      have hst : (if p.trav = true ∧ (1 : Nat) = 1 then (LoopSt.init c).skip else LoopSt.init c) = ⟨⟨[], [], p.trav, []⟩, true, none, c⟩ := by
        cases hh : p.trav <;> simp [LoopSt.init, LoopSt.skip, Piece.empty]
      refine ⟨place ⟨⟨[], [], p.trav, []⟩, true, none, c⟩ p c', ?_, ?_, ?_, hc⟩
      · rw [show (Item.alt a).content = a.text from rfl]
        unfold turn
        rw [if_pos (show 2 ≤ a.text.length by omega), show (LoopSt.init c).next = c from rfl, hpa]
        show some (place (if p.trav = true ∧ (1 : Nat) = 1 then (LoopSt.init c).skip else LoopSt.init c) p c') = _
        rw [hst]
      · rw [hpl]; exact hr
      · rw [hpl]; exact hin

theorem item_leaf_word (w : Word) (hw : Ordinary w) : ItemMany (.word w) ∧ ItemSingle (.word w) :=
  ⟨fun f n k lo st K _ _ hi => word_many f n k lo w hw st K _ hi (fun _ => Iff.rfl), fun f k c _ => word_single f k c w hw _ (fun _ => Iff.rfl)⟩

theorem item_leaf_eps : ItemMany .eps ∧ ItemSingle .eps :=
  ⟨fun f n k lo st K _ hn hi => empty_many f n k lo [at'] (Or.inr rfl) st K _ hn hi (fun _ => Iff.rfl),
   fun f k c _ => empty_single f k c [at'] (Or.inr rfl) _ (fun _ => Iff.rfl)⟩

theorem parse_one (f : Nat) (s : Seq) (hp : s.Plain) (c : Nat) : parse (f + 1) s.text c =
    match turns (parse f) (tokenise s.text).length 0 (tokenise s.text) (LoopSt.init c) with
    | none => none
    | some st => some (st.out, st.next) := by
  have := sepSlash_text (.one s) hp
  simp only [Alts.text, Alts.list, List.map_cons, List.map_nil] at this
  rw [parse, this]
  rfl

/-- A sequence, given its items. -/
theorem seq_parse (s : Seq) (hp : s.Plain) (hm : SeqMany s) (hs : ∀ i, s = .cons i .nil → ItemSingle i) :
    ∀ f, s.text.length < f → ParseOK f s.text (Alts.one s).got := by
  intro f hf c
  obtain ⟨f, rfl⟩ : ∃ g, f = g + 1 := ⟨f - 1, by omega⟩
  rw [parse_one f s hp c, tokenise_text s hp]
  cases s with
  | nil =>
    obtain ⟨st', h1, h2, h3, h4⟩ := empty_single f 0 c [] (Or.inl rfl) (Alts.one Seq.nil).got (by intro u; simp [Alts.got, Seq.prod, Seq.length])
    simp only [Seq.length, if_true, List.length_cons, List.length_nil, turns, h1]
    exact ⟨_, _, rfl, h4, h3, h2⟩
  | cons i s =>
    cases s with
    | nil =>
      obtain ⟨st', h1, h2, h3, h4⟩ := hs i rfl f 0 c (by simp [Seq.text] at hf; omega)
      rw [if_neg (by simp [Seq.length])]
      simp only [Seq.contents, List.length_cons, List.length_nil, turns, h1]
      refine ⟨_, _, rfl, h4, h3, h2.congr ?_⟩
      intro u
      simp [Alts.got, Seq.prod, Seq.length]
    | cons j s =>
      have hn : (Seq.cons i (Seq.cons j s)).contents.length ≠ 1 := by simp [Seq.contents]
      obtain ⟨st', h1, h2, h3, h4⟩ := hm f _ 0 c (LoopSt.init c) _ (by omega) hn (init_inv c)
      rw [if_neg (by simp [Seq.length]), h1]
      simp only
      refine ⟨_, _, rfl, h4, h2.inside, ?_, ?_⟩
      · intro u hu
        rw [h2.spells u hu, eps_cat]
        simp [Alts.got, hu]
      · rw [h3]
        simp [LoopSt.init, Piece.empty, Alts.got, Seq.length]

theorem or_cons (f c : Nat) (s : Seq) (ss : List (List Word)) (L : List Word → Prop) (h1 : ParseOK f s.text (Alts.one s).got)
    (h2 : ∀ c, ∃ p c', orLoop (parse f) ss c = some (p, c') ∧ c ≤ c' ∧ Inside p c c' ∧ Reads p L) :
    ∃ p c', orLoop (parse f) (s.text :: ss) c = some (p, c') ∧ c ≤ c' ∧ Inside p c c' ∧ Reads p (fun u => (Alts.one s).got u ∨ L u) := by
  obtain ⟨p, c1, e1, l1, i1, r1⟩ := h1 c
  obtain ⟨q, c2, e2, l2, i2, r2⟩ := h2 c1
  refine ⟨⟨p.starts ++ q.starts, p.ends ++ q.ends, p.trav || q.trav, p.edges ++ q.edges⟩, c2, by simp only [orLoop, e1, e2], by omega, ?_, ?_, ?_⟩
  · have hp := i1.mono (Nat.le_refl c) l2
    have hq := i2.mono l1 (Nat.le_refl c2)
    refine ⟨?_, ?_, ?_⟩
    · intro x hx
      rcases List.mem_append.mp hx with h | h
      · exact hp.starts x h
      · exact hq.starts x h
    · intro x hx
      rcases List.mem_append.mp hx with h | h
      · exact hp.ends x h
      · exact hq.ends x h
    · intro x hx
      rcases List.mem_append.mp hx with h | h
      · exact hp.edges x h
      · exact hq.edges x h
  · intro u hu
    rw [spells_or p q c c1 c2 i1 i2, r1.1 u hu, r2.1 u hu]
  · simp only [Bool.or_eq_true]
    rw [r1.2, r2.2]

/-- What is proved for a sequence. -/
def SeqOK (s : Seq) : Prop := SeqMany s ∧ ∀ f, s.text.length < f → ParseOK f s.text (Alts.one s).got
/-- What is proved for alternatives. -/
def AltsOK (a : Alts) : Prop :=
  (∀ f c, a.text.length < f → ∃ p c', orLoop (parse f) (a.list.map Seq.text) c = some (p, c') ∧ c ≤ c' ∧ Inside p c c' ∧ Reads p a.got) ∧
  ∀ f, a.text.length < f → ParseOK f a.text a.got

mutual
theorem item_ok : ∀ i : Item, i.Plain → ItemMany i ∧ ItemSingle i
  | .word w, hp => item_leaf_word w hp
  | .eps, _ => item_leaf_eps
  | .alt a, hp => item_alt a hp (alts_ok a hp.2).2
theorem seq_ok : ∀ s : Seq, s.Plain → SeqOK s
  | .nil, hp => by
    have hm : SeqMany .nil := by
      intro f n k lo st K _ _ hi
      exact ⟨st, rfl, hi.congr (fun u => (cat_eps K _ (fun _ => Iff.rfl) u).symm), rfl, Nat.le_refl _⟩
    exact ⟨hm, seq_parse .nil hp hm (by intro i h; cases h)⟩
  | .cons i s, hp => by
    have hi := item_ok i hp.1
    have hs := seq_ok s hp.2
    have hm : SeqMany (.cons i s) := by
      intro f n k lo st K hf hn hinv
      simp only [Seq.text, List.length_append] at hf
      obtain ⟨st1, e1, i1, t1, l1⟩ := hi.1 f n k lo st K (by omega) hn hinv
      obtain ⟨st2, e2, i2, t2, l2⟩ := hs.1 f n (k + 1) lo st1 _ (by omega) hn i1
      refine ⟨st2, by simp only [Seq.contents, turns, e1, e2], ?_, by rw [t2, t1], by omega⟩
      exact i2.congr (fun u => cat_assoc K i.got s.prod u)
    refine ⟨hm, seq_parse _ hp hm ?_⟩
    intro j hj
    cases hj
    exact hi.2
theorem alts_ok : ∀ a : Alts, a.Plain → AltsOK a
  | .one s, hp => by
    have hs := seq_ok s hp
    refine ⟨?_, hs.2⟩
    intro f c hf
    obtain ⟨p, c', e, h1, h2, h3⟩ := or_cons f c s [] (fun _ => False) (hs.2 f hf)
      (fun c => ⟨Piece.empty, c, rfl, Nat.le_refl c, inside_empty c c _, ⟨fun u hu => ⟨fun h => absurd h (spells_empty _ rfl u), fun h => h.elim⟩,
        by simp [Piece.empty]⟩⟩)
    exact ⟨p, c', e, h1, h2, h3.congr (by simp)⟩
  | .or s a, hp => by
    have hs := seq_ok s hp.1
    have ha := alts_ok a hp.2
    have hor : ∀ f c, s.text.length < f → a.text.length < f → ∃ p c', orLoop (parse f) ((Alts.or s a).list.map Seq.text) c = some (p, c') ∧ c ≤ c' ∧
        Inside p c c' ∧ Reads p (Alts.or s a).got := by
      intro f c h1 h2
      exact or_cons f c s (a.list.map Seq.text) a.got (hs.2 f h1) (fun c => ha.1 f c h2)
    refine ⟨?_, ?_⟩
    · intro f c hf
      simp only [Alts.text, List.length_append, List.length_cons] at hf
      exact hor f c (by omega) (by omega)
    · intro f hf c
      simp only [Alts.text, List.length_append, List.length_cons] at hf
      obtain ⟨f, rfl⟩ : ∃ g, f = g + 1 := ⟨f - 1, by omega⟩
      obtain ⟨p, c', e, h⟩ := hor f c (by omega) (by omega)
      refine ⟨p, c', ?_, h⟩
      rw [parse, sepSlash_text _ hp, ← e]
      simp only [Alts.list, List.map_cons]
      have : ∃ x xs, a.list.map Seq.text = x :: xs := by
        cases a with
        | one s => exact ⟨_, _, rfl⟩
        | or s a => exact ⟨_, _, rfl⟩
      obtain ⟨x, xs, hx⟩ := this
      rw [hx]
end

mutual
theorem item_good : ∀ i : Item, i.Good → ∀ u, i.got u ↔ i.den u
  | .word _, _, _ => Iff.rfl
  | .eps, _, _ => Iff.rfl
  | .alt a, h, u => alts_good a h u
theorem seq_good : ∀ s : Seq, s.Good → ∀ u, s.prod u ↔ s.den u
  | .nil, _, _ => Iff.rfl
  | .cons i s, h, u => by
    simp only [Seq.prod, Seq.den]
    constructor
    · rintro ⟨v, w, e, h1, h2⟩; exact ⟨v, w, e, (item_good i h.1 v).mp h1, (seq_good s h.2 w).mp h2⟩
    · rintro ⟨v, w, e, h1, h2⟩; exact ⟨v, w, e, (item_good i h.1 v).mpr h1, (seq_good s h.2 w).mpr h2⟩
theorem alts_good : ∀ a : Alts, a.AllGood → ∀ u, a.got u ↔ a.den u
  | .one s, h, u => by
    simp only [Alts.got, Alts.den]
    rw [seq_good s h.2 u]
    exact ⟨fun hh => hh.1, fun hh => ⟨hh, fun h2 he => h.1 h2 (he ▸ hh)⟩⟩
  | .or s a, h, u => by
    simp only [Alts.got, Alts.den]
    rw [seq_good s h.1.2 u, alts_good a h.2 u]
    constructor
    · rintro (hh | hh)
      · exact Or.inl hh.1
      · exact Or.inr hh
    · rintro (hh | hh)
      · exact Or.inl ⟨hh, fun h2 he => h.1.1 h2 (he ▸ hh)⟩
      · exact Or.inr hh
end

theorem top_good : ∀ a : Alts, a.Good → ∀ u, u ≠ [] → (a.got u ↔ a.den u)
  | .one s, h, u, hu => by
    simp only [Alts.got, Alts.den]
    rw [seq_good s h u]
    simp [hu]
  | .or s a, h, u, hu => by
    simp only [Alts.got, Alts.den]
    rw [seq_good s h.1 u, top_good a h.2 u hu]
    simp [hu]

end Verif.LineStyle
