import Verif.LineStyle.Texts
/-!
# When the parser returns
-/
set_option autoImplicit false
namespace Verif.LineStyle

/-- From the number `d` of open groups on, the number stays below zero. -/
def gone : Int → List Word → Prop
  | _, [] => True
  | d, w :: ws => bump d w < 0 ∧ gone (bump d w) ws
/-- The number stays at or above zero. -/
def nonneg : Int → List Word → Prop
  | _, [] => True
  | d, w :: ws => 0 ≤ bump d w ∧ nonneg (bump d w) ws
/-- Once below zero, the number stays there. -/
def fine : Int → List Word → Prop
  | _, [] => True
  | d, w :: ws => (bump d w < 0 ∧ gone (bump d w) ws) ∨ (0 ≤ bump d w ∧ fine (bump d w) ws)
/-- The number at the end. -/
def final (d : Int) (ws : List Word) : Int := ws.foldl bump d

theorem final_cons (d : Int) (w : Word) (ws : List Word) : final d (w :: ws) = final (bump d w) ws := rfl
theorem final_append (d : Int) (a b : List Word) : final d (a ++ b) = final (final d a) b := by simp [final, List.foldl_append]

theorem nonneg_append (a b : List Word) : ∀ d, nonneg d (a ++ b) ↔ nonneg d a ∧ nonneg (final d a) b := by
  induction a with
  | nil => intro d; simp [nonneg, final]
  | cons w a ih =>
    intro d
    simp only [List.cons_append, nonneg, final_cons, ih]
    constructor
    · rintro ⟨h1, h2, h3⟩; exact ⟨⟨h1, h2⟩, h3⟩
    · rintro ⟨⟨h1, h2⟩, h3⟩; exact ⟨h1, h2, h3⟩

theorem fine_of_nonneg : ∀ (a : List Word) (d : Int), nonneg d a → fine d a
  | [], _, _ => trivial
  | w :: a, d, h => Or.inr ⟨h.1, fine_of_nonneg a _ h.2⟩

theorem fine_append : ∀ (a b : List Word) (d : Int), nonneg d a → fine (final d a) b → fine d (a ++ b)
  | [], b, d, _, h => h
  | w :: a, b, d, h1, h2 => Or.inr ⟨h1.1, fine_append a b _ h1.2 h2⟩

theorem bump_le (d : Int) (w : Word) : d - 1 ≤ bump d w ∧ bump d w ≤ d + 1 := by
  unfold bump
  split
  · omega
  · split <;> omega

theorem bump_eq_succ {d : Int} {w : Word} (h : bump d w = d + 1) : w = lb := by
  unfold bump at h
  split at h
  · assumption
  · split at h <;> omega

theorem bump_eq_pred {d : Int} {w : Word} (h : bump d w = d - 1) : w = rb := by
  unfold bump at h
  split at h
  · omega
  · split at h
    · assumption
    · omega

theorem bump_shift (d e : Int) (w : Word) : bump (d + e) w = bump d w + e := by
  unfold bump
  split
  · omega
  · split <;> omega

theorem sep_gone : ∀ (ws : List Word) (d : Int) (cur : List Word), gone d ws → sepGo d cur ws = [cur ++ ws]
  | [], d, cur, _ => by simp [sepGo]
  | w :: ws, d, cur, h => by
    rw [sepGo, if_neg (fun hh => by have := h.1; omega), sep_gone ws _ _ h.2]
    simp

theorem tok_gone : ∀ (ws : List Word) (d : Int) (cur : List Word), gone d ws → tokGo d cur ws = []
  | [], d, cur, _ => by simp [tokGo]
  | w :: ws, d, cur, h => by
    have h1 := h.1
    rw [tokGo, if_neg (fun hh => by omega), if_neg (fun hh => by omega), if_neg (by omega), tok_gone ws _ _ h.2]

theorem sep_fine : ∀ (ws : List Word) (d : Int) (cur : List Word), nonneg 0 cur → final 0 cur = d → fine d ws → ∀ x ∈ sepGo d cur ws, fine 0 x
  | [], d, cur, h1, _, _, x, hx => by
    simp only [sepGo, List.mem_singleton] at hx
    subst hx
    exact fine_of_nonneg _ _ h1
  | w :: ws, d, cur, h1, h2, h3, x, hx => by
    have hadd : nonneg 0 [] ∧ final 0 [] = 0 := ⟨trivial, rfl⟩
    rw [sepGo] at hx
    split at hx
    · rename_i hs
      rcases List.mem_cons.mp hx with rfl | hx
      · exact fine_of_nonneg _ _ h1
      · rcases h3 with ⟨h, _⟩ | ⟨_, h⟩
        · omega
        · exact sep_fine ws _ [] trivial (by rw [hs.2]; rfl) h x hx
    · rcases h3 with ⟨h, hg⟩ | ⟨h, hf⟩
      · rw [sep_gone ws _ _ hg] at hx
        simp only [List.mem_singleton] at hx
        subst hx
        rw [List.append_assoc]
        apply fine_append _ _ _ h1
        rw [h2]
        exact Or.inl ⟨h, hg⟩
      · refine sep_fine ws _ (cur ++ [w]) ?_ ?_ hf x hx
        · rw [nonneg_append]
          exact ⟨h1, by rw [h2]; exact ⟨h, trivial⟩⟩
        · rw [final_append, h2]; rfl

theorem sep_len : ∀ (ws : List Word) (d : Int) (cur : List Word),
    (sepGo d cur ws = [cur ++ ws]) ∨ (2 ≤ (sepGo d cur ws).length ∧ ∀ x ∈ sepGo d cur ws, x.length < cur.length + ws.length)
  | [], d, cur => by left; simp [sepGo]
  | w :: ws, d, cur => by
    rw [sepGo]
    split
    · right
      rcases sep_len ws (bump d w) [] with h | ⟨h1, h2⟩
      · rw [h]
        refine ⟨by simp, ?_⟩
        intro x hx
        simp only [List.nil_append, List.mem_cons, List.not_mem_nil, or_false] at hx
        rcases hx with rfl | rfl <;> simp <;> omega
      · refine ⟨by simp; omega, ?_⟩
        intro x hx
        rcases List.mem_cons.mp hx with rfl | hx
        · simp
        · have := h2 x hx
          simp at this ⊢; omega
    · rcases sep_len ws (bump d w) (cur ++ [w]) with h | ⟨h1, h2⟩
      · left; rw [h]; simp
      · right
        refine ⟨h1, ?_⟩
        intro x hx
        have := h2 x hx
        simp at this ⊢; omega

theorem tok_fine : ∀ (ws : List Word) (d : Int) (cur : List Word), 0 ≤ d → (d = 0 → cur = []) →
    (0 < d → nonneg 0 cur ∧ final 0 cur = d - 1) → fine d ws →
    ∀ x ∈ tokGo d cur ws, 2 ≤ x.length → fine 0 x ∧ x.length < cur.length + ws.length + (if 0 < d then 1 else 0)
  | [], d, cur, _, _, _, _, x, hx, _ => by simp [tokGo] at hx
  | w :: ws, d, cur, hd, h0, h1, hf, x, hx, hl => by
    have hb := bump_le d w
    rw [tokGo] at hx
    rcases hf with ⟨hneg, hg⟩ | ⟨hpos, hf⟩
    · rw [if_neg (fun hh => by omega), if_neg (fun hh => by omega), if_neg (by omega), tok_gone ws _ _ hg] at hx
      simp at hx
    · split at hx
      · rename_i hs
        obtain ⟨hw, hb1⟩ := hs
        have hd0 : d = 0 := by subst hw; rw [bump_lb] at hb1; omega
        have hc := h0 hd0
        subst hc
        have := tok_fine ws (bump d w) [] (by omega) (by omega) (fun _ => ⟨trivial, by rw [hb1]; rfl⟩) hf x hx hl
        refine ⟨this.1, ?_⟩
        have h2 := this.2
        rw [if_pos (by omega)] at h2
        simp only [List.length_nil, List.length_cons] at h2 ⊢
        split <;> omega
      · rename_i hs1
        split at hx
        · rename_i hs
          rcases List.mem_cons.mp hx with rfl | hx
          · have hd1 : 0 < d := by rw [hs.1, bump_rb] at hs; omega
            refine ⟨fine_of_nonneg _ _ (h1 hd1).1, ?_⟩
            rw [if_pos hd1]
            simp only [List.length_cons]; omega
          · have := tok_fine ws (bump d w) [] (by omega) (fun _ => rfl) (by omega) hf x hx hl
            refine ⟨this.1, ?_⟩
            have h2 := this.2
            rw [if_neg (by omega)] at h2
            simp only [List.length_nil, List.length_cons] at h2 ⊢
            split <;> omega
        · rename_i hs2
          split at hx
          · rename_i hs3
            have hd0 : d = 0 := by
              rcases Int.lt_or_le 0 d with hd1 | hd1
              · exfalso
                have : bump d w = d - 1 := by omega
                exact hs2 ⟨bump_eq_pred this, hs3⟩
              · omega
            have hc := h0 hd0
            subst hc
            rcases List.mem_cons.mp hx with rfl | hx
            · simp at hl
            · have := tok_fine ws (bump d w) [] (by omega) (fun _ => rfl) (by omega) hf x hx hl
              refine ⟨this.1, ?_⟩
              have h2 := this.2
              rw [if_neg (by omega)] at h2
              simp only [List.length_nil, List.length_cons] at h2 ⊢
              split <;> omega
          · rename_i hs3
            have hd1 : 0 < d := by
              rcases Int.lt_or_le 0 d with hd1 | hd1
              · exact hd1
              · exfalso
                have h00 : d = 0 := by omega
                have : bump d w = d + 1 := by omega
                exact hs1 ⟨bump_eq_succ this, by omega⟩
            obtain ⟨c1, c2⟩ := h1 hd1
            have hsh := bump_shift d (-1) w
            have := tok_fine ws (bump d w) (cur ++ [w]) (by omega) (by omega) (fun _ => by
              refine ⟨?_, ?_⟩
              · rw [nonneg_append]
                refine ⟨c1, ?_⟩
                rw [c2]
                refine ⟨?_, trivial⟩
                have : d - 1 = d + -1 := by omega
                rw [this, hsh]; omega
              · rw [final_append, c2]
                show bump (d - 1) w = _
                have : d - 1 = d + -1 := by omega
                rw [this, hsh]; omega) hf x hx hl
            refine ⟨this.1, ?_⟩
            have h2 := this.2
            rw [if_pos (by omega)] at h2
            rw [if_pos hd1]
            simp only [List.length_append, List.length_cons, List.length_nil] at h2 ⊢
            omega

theorem turns_some (P : List Word → Nat → Option (Piece × Nat)) (n : Nat) : ∀ (items : List (List Word)) (i : Nat) (st : LoopSt),
    (∀ x ∈ items, 2 ≤ x.length → ∀ c, ∃ r, P x c = some r) → ∃ st', turns P n i items st = some st'
  | [], i, st, _ => ⟨st, rfl⟩
  | x :: items, i, st, h => by
    have : ∃ st', turn P n i x st = some st' := by
      unfold turn
      split
      · rename_i hl
        obtain ⟨⟨p, c⟩, hr⟩ := h x (by simp) hl st.next
        rw [hr]
        exact ⟨_, rfl⟩
      · split
        · split
          · exact ⟨_, rfl⟩
          · exact ⟨_, rfl⟩
        · exact ⟨_, rfl⟩
    obtain ⟨st', hst⟩ := this
    rw [turns, hst]
    exact turns_some P n items (i + 1) st' (fun y hy => h y (by simp [hy]))

theorem or_some (P : List Word → Nat → Option (Piece × Nat)) : ∀ (ss : List (List Word)) (c : Nat),
    (∀ x ∈ ss, ∀ c, ∃ r, P x c = some r) → ∃ r, orLoop P ss c = some r
  | [], c, _ => ⟨_, rfl⟩
  | x :: ss, c, h => by
    obtain ⟨⟨p, c1⟩, h1⟩ := h x (by simp) c
    obtain ⟨⟨q, c2⟩, h2⟩ := or_some P ss c1 (fun y hy => h y (by simp [hy]))
    simp only [orLoop, h1, h2]
    exact ⟨_, rfl⟩

theorem parse_total : ∀ (f : Nat) (ws : List Word) (c : Nat), fine 0 ws → ws.length < f → ∃ r, parse f ws c = some r
  | 0, ws, c, _, h => by omega
  | f + 1, ws, c, hf, h => by
    have hall := sep_fine ws 0 [] trivial rfl hf
    rcases sep_len ws 0 [] with hs | ⟨h2, hs⟩
    · simp only [List.nil_append] at hs
      have : ∃ st, turns (parse f) (tokenise ws).length 0 (tokenise ws) ⟨Piece.empty, true, none, c⟩ = some st := by
        apply turns_some
        intro x hx hl c'
        unfold tokenise at hx
        split at hx
        · simp only [List.mem_singleton] at hx; subst hx; simp at hl
        · have := tok_fine ws 0 [] (by omega) (fun _ => rfl) (by omega) hf x hx hl
          refine parse_total f x c' this.1 ?_
          have h2 := this.2
          simp at h2; omega
      obtain ⟨st, hst⟩ := this
      rw [parse, show sepSlash ws = [ws] from hs]
      simp only [hst]
      exact ⟨_, rfl⟩
    · have : ∃ r, orLoop (parse f) (sepSlash ws) c = some r := by
        apply or_some
        intro x hx c'
        refine parse_total f x c' (hall x hx) ?_
        have := hs x hx
        simp at this; omega
      obtain ⟨r, hr⟩ := this
      refine ⟨r, ?_⟩
      rw [parse]
      have hlen : 2 ≤ (sepSlash ws).length := h2
      revert hr hlen
      generalize sepSlash ws = ss
      intro hr hlen
      match ss, hlen, hr with
      | a :: b :: ss, _, hr => exact hr

/-! ### Texts on which it does not return -/

/-- The text has a part `} ... {` that begins with no group open. -/
def Rev (ws : List Word) : Prop := ∃ a y z, ws = a ++ (rb :: (y ++ lb :: z)) ∧ nonneg 0 a ∧ final 0 a = 0 ∧ gone (-1) y ∧ final (-1) y = -1

theorem not_gone : ∀ (ws : List Word) (d : Int), d < 0 → ¬ gone d ws → ∃ y z, ws = y ++ lb :: z ∧ gone d y ∧ final d y = -1
  | [], d, _, h => absurd trivial h
  | w :: ws, d, hd, h => by
    have hb := bump_le d w
    by_cases hw : bump d w < 0
    · have : ¬ gone (bump d w) ws := fun hg => h ⟨hw, hg⟩
      obtain ⟨y, z, rfl, hy, hf⟩ := not_gone ws _ hw this
      exact ⟨w :: y, z, rfl, ⟨hw, hy⟩, hf⟩
    · have : bump d w = d + 1 := by omega
      have hl := bump_eq_succ this
      subst hl
      exact ⟨[], ws, rfl, trivial, by show d = -1; omega⟩

theorem not_fine : ∀ (ws : List Word) (d : Int), 0 ≤ d → ¬ fine d ws →
    ∃ a y z, ws = a ++ (rb :: (y ++ lb :: z)) ∧ nonneg d a ∧ final d a = 0 ∧ gone (-1) y ∧ final (-1) y = -1
  | [], d, _, h => absurd trivial h
  | w :: ws, d, hd, h => by
    have hb := bump_le d w
    by_cases hw : bump d w < 0
    · have hg : ¬ gone (bump d w) ws := fun hg => h (Or.inl ⟨hw, hg⟩)
      have hd0 : d = 0 := by omega
      have hr := bump_eq_pred (d := d) (w := w) (by omega)
      subst hr
      have : bump d rb = -1 := by rw [bump_rb]; omega
      rw [this] at hg
      obtain ⟨y, z, rfl, hy, hf⟩ := not_gone ws (-1) (by omega) hg
      exact ⟨[], y, z, rfl, trivial, hd0, hy, hf⟩
    · have : ¬ fine (bump d w) ws := fun hg => h (Or.inr ⟨by omega, hg⟩)
      obtain ⟨a, y, z, rfl, h1, h2, h3⟩ := not_fine ws _ (by omega) this
      exact ⟨w :: a, y, z, rfl, ⟨by omega, h1⟩, h2, h3⟩

theorem sep_back (y z : List Word) : ∀ (d : Int) (cur : List Word), gone d y → final d y = -1 →
    sepGo d cur (y ++ lb :: z) = sepGo 0 (cur ++ y ++ [lb]) z := by
  induction y with
  | nil =>
    intro d cur _ hf
    have : d = -1 := hf
    subst this
    simp only [List.nil_append, List.append_nil]
    rw [sep_word _ _ _ _ (Or.inl (by decide)), bump_lb]
    rfl
  | cons w y ih =>
    intro d cur hg hf
    have h1 := hg.1
    simp only [List.cons_append]
    rw [sep_word _ _ _ _ (Or.inr (by omega)), ih _ _ hg.2 hf]
    simp

theorem tok_back (y z : List Word) : ∀ (d : Int) (cur : List Word), gone d y → final d y = -1 →
    tokGo d cur (y ++ lb :: z) = (cur ++ y ++ [lb]) :: tokGo 0 [] z := by
  induction y with
  | nil =>
    intro d cur _ hf
    have : d = -1 := hf
    subst this
    simp only [List.nil_append, List.append_nil]
    rw [tokGo, bump_lb, if_neg (by simp), if_neg (by intro h; revert h; decide), if_pos (by omega)]
    rfl
  | cons w y ih =>
    intro d cur hg hf
    have h1 := hg.1
    simp only [List.cons_append]
    rw [tok_in _ _ _ _ (by omega) (fun _ => by omega), ih _ _ hg.2 hf]
    simp

theorem sep_head : ∀ (ws : List Word) (d : Int) (cur : List Word), ∃ s ∈ sepGo d cur ws, ∃ t, s = cur ++ t
  | [], d, cur => ⟨cur, by simp [sepGo], [], by simp⟩
  | w :: ws, d, cur => by
    rw [sepGo]
    split
    · exact ⟨cur, by simp, [], by simp⟩
    · obtain ⟨s, hs, t, ht⟩ := sep_head ws (bump d w) (cur ++ [w])
      exact ⟨s, hs, w :: t, by rw [ht]; simp⟩

theorem sep_rev (y z : List Word) (hy : gone (-1) y) (hf : final (-1) y = -1) : ∀ (a : List Word) (d : Int) (cur : List Word), nonneg 0 cur →
    final 0 cur = d → nonneg d a → final d a = 0 →
    ∃ s ∈ sepGo d cur (a ++ (rb :: (y ++ lb :: z))), ∃ b z', s = b ++ (rb :: (y ++ lb :: z')) ∧ nonneg 0 b ∧ final 0 b = 0
  | [], d, cur, h1, h2, _, h4 => by
    have hd : d = 0 := h4
    subst hd
    simp only [List.nil_append]
    rw [sep_word _ _ _ _ (Or.inl (by decide)), bump_rb, show (0 : Int) - 1 = -1 from rfl, sep_back y z _ _ hy hf]
    obtain ⟨s, hs, t, ht⟩ := sep_head z 0 (cur ++ [rb] ++ y ++ [lb])
    exact ⟨s, hs, cur, t, by rw [ht]; simp, h1, h2⟩
  | w :: a, d, cur, h1, h2, h3, h4 => by
    simp only [List.cons_append]
    rw [sepGo]
    split
    · rename_i hs
      obtain ⟨s, hs', h⟩ := sep_rev y z hy hf a (bump d w) [] trivial (by rw [hs.2]; rfl) h3.2 h4
      exact ⟨s, by simp [hs'], h⟩
    · refine sep_rev y z hy hf a (bump d w) (cur ++ [w]) ?_ ?_ h3.2 h4
      · rw [nonneg_append]
        exact ⟨h1, by rw [h2]; exact ⟨h3.1, trivial⟩⟩
      · rw [final_append, h2]; rfl

theorem tok_rev (y z : List Word) (hy : gone (-1) y) (hf : final (-1) y = -1) : ∀ (b : List Word) (d : Int) (cur : List Word), 0 ≤ d →
    (d = 0 → cur = []) → nonneg d b → final d b = 0 → (rb :: (y ++ [lb])) ∈ tokGo d cur (b ++ (rb :: (y ++ lb :: z)))
  | [], d, cur, _, h0, _, h4 => by
    have hd : d = 0 := h4
    have := h0 hd
    subst hd; subst this
    simp only [List.nil_append]
    rw [tok_in _ _ _ _ (by decide) (fun h => absurd h (by decide)), bump_rb, show (0 : Int) - 1 = -1 from rfl, tok_back y z _ _ hy hf]
    simp
  | w :: b, d, cur, hd, h0, h3, h4 => by
    have hb := bump_le d w
    have h31 := h3.1
    simp only [List.cons_append]
    rw [tokGo]
    split
    · rename_i hs
      exact tok_rev y z hy hf b _ _ h3.1 (fun h => by omega) h3.2 h4
    · split
      · exact List.mem_cons_of_mem _ (tok_rev y z hy hf b _ _ h3.1 (fun _ => rfl) h3.2 h4)
      · split
        · exact List.mem_cons_of_mem _ (tok_rev y z hy hf b _ _ h3.1 (fun _ => rfl) h3.2 h4)
        · rename_i hne
          exact tok_rev y z hy hf b _ _ h3.1 (fun h => absurd h hne) h3.2 h4

theorem turns_none (P : List Word → Nat → Option (Piece × Nat)) (n : Nat) (x : List Word) (hl : 2 ≤ x.length) (hx : ∀ c, P x c = none) :
    ∀ (items : List (List Word)) (i : Nat) (st : LoopSt), x ∈ items → turns P n i items st = none
  | [], i, st, h => by simp at h
  | y :: items, i, st, h => by
    rw [turns]
    by_cases hy : y = x
    · subst hy
      have : turn P n i y st = none := by
        unfold turn
        rw [if_pos hl, hx]
      rw [this]
    · cases turn P n i y st with
      | none => rfl
      | some st' =>
        exact turns_none P n x hl hx items (i + 1) st' (by rcases List.mem_cons.mp h with e | e; exact absurd e.symm hy; exact e)

theorem or_none (P : List Word → Nat → Option (Piece × Nat)) (x : List Word) (hx : ∀ c, P x c = none) :
    ∀ (ss : List (List Word)) (c : Nat), x ∈ ss → orLoop P ss c = none
  | [], c, h => by simp at h
  | y :: ss, c, h => by
    rw [orLoop]
    by_cases hy : y = x
    · subst hy; rw [hx]
    · cases P y c with
      | none => rfl
      | some r =>
        simp only
        rw [or_none P x hx ss r.2 (by rcases List.mem_cons.mp h with e | e; exact absurd e.symm hy; exact e)]

theorem parse_rev : ∀ (f : Nat) (ws : List Word) (c : Nat), Rev ws → parse f ws c = none
  | 0, _, _, _ => rfl
  | f + 1, ws, c, h => by
    obtain ⟨a, y, z, rfl, h1, h2, h3, h4⟩ := h
    obtain ⟨s, hs, b, z', rfl, g1, g2⟩ := sep_rev y z h3 h4 a 0 [] trivial rfl h1 h2
    have hrs : Rev (b ++ (rb :: (y ++ lb :: z'))) := ⟨b, y, z', rfl, g1, g2, h3, h4⟩
    have hrx : Rev (rb :: (y ++ [lb])) := ⟨[], y, [], rfl, trivial, rfl, h3, h4⟩
    rw [parse]
    split
    · rename_i s' he
      have hs' : b ++ (rb :: (y ++ lb :: z')) = s' := by
        unfold sepSlash at he
        rw [he] at hs
        simpa using hs
      have ht : (rb :: (y ++ [lb])) ∈ tokenise s' := by
        rw [← hs']
        unfold tokenise
        rw [if_neg (by simp)]
        exact tok_rev y z' h3 h4 b 0 [] (by omega) (fun _ => rfl) g1 g2
      rw [turns_none (parse f) _ _ (by simp) (fun c => parse_rev f _ c hrx) _ _ _ ht]
    · exact or_none (parse f) _ (fun c => parse_rev f _ c hrs) _ _ hs

/-! ### The condition in terms of counts -/

theorem depth_cons (w : Word) (ws : List Word) (d : Int) : d + depth (w :: ws) = bump d w + depth ws := by
  unfold depth bump
  rw [List.count_cons, List.count_cons]
  by_cases h1 : w = lb
  · subst h1
    simp; omega
  · by_cases h2 : w = rb
    · subst h2
      simp; omega
    · simp [h1, h2]

theorem final_depth : ∀ (ws : List Word) (d : Int), final d ws = d + depth ws
  | [], d => by simp [final, depth]
  | w :: ws, d => by rw [final_cons, final_depth ws, depth_cons]

theorem gone_take : ∀ (ws : List Word) (d : Int) (j : Nat), gone d ws → 0 < j → j ≤ ws.length → d + depth (ws.take j) < 0
  | [], d, j, _, h1, h2 => by simp at h2; omega
  | w :: ws, d, 0, _, h1, _ => by omega
  | w :: ws, d, 1, h, _, _ => by
    rw [List.take_succ_cons, depth_cons]
    have := h.1
    simp [depth]; exact this
  | w :: ws, d, j + 2, h, _, h2 => by
    rw [List.take_succ_cons, depth_cons]
    exact gone_take ws _ (j + 1) h.2 (by omega) (by simp at h2; omega)

theorem fine_take : ∀ (ws : List Word) (d : Int) (i j : Nat), fine d ws → 0 ≤ d → d + depth (ws.take i) < 0 → i < j → j ≤ ws.length →
    d + depth (ws.take j) < 0
  | [], d, i, j, _, hd, h, h1, h2 => by simp at h2; omega
  | w :: ws, d, 0, j, _, hd, h, _, _ => by simp [depth] at h; omega
  | w :: ws, d, i + 1, 0, _, hd, h, h1, _ => by omega
  | w :: ws, d, i + 1, j + 1, hf, hd, h, h1, h2 => by
    rw [List.take_succ_cons, depth_cons] at h ⊢
    rcases hf with ⟨hn, hg⟩ | ⟨hp, hf⟩
    · exact gone_take ws _ j hg (by omega) (by simpa using h2)
    · exact fine_take ws _ i j hf hp h (by omega) (by simpa using h2)

theorem rev_reversed (ws : List Word) (h : Rev ws) : Reversed ws := by
  obtain ⟨a, y, z, rfl, h1, h2, h3, h4⟩ := h
  refine ⟨a.length + 1, a.length + 1 + y.length + 1, by omega, by simp; omega, ?_, ?_⟩
  · have : (a ++ (rb :: (y ++ lb :: z))).take (a.length + 1) = a ++ [rb] := by
      rw [show a ++ (rb :: (y ++ lb :: z)) = (a ++ [rb]) ++ (y ++ lb :: z) from by simp]
      rw [List.take_append_of_le_length (by simp)]
      apply List.take_of_length_le
      simp
    have hfd := final_depth (a ++ [rb]) 0
    rw [this]
    rw [final_append, h2] at hfd
    have : final 0 [rb] = -1 := rfl
    omega
  · have : (a ++ (rb :: (y ++ lb :: z))).take (a.length + 1 + y.length + 1) = a ++ rb :: (y ++ [lb]) := by
      rw [show a ++ (rb :: (y ++ lb :: z)) = (a ++ rb :: (y ++ [lb])) ++ z from by simp]
      rw [List.take_append_of_le_length (by simp; omega)]
      apply List.take_of_length_le
      simp; omega
    have hfd := final_depth (a ++ rb :: (y ++ [lb])) 0
    rw [this]
    rw [final_append, h2, final_cons, final_append] at hfd
    have e1 : bump 0 rb = -1 := by decide
    rw [e1, h4] at hfd
    have : final (-1) [lb] = 0 := by decide
    omega

theorem fine_iff (ws : List Word) : fine 0 ws ↔ ¬ Reversed ws := by
  constructor
  · rintro hf ⟨i, j, hij, hj, h1, h2⟩
    have := fine_take ws 0 i j hf (by omega) (by omega) hij hj
    omega
  · intro h
    apply Classical.byContradiction
    intro hf
    exact h (rev_reversed ws (not_fine ws 0 (by omega) hf))

/-! ### The bound on the depth does not matter -/

theorem turn_mono (P Q : List Word → Nat → Option (Piece × Nat)) (h : ∀ x c r, P x c = some r → Q x c = some r) (n i : Nat) (x : List Word)
    (st st' : LoopSt) (ht : turn P n i x st = some st') : turn Q n i x st = some st' := by
  unfold turn at ht ⊢
  split
  · rename_i hl
    rw [if_pos hl] at ht
    cases hp : P x st.next with
    | none => rw [hp] at ht; simp at ht
    | some r => rw [hp] at ht; rw [h x _ r hp]; exact ht
  · rename_i hl
    rw [if_neg hl] at ht
    exact ht

theorem turns_mono (P Q : List Word → Nat → Option (Piece × Nat)) (h : ∀ x c r, P x c = some r → Q x c = some r) (n : Nat) :
    ∀ (items : List (List Word)) (i : Nat) (st st' : LoopSt), turns P n i items st = some st' → turns Q n i items st = some st'
  | [], i, st, st', ht => ht
  | x :: items, i, st, st', ht => by
    rw [turns] at ht ⊢
    cases hx : turn P n i x st with
    | none => rw [hx] at ht; simp at ht
    | some s1 =>
      rw [hx] at ht
      rw [turn_mono P Q h n i x st s1 hx]
      exact turns_mono P Q h n items (i + 1) s1 st' ht

theorem or_mono (P Q : List Word → Nat → Option (Piece × Nat)) (h : ∀ x c r, P x c = some r → Q x c = some r) :
    ∀ (ss : List (List Word)) (c : Nat) (r : Piece × Nat), orLoop P ss c = some r → orLoop Q ss c = some r
  | [], c, r, ht => ht
  | x :: ss, c, r, ht => by
    rw [orLoop] at ht ⊢
    cases hx : P x c with
    | none => rw [hx] at ht; simp at ht
    | some s1 =>
      rw [hx] at ht
      rw [h x c s1 hx]
      simp only at ht ⊢
      cases hy : orLoop P ss s1.2 with
      | none => rw [hy] at ht; simp at ht
      | some s2 => rw [hy] at ht; rw [or_mono P Q h ss s1.2 s2 hy]; exact ht

theorem parse_succ : ∀ (f : Nat) (ws : List Word) (c : Nat) (r : Piece × Nat), parse f ws c = some r → parse (f + 1) ws c = some r
  | 0, ws, c, r, h => by simp [parse] at h
  | f + 1, ws, c, r, h => by
    have ih : ∀ x c r, parse f x c = some r → parse (f + 1) x c = some r := fun x c r => parse_succ f x c r
    rw [parse] at h ⊢
    split at h
    · rename_i s he
      cases hx : turns (parse f) (tokenise s).length 0 (tokenise s) ⟨Piece.empty, true, none, c⟩ with
      | none => rw [hx] at h; simp at h
      | some st => rw [hx] at h; rw [turns_mono _ _ ih _ _ _ _ _ hx]; exact h
    · exact or_mono _ _ ih _ _ _ h

theorem parse_mono (ws : List Word) (c : Nat) (r : Piece × Nat) (f g : Nat) (h : f ≤ g) (hp : parse f ws c = some r) : parse g ws c = some r := by
  induction h with
  | refl => exact hp
  | step _ ih => exact parse_succ _ _ _ _ ih

end Verif.LineStyle
