import Verif.Rpg.Geom
/-!
# Lemmas on the sizes of the columns, and the whole report
-/
set_option autoImplicit false
namespace Verif.Rpg

def TLe (T T' : Table) : Prop := ∀ n c, T n c ≤ T' n c

theorem TLe.refl (T : Table) : TLe T T := fun _ _ => Int.le_refl _

theorem TLe.trans {T U V : Table} (h : TLe T U) (h' : TLe U V) : TLe T V := fun n c => Int.le_trans (h n c) (h' n c)

theorem raise_le (T : Table) (n c : Nat) (v : Int) : TLe T (raise T n c v) := by
  intro x y
  show _ ≤ (if x = n ∧ y = c then max (T n c) v else T x y)
  split
  · rename_i h; rw [h.1, h.2]; omega
  · exact Int.le_refl _

theorem bump_le (T : Table) (n c : Nat) (v : Int) (h : 0 ≤ v) : TLe T (bump T n c v) := by
  intro x y
  show _ ≤ (if x = n ∧ y = c then T n c + v else T x y)
  split
  · rename_i h'; rw [h'.1, h'.2]; omega
  · exact Int.le_refl _

theorem bump_other (T : Table) (n c : Nat) (v : Int) (c' : Nat) (h : c' ≠ c) : bump T n c v n c' = T n c' := by
  show (if n = n ∧ c' = c then _ else _) = _
  rw [if_neg (by omega)]

theorem bump_self (T : Table) (n c : Nat) (v : Int) : bump T n c v n c = T n c + v := by
  show (if n = n ∧ c = c then _ else _) = _
  rw [if_pos ⟨rfl, rfl⟩]

theorem spanned_le (T T' : Table) (n pad : Nat) (h : TLe T T') : ∀ (m c : Nat), spanned (T n) pad m c ≤ spanned (T' n) pad m c
  | 0, _ => Int.le_refl 0
  | m + 1, c => by
    have := spanned_le T T' n pad h m (c + 1)
    have := h n c
    show T n c + 2 * (pad : Int) + 1 + _ ≤ T' n c + 2 * (pad : Int) + 1 + _
    omega

/-- The room of the cells of a row that span, or of those that do not. -/
def Room (pad : Nat) (text : Nat → List Char) (n : Nat) (which : Nat → Prop) (T : Table) : Nat → List Col → Prop
  | _, [] => True
  | c, k :: ks => (k.just ≠ 'a' → which (span ks) → (size k.just (text c) : Int) ≤ T n c + spanned (T n) pad (span ks) (c + 1)) ∧
    Room pad text n which T (c + 1) ks

theorem Room.mono {pad : Nat} {text : Nat → List Char} {n : Nat} {which : Nat → Prop} {T T' : Table} (h : TLe T T') :
    ∀ (cols : List Col) (c : Nat), Room pad text n which T c cols → Room pad text n which T' c cols
  | [], _, _ => trivial
  | k :: ks, c, hr => by
    refine ⟨fun a b => ?_, Room.mono h ks (c + 1) hr.2⟩
    have h1 := hr.1 a b
    have h2 := h n c
    have h3 := spanned_le T T' n pad h (span ks) (c + 1)
    omega

theorem pass1_mono (text : Nat → List Char) (n : Nat) : ∀ (cols : List Col) (c : Nat) (T : Table), TLe T (pass1Row text n c cols T)
  | [], _, T => TLe.refl T
  | k :: ks, c, T => by
    refine TLe.trans ?_ (pass1_mono text n ks (c + 1) _)
    split
    · exact raise_le _ _ _ _
    · exact TLe.refl T

theorem pass1_room (pad : Nat) (text : Nat → List Char) (n : Nat) : ∀ (cols : List Col) (c : Nat) (T : Table),
    Room pad text n (fun m => m = 0) (pass1Row text n c cols T) c cols
  | [], _, _ => trivial
  | k :: ks, c, T => by
    refine ⟨fun _ h => ?_, pass1_room pad text n ks (c + 1) _⟩
    have h : span ks = 0 := h
    have e : pass1Row text n c (k :: ks) T = pass1Row text n (c + 1) ks (raise T n c (size k.just (text c))) := by
      show pass1Row text n (c + 1) ks (if _ then _ else _) = _
      rw [if_pos h]
    rw [e]
    have h1 := pass1_mono text n ks (c + 1) (raise T n c (size k.just (text c))) n c
    have h2 : (size k.just (text c) : Int) ≤ raise T n c (size k.just (text c)) n c := by
      show _ ≤ (if n = n ∧ c = c then max (T n c) _ else _)
      rw [if_pos ⟨rfl, rfl⟩]; omega
    rw [h]
    show _ ≤ _ + (0 : Int)
    omega

theorem distribute_mono (R : Round) (hR : Shares R) (n nu : Nat) (hn : 0 < nu) : ∀ (m c2 : Nat) (d : Int) (T : Table), 0 ≤ d →
    TLe T (distribute R n nu m c2 d T)
  | 0, c2, d, T, h => bump_le T n c2 d h
  | m + 1, c2, d, T, h => by
    obtain ⟨r1, r2, r3⟩ := hR d nu h hn
    have h1 := r2 1
    have h2 := r3 1 nu hn
    rw [r1] at h2
    exact TLe.trans (bump_le T n c2 _ h1) (distribute_mono R hR n nu hn m (c2 + 1) (d - R d nu 1) _ (by omega))

theorem distribute_before (R : Round) (n nu : Nat) : ∀ (m c2 : Nat) (d : Int) (T : Table) (c : Nat), c < c2 →
    distribute R n nu m c2 d T n c = T n c
  | 0, c2, d, T, c, h => bump_other T n c2 d c (by omega)
  | m + 1, c2, d, T, c, h => by
    show distribute R n nu m (c2 + 1) _ _ n c = _
    rw [distribute_before R n nu m (c2 + 1) _ _ c (by omega), bump_other _ _ _ _ _ (by omega)]

theorem spanSize_bump (T : Table) (pad n c0 : Nat) (v : Int) : ∀ (m c : Nat), c0 < c →
    spanSize (bump T n c0 v) pad n c m = spanSize T pad n c m
  | 0, c, h => bump_other T n c0 v c (by omega)
  | m + 1, c, h => by
    show bump T n c0 v n c + 1 + 2 * (pad : Int) + _ = T n c + 1 + 2 * (pad : Int) + _
    rw [bump_other _ _ _ _ _ (by omega), spanSize_bump T pad n c0 v m (c + 1) (by omega)]

/-- The distribution gives out exactly what is missing, however it is rounded. -/
theorem spanSize_distribute (R : Round) (pad n nu : Nat) : ∀ (m c2 : Nat) (d : Int) (T : Table),
    spanSize (distribute R n nu m c2 d T) pad n c2 m = spanSize T pad n c2 m + d
  | 0, c2, d, T => bump_self T n c2 d
  | m + 1, c2, d, T => by
    show distribute R n nu m (c2 + 1) _ _ n c2 + 1 + 2 * (pad : Int) + spanSize (distribute R n nu m (c2 + 1) _ _) pad n (c2 + 1) m = _
    rw [spanSize_distribute R pad n nu m (c2 + 1), distribute_before _ _ _ _ _ _ _ _ (by omega), bump_self, spanSize_bump _ _ _ _ _ _ _ (by omega)]
    show _ = T n c2 + 1 + 2 * (pad : Int) + spanSize T pad n (c2 + 1) m + d
    omega

theorem pass2_mono (R : Round) (hR : Shares R) (pad : Nat) (text : Nat → List Char) (n : Nat) : ∀ (cols : List Col) (skip c : Nat) (T : Table),
    TLe T (pass2Row R pad text n skip c cols T)
  | [], skip, _, T => by cases skip <;> exact TLe.refl T
  | k :: ks, skip + 1, c, T => pass2_mono R hR pad text n ks skip (c + 1) T
  | k :: ks, 0, c, T => by
    show TLe T (if _ then _ else _)
    split
    · exact pass2_mono R hR pad text n ks 0 (c + 1) T
    · refine TLe.trans ?_ (pass2_mono R hR pad text n ks _ (c + 1) _)
      split
      · exact distribute_mono R hR n _ (Nat.succ_pos _) _ _ _ _ (by omega)
      · exact TLe.refl T

theorem pass2_room (R : Round) (hR : Shares R) (pad : Nat) (text : Nat → List Char) (n : Nat) : ∀ (cols : List Col) (skip c : Nat) (T : Table),
    skip = span cols → Room pad text n (fun m => m ≠ 0) (pass2Row R pad text n skip c cols T) c cols
  | [], skip, c, T, _ => by cases skip <;> trivial
  | k :: ks, skip + 1, c, T, h => by
    have hk : k.just = 'a' := by
      apply Classical.byContradiction
      intro hk; rw [span_ne hk] at h; simp at h
    rw [span_a hk] at h
    exact ⟨fun a => absurd hk a, pass2_room R hR pad text n ks skip (c + 1) T (by omega)⟩
  | k :: ks, 0, c, T, h => by
    have e : pass2Row R pad text n 0 c (k :: ks) T = (if span ks = 0 then pass2Row R pad text n 0 (c + 1) ks T
      else pass2Row R pad text n (span ks) (c + 1) ks
        (if (size k.just (text c) : Int) > spanSize T pad n c (span ks) then
          distribute R n (span ks + 1) (span ks) c (size k.just (text c) - spanSize T pad n c (span ks)) T else T)) := rfl
    rw [e]
    by_cases hs : span ks = 0
    · rw [if_pos hs]
      exact ⟨fun _ b => absurd hs b, pass2_room R hR pad text n ks 0 (c + 1) T hs.symm⟩
    · rw [if_neg hs]
      refine ⟨fun _ _ => ?_, pass2_room R hR pad text n ks _ (c + 1) _ rfl⟩
      rw [← spanSize_eq]
      have key : (size k.just (text c) : Int) ≤ spanSize (if (size k.just (text c) : Int) > spanSize T pad n c (span ks) then
          distribute R n (span ks + 1) (span ks) c (size k.just (text c) - spanSize T pad n c (span ks)) T else T) pad n c (span ks) := by
        split
        · rw [spanSize_distribute]; omega
        · omega
      generalize (if (size k.just (text c) : Int) > spanSize T pad n c (span ks) then
          distribute R n (span ks + 1) (span ks) c (size k.just (text c) - spanSize T pad n c (span ks)) T else T) = U at key ⊢
      refine Int.le_trans key ?_
      rw [spanSize_eq, spanSize_eq]
      have hm := pass2_mono R hR pad text n ks (span ks) (c + 1) U
      have h1 := hm n c
      have h2 := spanned_le _ _ n pad hm (span ks) (c + 1)
      omega

theorem passRows_mono (f : Nat → List Col → Table → Table) (s : State) (hf : ∀ r cols T, TLe T (f r cols T)) :
    ∀ (js : List Nat) (r : Nat) (T : Table), TLe T (passRows f s r js T)
  | [], _, T => TLe.refl T
  | j :: js, r, T => TLe.trans (hf r (colsOf s j) T) (passRows_mono f s hf js (r + 1) _)

theorem passRows_get (f : Nat → List Col → Table → Table) (s : State) (P : Nat → List Col → Table → Prop)
    (hf : ∀ r cols T, TLe T (f r cols T)) (hm : ∀ r cols T T', TLe T T' → P r cols T → P r cols T') :
    ∀ (js : List Nat) (r : Nat) (T : Table), (∀ j ∈ js, ∀ r T, P r (colsOf s j) (f r (colsOf s j) T)) →
    ∀ (i j : Nat), js[i]? = some j → P (r + i) (colsOf s j) (passRows f s r js T)
  | [], _, _, _, i, j, h => by simp at h
  | j :: js, r, T, hp, 0, j', h => by
    simp at h; subst h
    exact hm _ _ _ _ (passRows_mono f s hf js (r + 1) _) (hp j (List.mem_cons_self ..) r T)
  | j :: js, r, T, hp, i + 1, j', h => by
    have := passRows_get f s P hf hm js (r + 1) (f r (colsOf s j) T) (fun x hx => hp x (List.mem_cons_of_mem _ hx)) i j' (by simpa using h)
    have e : r + (i + 1) = r + 1 + i := by omega
    rw [e]; exact this

theorem fit_of_room (T : Table) (n pad : Nat) (text : Nat → List Char) : ∀ (cols : List Col) (c : Nat),
    Room pad text n (fun m => m = 0) T c cols → Room pad text n (fun m => m ≠ 0) T c cols → FitSize (T n) pad text c cols
  | [], _, _, _ => trivial
  | k :: ks, c, h0, h1 => by
    refine ⟨fun hk => ?_, fit_of_room T n pad text ks (c + 1) h0.2 h1.2⟩
    by_cases hs : span ks = 0
    · exact h0.1 hk hs
    · exact h1.1 hk hs

/-- After both passes all texts fit. -/
theorem sizes_fit (R : Round) (hR : Shares R) (pad : Nat) (s : State) (hreg : ∀ d ∈ s.defs, Regular d) (i j : Nat) (d : Def)
    (hi : s.rows[i]? = some j) (hj : s.defs[j]? = some d) :
    FitSize (sizes R pad s d.cols.length) pad (fun c => s.cells c i) 0 d.cols := by
  have hcols : colsOf s j = d.cols := by unfold colsOf; rw [hj]; rfl
  have hd := hreg d (List.mem_of_getElem? hj)
  have h0 := passRows_get (fun r cols => pass1Row (fun c => s.cells c r) cols.length 0 cols) s
    (fun r cols T => Room pad (fun c => s.cells c r) cols.length (fun m => m = 0) T 0 cols)
    (fun r cols T => pass1_mono _ _ _ _ _) (fun r cols T T' h hr => Room.mono h _ _ hr) s.rows 0 (fun _ _ => 0)
    (fun j _ r T => pass1_room pad _ _ _ _ _) i j hi
  have hmono := passRows_mono (fun r cols => pass2Row R pad (fun c => s.cells c r) cols.length 0 0 cols) s
    (fun r cols T => pass2_mono R hR pad _ _ _ _ _ _) s.rows 0
    (passRows (fun r cols => pass1Row (fun c => s.cells c r) cols.length 0 cols) s 0 s.rows (fun _ _ => 0))
  have h1 := passRows_get (fun r cols => pass2Row R pad (fun c => s.cells c r) cols.length 0 0 cols) s
    (fun r cols T => span cols = 0 → Room pad (fun c => s.cells c r) cols.length (fun m => m ≠ 0) T 0 cols)
    (fun r cols T => pass2_mono R hR pad _ _ _ _ _ _) (fun r cols T T' h hr hz => Room.mono h _ _ (hr hz)) s.rows 0
    (passRows (fun r cols => pass1Row (fun c => s.cells c r) cols.length 0 cols) s 0 s.rows (fun _ _ => 0))
    (fun j _ r T hz => pass2_room R hR pad _ _ _ _ _ _ hz.symm) i j hi
  rw [hcols, Nat.zero_add] at h0 h1
  obtain ⟨k, hk, hka⟩ := hd.first
  have hsp : span d.cols = 0 := by
    cases h : d.cols with
    | nil => rfl
    | cons x y => rw [h] at hk; simp at hk; subst hk; exact span_ne hka
  exact fit_of_room _ _ _ _ _ _ (Room.mono hmono _ _ h0) (h1 hsp)

theorem sizes_nonneg (R : Round) (hR : Shares R) (pad : Nat) (s : State) (n c : Nat) : 0 ≤ sizes R pad s n c := by
  have h1 := passRows_mono (fun r cols => pass1Row (fun c => s.cells c r) cols.length 0 cols) s
    (fun r cols T => pass1_mono _ _ _ _ _) s.rows 0 (fun _ _ => 0) n c
  have h2 := passRows_mono (fun r cols => pass2Row R pad (fun c => s.cells c r) cols.length 0 0 cols) s
    (fun r cols T => pass2_mono R hR pad _ _ _ _ _ _) s.rows 0
    (passRows (fun r cols => pass1Row (fun c => s.cells c r) cols.length 0 cols) s 0 s.rows (fun _ _ => 0)) n c
  exact Int.le_trans h1 h2

theorem width_fold (T : Table) (pad : Nat) : ∀ (ds : List Def) (w : Int),
    w ≤ ds.foldl (fun w d => if w < minWidth T pad d then minWidth T pad d else w) w ∧
    ∀ d ∈ ds, minWidth T pad d ≤ ds.foldl (fun w d => if w < minWidth T pad d then minWidth T pad d else w) w
  | [], w => ⟨Int.le_refl w, fun d h => by cases h⟩
  | d :: ds, w => by
    obtain ⟨h1, h2⟩ := width_fold T pad ds (if w < minWidth T pad d then minWidth T pad d else w)
    have h3 : w ≤ (if w < minWidth T pad d then minWidth T pad d else w) ∧ minWidth T pad d ≤ (if w < minWidth T pad d then minWidth T pad d else w) := by
      split <;> constructor <;> omega
    refine ⟨Int.le_trans h3.1 h1, ?_⟩
    intro x hx
    rcases List.mem_cons.mp hx with rfl | hx
    · exact Int.le_trans h3.2 h1
    · exact h2 x hx

theorem width_ge (T : Table) (pad : Nat) (ds : List Def) (d : Def) (h : d ∈ ds) : minWidth T pad d ≤ width T pad ds :=
  (width_fold T pad ds 0).2 d h

theorem maxLen_ge (ts : List (List Char)) (t : List Char) (h : t ∈ ts) : t.length < maxLen ts + 1 := by
  have key : ∀ (ts : List (List Char)) (m : Nat), m ≤ ts.foldl (fun m t => max m t.length) m ∧
      ∀ t ∈ ts, t.length ≤ ts.foldl (fun m t => max m t.length) m := by
    intro ts
    induction ts with
    | nil => intro m; exact ⟨Nat.le_refl m, fun t h => by cases h⟩
    | cons a ts ih =>
      intro m
      obtain ⟨i1, i2⟩ := ih (max m a.length)
      refine ⟨Nat.le_trans (Nat.le_max_left _ _) i1, ?_⟩
      intro t ht
      rcases List.mem_cons.mp ht with rfl | ht
      · exact Nat.le_trans (Nat.le_max_right _ _) i1
      · exact i2 t ht
  exact Nat.lt_succ_of_le ((key ts 0).2 t h)

theorem rowTexts_get (text : Nat → List Char) : ∀ (cols : List Col) (c0 c : Nat) (k : Col), cols[c]? = some k → k.just ≠ 'a' →
    (rowTexts text c0 cols)[c]? = some (text (c0 + c))
  | [], _, _, _, h, _ => by simp at h
  | k :: ks, c0, 0, k', h, hn => by
    simp at h; subst h
    show some (if _ then _ else _) = _
    rw [if_neg hn]; rfl
  | k :: ks, c0, c + 1, k', h, hn => by
    have := rowTexts_get text ks (c0 + 1) c k' (by simpa using h) hn
    have e : c0 + (c + 1) = c0 + 1 + c := by omega
    rw [e]; simpa [rowTexts] using this

/-- The sizes of the columns of a row with definition `d`. -/
def geomOf (R : Round) (pad : Nat) (s : State) (d : Def) : List (Int × Int) :=
  geom R pad (width (sizes R pad s) pad s.defs - minWidth (sizes R pad s) pad d) d.cols.length (sizes R pad s d.cols.length) 0 0 d.cols

/-- What row `i` of the report comes out as; column `c` has its field at `(G c).1`, with column size `(G c).2.1` and text size
`(G c).2.2`. -/
structure RowOut (s : State) (i : Nat) (d : Def) (W : Int) (G : Nat → Nat × Int × Int) (ls : List (List Char)) : Prop where
  lines : ∃ (text : List (List Char)) (P : List (Nat → List Char)) (befores afters : List (List Char)), ls = befores ++ text ++ afters ∧
    befores.length = (s.before i).length ∧ afters.length = (s.after i).length ∧ P.length = text.length ∧ text ≠ [] ∧
    (∀ l ∈ befores ++ text, (l.length : Int) = W) ∧
    ((∀ k ∈ d.cols, k.sep ≠ '=') → ∀ l ∈ afters, (l.length : Int) = W) ∧
    ∀ (c : Nat) (k : Col), d.cols[c]? = some k → k.just ≠ 'a' →
      Splits (P.map (fun p : Nat → List Char => p c)) (s.cells c i) ∧
      ((∀ x ∈ segments (s.cells c i), x.length ≤ size k.just (s.cells c i)) → Parts (P.map (fun p : Nat → List Char => p c)) (s.cells c i)) ∧
      ∀ (n : Nat) (l : List Char) (p : Nat → List Char), text[n]? = some l → P[n]? = some p →
        ¬ ['/', '/'] <:+: p c ∧ ∃ field, At (G c).1 field l ∧ Placed k.just (G c).2.1 (G c).2.2 (p c) field

/-- The layout of the columns of a row with definition `d`. -/
def layout (R : Round) (pad : Nat) (s : State) (d : Def) (c : Nat) : Nat × Int × Int :=
  (1 + offset d.cols (geomOf R pad s d) c, ((geomOf R pad s d)[c]?).getD (0, 0))

theorem dumpRow_ok (R : Round) (hR : Shares R) (pad : Nat) (s : State) (hreg : ∀ d ∈ s.defs, Regular d) (prev : List Col) (i j : Nat) (d : Def)
    (hi : s.rows[i]? = some j) (hj : s.defs[j]? = some d) (hB : width (sizes R pad s) pad s.defs ≤ 300) :
    ∃ ls, dumpRow R pad s (sizes R pad s) (width (sizes R pad s) pad s.defs) i prev d = .ok ls ∧
      RowOut s i d (width (sizes R pad s) pad s.defs) (layout R pad s d) ls := by
  have hmem := List.mem_of_getElem? hj
  have hd := hreg d hmem
  obtain ⟨h1, h2⟩ := row_width R hR pad d hd (sizes R pad s) (sizes_nonneg R hR pad s) _ (width_ge _ _ _ d hmem) hB (fun c => s.cells c i)
    (fit_of_size _ _ _ _ _ hd.letters (sizes_fit R hR pad s hreg i j d hi hj))
  have hsz := sizes_fit R hR pad s hreg i j d hi hj
  have hgt := geom_text R pad (width (sizes R pad s) pad s.defs - minWidth (sizes R pad s) pad d) d.cols.length (sizes R pad s d.cols.length) d.cols 0
  unfold layout geomOf
  generalize hgs : geom R pad (width (sizes R pad s) pad s.defs - minWidth (sizes R pad s) pad d) d.cols.length (sizes R pad s d.cols.length) 0 0 d.cols = gs at *
  generalize hW : width (sizes R pad s) pad s.defs = W at *
  obtain ⟨ls, P, r1, r2, r3, r4⟩ := rowLines_ok d.cols gs (maxLen (rowTexts (fun c => s.cells c i) 0 d.cols) + 1) _ h1 (Nat.succ_pos _) (maxLen_ge _)
  refine ⟨(s.before i).map (fun p => sepLine true p prev d.cols gs) ++ ls ++ (s.after i).map (fun p => sepLine false p prev d.cols gs), ?_,
    ⟨ls, P, _, _, rfl, by simp, by simp, r3, ?_, ?_, ?_, ?_⟩⟩
  · unfold dumpRow
    dsimp only
    rw [hgs, r1]
  · intro hh
    rw [hh] at r1
    have : ∀ (f : Nat) (ts : List (List Char)), rowLines d.cols gs f ts ≠ .ok [] := by
      intro f ts
      cases f with
      | zero => intro h; cases h
      | succ f =>
        intro h
        have h' : (match printCols d.cols gs ts with
          | .error e => .error e
          | .ok (out, rests) =>
            if (d.cols.zip rests).all (fun x => x.1.just == 'n' || x.2.isEmpty) then Except.ok [['|'] ++ out ++ ['|']]
            else match rowLines d.cols gs f rests with
              | .error e => .error e
              | .ok ls => .ok ((['|'] ++ out ++ ['|']) :: ls)) = Except.ok (ε := Stop) [] := h
        split at h'
        · cases h'
        · split at h'
          · cases h'
          · split at h' <;> cases h'
    exact this _ _ r1
  · intro l hl
    rcases List.mem_append.mp hl with hl | hl
    · obtain ⟨p, _, rfl⟩ := List.mem_map.mp hl
      have := sepCols_before p prev d.cols gs 0
      show (((['|'] ++ sepCols true p prev 0 d.cols gs ++ ['|']).length : Nat) : Int) = W
      rw [← h2]
      simp only [List.length_append, List.length_singleton, this]
      omega
    · rw [← h2, r2 l hl]
  · intro hne l hl
    obtain ⟨p, _, rfl⟩ := List.mem_map.mp hl
    have := sepCols_after p prev d.cols gs 0 hne
    show (((['|'] ++ sepCols false p prev 0 d.cols gs ++ ['|']).length : Nat) : Int) = W
    rw [← h2]
    simp only [List.length_append, List.length_singleton, this]
    omega
  · intro c k hc hk
    obtain ⟨g, t, a, b, _⟩ := rowOk_get _ _ _ h1 c k hc
    obtain ⟨q1, q3, q2⟩ := r4 c k g t hc a b hk
    have ht := rowTexts_get (fun c => s.cells c i) d.cols 0 c k hc hk
    rw [b] at ht
    have : t = s.cells c i := by have := Option.some.inj ht; simpa using this
    rw [this] at q1 q3
    have hg2 := hgt c 0 k g (by omega) hc hk (by rw [hgs]; exact a)
    have hs2 := fitSize_get _ _ _ _ 0 c k hsz hc hk
    rw [← hg2, Nat.zero_add] at hs2
    refine ⟨q1, fun hx => q3 (fun x hx' => ?_), ?_⟩
    · have := hx x hx'
      have hs3 : ((size k.just (s.cells c i) : Nat) : Int) ≤ g.2 := hs2
      omega
    · intro n l p hl hp
      obtain ⟨z1, fl, z2, z3⟩ := q2 n l p hl hp
      refine ⟨z1, fl, z2, ?_⟩
      show Placed k.just ((gs[c]?).getD (0, 0)).1 ((gs[c]?).getD (0, 0)).2 (p c) fl
      rw [a]
      exact z3

theorem dumpRows_ok (R : Round) (hR : Shares R) (pad : Nat) (s : State) (hreg : ∀ d ∈ s.defs, Regular d)
    (hv : ∀ j ∈ s.rows, j < s.defs.length) (hB : width (sizes R pad s) pad s.defs ≤ 300) :
    ∀ (js : List Nat) (r : Nat) (prev : List Col), (∀ i j, js[i]? = some j → s.rows[r + i]? = some j) →
    ∃ L : List (List (List Char)), dumpRows R pad s (sizes R pad s) (width (sizes R pad s) pad s.defs) r prev js = .ok L.flatten ∧
      L.length = js.length ∧ ∀ (i j : Nat) (d : Def) (ls : List (List Char)), js[i]? = some j → s.defs[j]? = some d → L[i]? = some ls →
        RowOut s (r + i) d (width (sizes R pad s) pad s.defs) (layout R pad s d) ls
  | [], _, _, _ => ⟨[], rfl, rfl, fun i j d ls h => by simp at h⟩
  | j :: js, r, prev, h => by
    have hr : s.rows[r]? = some j := h 0 j rfl
    have hlt := hv j (List.mem_of_getElem? hr)
    have hdj : s.defs[j]? = some s.defs[j] := List.getElem?_eq_getElem hlt
    obtain ⟨ls, a, b⟩ := dumpRow_ok R hR pad s hreg prev r j _ hr hdj hB
    obtain ⟨L, i1, i2, i3⟩ := dumpRows_ok R hR pad s hreg hv hB js (r + 1) (colsOf s j) (fun i j' hi => by
      have := h (i + 1) j' (by simpa using hi)
      have e : r + (i + 1) = r + 1 + i := by omega
      rw [e] at this; exact this)
    refine ⟨ls :: L, ?_, by simp [i2], ?_⟩
    · show (match dumpRow R pad s _ _ r prev ((s.defs[j]?).getD ⟨[], [], 0⟩) with | .error e => _ | .ok ls => _) = _
      rw [hdj, Option.getD_some, a]
      dsimp only
      rw [i1]
      rfl
    · intro i j' d ls' e1 e2 e3
      cases i with
      | zero =>
        simp at e1 e3; subst e1; subst e3
        rw [hdj] at e2
        have := Option.some.inj e2
        subst this
        exact b
      | succ i =>
        have := i3 i j' d ls' (by simpa using e1) e2 (by simpa using e3)
        have e : r + (i + 1) = r + 1 + i := by omega
        rw [e]; exact this

end Verif.Rpg
