import Verif.LevMatrix.Model
/-! Helper lemmas for the cost tables. -/
set_option autoImplicit false
namespace Verif.LevMatrix

/-! ### mixed radix -/

theorem weightedSum_scale (a : Nat) : ∀ (ds : List Nat) (c : Coord),
    weightedSum (multipliersFrom a ds) c = a * weightedSum (multipliers ds) c
  | [], _ => by simp [multipliersFrom, multipliers, weightedSum]
  | d :: ds, [] => by simp [multipliersFrom, multipliers, weightedSum]
  | d :: ds, x :: xs => by
    simp only [multipliersFrom, multipliers, weightedSum, Nat.one_mul]
    rw [weightedSum_scale (a * d), weightedSum_scale d, Nat.mul_add, Nat.mul_assoc]

theorem weightedSum_cons (d : Nat) (ds : List Nat) (x : Nat) (xs : Coord) :
    weightedSum (multipliers (d :: ds)) (x :: xs) = x + d * weightedSum (multipliers ds) xs := by
  simp only [multipliers, multipliersFrom, weightedSum, Nat.one_mul]
  rw [weightedSum_scale]; rfl

theorem weightedSum_lt : ∀ (ds : List Nat) (c : Coord), InRange ds c →
    weightedSum (multipliers ds) c < prod ds
  | [], [], _ => by simp [multipliers, multipliersFrom, weightedSum, prod]
  | d :: ds, x :: xs, h => by
    obtain ⟨hx, hs⟩ := h
    have ih := weightedSum_lt ds xs hs
    rw [weightedSum_cons, prod]
    calc x + d * weightedSum (multipliers ds) xs
        < d + d * weightedSum (multipliers ds) xs := by omega
      _ = d * (weightedSum (multipliers ds) xs + 1) := by rw [Nat.mul_add, Nat.mul_one, Nat.add_comm]
      _ ≤ d * prod ds := Nat.mul_le_mul_left _ ih
  | [], _ :: _, h => h.elim
  | _ :: _, [], h => h.elim

theorem weightedSum_inj : ∀ (ds : List Nat) (c c' : Coord), InRange ds c → InRange ds c' →
    weightedSum (multipliers ds) c = weightedSum (multipliers ds) c' → c = c'
  | [], [], [], _, _, _ => rfl
  | d :: ds, x :: xs, y :: ys, h, h', e => by
    rw [weightedSum_cons, weightedSum_cons] at e
    obtain ⟨hx, hs⟩ := h
    obtain ⟨hy, hs'⟩ := h'
    have hd : 0 < d := by omega
    have e1 : x = y := by
      have := congrArg (· % d) e
      simpa [Nat.add_mul_mod_self_left, Nat.mod_eq_of_lt hx, Nat.mod_eq_of_lt hy] using this
    subst e1
    have e2 : d * weightedSum (multipliers ds) xs = d * weightedSum (multipliers ds) ys := by omega
    rw [weightedSum_inj ds xs ys hs hs' (Nat.eq_of_mul_eq_mul_left hd e2)]
  | [], _ :: _, _, h, _, _ => h.elim
  | [], [], _ :: _, _, h, _ => h.elim
  | _ :: _, [], _, h, _, _ => h.elim
  | _ :: _, _ :: _, [], _, h, _ => h.elim

/-! ### history specification -/

theorem stores_append (a b : List Op) : stores (a ++ b) = stores a ++ stores b := by
  induction a with
  | nil => rfl
  | cons o t ih => cases o <;> simp [stores, ih]

theorem readAfter_nil (c : Coord) : readAfter [] c = -1 := rfl

theorem readAfter_set (past : List Op) (c c' : Coord) (v : Int) :
    readAfter (past ++ [.set c v]) c' = if c = c' then v else readAfter past c' := by
  unfold readAfter
  rw [stores_append]
  simp only [stores, List.reverse_append, List.reverse_cons, List.reverse_nil, List.nil_append,
    List.cons_append, List.find?_cons]
  by_cases h : c = c'
  · simp [h]
  · simp [h]

theorem readAfter_get (past : List Op) (c c' : Coord) :
    readAfter (past ++ [.get c]) c' = readAfter past c' := by
  unfold readAfter
  rw [stores_append]
  simp [stores]

theorem distinct_get (past : List Op) (c : Coord) :
    distinctStored (past ++ [.get c]) = distinctStored past := by
  unfold distinctStored
  rw [stores_append]
  simp [stores]

theorem readAfter_eq_neg_one_iff (past : List Op) (hv : ∀ p ∈ stores past, p.2 ≠ -1) (c : Coord) :
    readAfter past c = -1 ↔ c ∉ (stores past).map (·.1) := by
  unfold readAfter
  cases h : (stores past).reverse.find? (fun p => p.1 = c) with
  | none =>
    simp only [true_iff]
    intro hm
    obtain ⟨p, hp, rfl⟩ := List.mem_map.1 hm
    have := List.find?_eq_none.1 h p (List.mem_reverse.2 hp)
    simp at this
  | some p =>
    have hp := List.mem_reverse.1 (List.mem_of_find?_eq_some h)
    have hc : p.1 = c := by simpa using List.find?_some h
    constructor
    · intro e; exact absurd e (hv p hp)
    · intro e; exact absurd (List.mem_map.2 ⟨p, hp, hc⟩) e

theorem eraseDups_append_singleton (l : List Coord) (c : Coord) :
    (l ++ [c]).eraseDups.length = l.eraseDups.length + (if c ∈ l then 0 else 1) := by
  rw [List.eraseDups_append]
  by_cases h : c ∈ l
  · simp [h, List.removeAll]
  · simp [h, List.removeAll, List.eraseDups_cons]

theorem distinct_set (past : List Op) (c : Coord) (v : Int)
    (hv : ∀ p ∈ stores past, p.2 ≠ -1) :
    distinctStored (past ++ [.set c v]) =
      if readAfter past c = -1 then distinctStored past + 1 else distinctStored past := by
  unfold distinctStored
  rw [stores_append]
  simp only [stores, List.map_append, List.map_cons, List.map_nil]
  rw [eraseDups_append_singleton]
  have := readAfter_eq_neg_one_iff past hv c
  by_cases h : c ∈ (stores past).map (·.1)
  · have h' : ¬ readAfter past c = -1 := fun e => this.1 e h
    rw [if_pos h, if_neg h']; rfl
  · have h' : readAfter past c = -1 := this.2 h
    rw [if_neg h, if_pos h']

/-! ### array table -/

/-- Invariant tying the array table to the history that produced it. -/
structure ArrayInv (dims : List Nat) (past : List Op) (t : ArrayTable) : Prop where
  dims_eq : t.dims = dims
  len : t.cells.length = prod dims
  reads : ∀ c, InRange dims c → t.get c = some (readAfter past c)

theorem ArrayTable.index_inRange (t : ArrayTable) (c : Coord) (h : InRange t.dims c) :
    t.index c = some (weightedSum (multipliers t.dims) c) := by
  have := weightedSum_lt _ _ h
  unfold ArrayTable.index
  simp only
  rw [if_neg (by omega)]

theorem arrayInv_new (tabDeep : List Nat) :
    ArrayInv (dimsOf tabDeep) [] (ArrayTable.new tabDeep) := by
  refine ⟨rfl, by simp [ArrayTable.new], ?_⟩
  intro c hc
  have hi := ArrayTable.index_inRange (ArrayTable.new tabDeep) c hc
  have hlt := weightedSum_lt _ _ hc
  unfold ArrayTable.get
  rw [hi]
  simp only [ArrayTable.new, readAfter_nil]
  rw [List.getElem?_replicate]
  rw [if_pos hlt]; rfl

theorem arrayInv_get {dims past t} (h : ArrayInv dims past t) (c : Coord) :
    ArrayInv dims (past ++ [.get c]) t :=
  ⟨h.dims_eq, h.len, fun c' hc' => by rw [readAfter_get]; exact h.reads c' hc'⟩

theorem arrayInv_set {dims past t} (h : ArrayInv dims past t) (c : Coord) (v : Int)
    (hc : InRange dims c) :
    ∃ t', t.set c v = some t' ∧ ArrayInv dims (past ++ [.set c v]) t' ∧
      t'.count = if readAfter past c = -1 then t.count + 1 else t.count := by
  have hd := h.dims_eq
  have hi := ArrayTable.index_inRange t c (hd ▸ hc)
  have hr := h.reads c hc
  unfold ArrayTable.get at hr
  rw [hi] at hr
  simp only at hr
  refine ⟨{ t with
        cells := t.cells.set (weightedSum (multipliers t.dims) c) v
        count := if readAfter past c = uncalculated then t.count + 1 else t.count }, ?_, ?_, ?_⟩
  · unfold ArrayTable.set
    rw [hi]; simp only; rw [hr]
  · refine ⟨hd, by simp [h.len], ?_⟩
    intro c' hc'
    have hr' := h.reads c' hc'
    have hi' := ArrayTable.index_inRange t c' (hd ▸ hc')
    unfold ArrayTable.get at hr' ⊢
    rw [hi'] at hr'
    rw [ArrayTable.index_inRange _ c' (by simpa [hd] using hc')]
    simp only at hr' ⊢
    rw [readAfter_set]
    by_cases e : c = c'
    · subst e
      have hlt : weightedSum (multipliers t.dims) c < t.cells.length := by
        rw [h.len, hd]; exact weightedSum_lt _ _ hc
      simp [hlt]
    · have hne : weightedSum (multipliers t.dims) c ≠ weightedSum (multipliers t.dims) c' :=
        fun e' => e (weightedSum_inj _ _ _ (hd ▸ hc) (hd ▸ hc') e')
      rw [List.getElem?_set_ne hne, hr', if_neg e]
  · rfl

/-! ### geometry -/

theorem blockDim_pos {d k : Nat} (hd : 0 < d) (hk : 0 < k) : 0 < blockDim d k := by
  unfold blockDim
  simp only
  split
  · exact Nat.succ_pos _
  · rename_i h
    have h0 : d % k = 0 := by omega
    have : k ≤ d := Nat.le_of_dvd hd (Nat.dvd_of_mod_eq_zero h0)
    exact Nat.div_pos this hk

theorem le_blockDim_mul {d k : Nat} (hk : 0 < k) : d ≤ k * blockDim d k := by
  unfold blockDim
  simp only
  have h := Nat.div_add_mod d k
  have hlt := Nat.mod_lt d hk
  split
  · rw [Nat.mul_add]; omega
  · omega

/-- What the addressing proofs need from a geometry. -/
structure GeomOK (dims : List Nat) (g : Geometry) : Prop where
  len : g.dividers.length = dims.length
  pos : ∀ k ∈ g.dividers, 0 < k
  bd : g.blockDims = List.zipWith blockDim dims g.dividers
  elts : prod g.blockDims ≤ g.blockElts

theorem inRange_div : ∀ (dims divs : List Nat) (c : Coord), divs.length = dims.length →
    (∀ k ∈ divs, 0 < k) → InRange dims c →
    InRange divs (List.zipWith (· / ·) c (List.zipWith blockDim dims divs))
  | [], [], [], _, _, _ => trivial
  | d :: ds, k :: ks, x :: xs, hl, hp, h => by
    obtain ⟨hx, hs⟩ := h
    have hk : 0 < k := hp k (by simp)
    refine ⟨?_, inRange_div ds ks xs (by simpa using hl) (fun k hk => hp k (by simp [hk])) hs⟩
    apply Nat.div_lt_of_lt_mul
    have := @le_blockDim_mul d k hk
    rw [Nat.mul_comm]; omega
  | [], k :: ks, _, hl, _, _ => by simp at hl
  | d :: ds, [], _, hl, _, _ => by simp at hl
  | [], [], _ :: _, _, _, h => h.elim
  | _ :: _, _ :: _, [], _, _, h => h.elim

theorem inRange_mod : ∀ (dims divs : List Nat) (c : Coord), divs.length = dims.length →
    (∀ k ∈ divs, 0 < k) → InRange dims c →
    InRange (List.zipWith blockDim dims divs)
      (List.zipWith (· % ·) c (List.zipWith blockDim dims divs))
  | [], [], [], _, _, _ => trivial
  | d :: ds, k :: ks, x :: xs, hl, hp, h => by
    obtain ⟨hx, hs⟩ := h
    have hk : 0 < k := hp k (by simp)
    refine ⟨?_, inRange_mod ds ks xs (by simpa using hl) (fun k hk => hp k (by simp [hk])) hs⟩
    exact Nat.mod_lt _ (blockDim_pos (by omega) hk)
  | [], k :: ks, _, hl, _, _ => by simp at hl
  | d :: ds, [], _, hl, _, _ => by simp at hl
  | [], [], _ :: _, _, _, h => h.elim
  | _ :: _, _ :: _, [], _, _, h => h.elim

theorem divmod_inj : ∀ (dims bs : List Nat) (c c' : Coord), bs.length = dims.length →
    InRange dims c → InRange dims c' →
    List.zipWith (· / ·) c bs = List.zipWith (· / ·) c' bs →
    List.zipWith (· % ·) c bs = List.zipWith (· % ·) c' bs → c = c'
  | [], [], [], [], _, _, _, _, _ => rfl
  | d :: ds, b :: bs, x :: xs, y :: ys, hl, h, h', e1, e2 => by
    simp only [List.zipWith_cons_cons, List.cons.injEq] at e1 e2
    have hxy : x = y := by
      rw [← Nat.div_add_mod x b, ← Nat.div_add_mod y b, e1.1, e2.1]
    rw [hxy, divmod_inj ds bs xs ys (by simpa using hl) h.2 h'.2 e1.2 e2.2]
  | [], _ :: _, _, _, hl, _, _, _, _ => by simp at hl
  | _ :: _, [], _, _, hl, _, _, _, _ => by simp at hl
  | [], [], _ :: _, _, _, h, _, _, _ => h.elim
  | [], [], [], _ :: _, _, _, h, _, _ => h.elim
  | _ :: _, _ :: _, [], _, _, h, _, _, _ => h.elim
  | _ :: _, _ :: _, _ :: _, [], _, _, h, _, _ => h.elim

theorem blockNum_lt {dims g} (hg : GeomOK dims g) {c} (hc : InRange dims c) :
    blockNum g c < prod g.dividers := by
  unfold blockNum
  apply weightedSum_lt
  rw [hg.bd]
  exact inRange_div _ _ _ hg.len hg.pos hc

theorem blockOffset_lt {dims g} (hg : GeomOK dims g) {c} (hc : InRange dims c) :
    blockOffset g c < g.blockElts := by
  unfold blockOffset
  refine Nat.lt_of_lt_of_le (weightedSum_lt _ _ ?_) hg.elts
  rw [hg.bd]
  exact inRange_mod _ _ _ hg.len hg.pos hc

theorem address_inj {dims g} (hg : GeomOK dims g) {c c'} (hc : InRange dims c)
    (hc' : InRange dims c') (h1 : blockNum g c = blockNum g c')
    (h2 : blockOffset g c = blockOffset g c') : c = c' := by
  unfold blockNum at h1
  unfold blockOffset at h2
  rw [hg.bd] at h1 h2
  have e1 := weightedSum_inj _ _ _ (inRange_div _ _ _ hg.len hg.pos hc)
    (inRange_div _ _ _ hg.len hg.pos hc') h1
  have e2 := weightedSum_inj _ _ _ (inRange_mod _ _ _ hg.len hg.pos hc)
    (inRange_mod _ _ _ hg.len hg.pos hc') h2
  exact divmod_inj dims _ c c' (by simp [hg.len]) hc hc' e1 e2

theorem candidates_ne_nil (lv : Nat) {d : Nat} (hd : 0 < d) : candidates lv d ≠ [] := by
  unfold candidates
  by_cases h : d = 1
  · simp [h]
  · apply List.append_ne_nil_of_right_ne_nil
    apply List.ne_nil_of_mem (a := d)
    simp only [List.mem_filter, List.mem_range]
    refine ⟨by omega, ?_⟩
    simp; omega

theorem candidates_pos {lv d k : Nat} (h : k ∈ candidates lv d) : 0 < k := by
  unfold candidates at h
  rcases List.mem_append.1 h with h | h
  · split at h
    · simp at h; omega
    · simp at h
  · have := (List.mem_filter.1 h).2
    simp at this; omega

theorem mem_tuples_len : ∀ (cs : List (List Nat)) (t : List Nat), t ∈ tuples cs →
    t.length = cs.length ∧ ∀ k ∈ t, ∃ c ∈ cs, k ∈ c
  | [], t, h => by simp [tuples] at h; subst h; simp
  | c :: cs, t, h => by
    simp only [tuples, List.mem_flatMap, List.mem_map] at h
    obtain ⟨x, hx, t', ht', rfl⟩ := h
    obtain ⟨h1, h2⟩ := mem_tuples_len cs t' ht'
    refine ⟨by simp [h1], ?_⟩
    intro k hk
    rcases List.mem_cons.1 hk with rfl | hk
    · exact ⟨c, by simp, hx⟩
    · obtain ⟨c', hc', hk'⟩ := h2 k hk
      exact ⟨c', by simp [hc'], hk'⟩

theorem tuples_ne_nil : ∀ (cs : List (List Nat)), (∀ c ∈ cs, c ≠ []) → tuples cs ≠ []
  | [], _ => by simp [tuples]
  | c :: cs, h => by
    have hc := h c (by simp)
    have ih := tuples_ne_nil cs (fun c hc => h c (by simp [hc]))
    obtain ⟨x, hx⟩ := List.exists_mem_of_ne_nil _ hc
    obtain ⟨t, ht⟩ := List.exists_mem_of_ne_nil _ ih
    apply List.ne_nil_of_mem (a := x :: t)
    simp only [tuples, List.mem_flatMap, List.mem_map]
    exact ⟨x, hx, t, ht, rfl⟩

theorem searchBest_mem (target : Nat) (dims : List Nat) : ∀ (ts : List (List Nat)) (best : Option (Nat × List Nat)) (r),
    searchBest target dims best ts = some r → r.2 ∈ ts ∨ best = some r
  | [], best, r, h => by cases best <;> simp_all [searchBest]
  | t :: ts, none, r, h => by
    rw [searchBest] at h
    rcases searchBest_mem target dims ts _ r h with h | h
    · exact Or.inl (by simp [h])
    · simp at h; subst h; simp
  | t :: ts, some (c, b), r, h => by
    rw [searchBest] at h
    rcases searchBest_mem target dims ts _ r h with h | h
    · exact Or.inl (by simp [h])
    · split at h
      · simp at h; subst h; simp
      · exact Or.inr h

theorem searchBest_isSome (target : Nat) (dims : List Nat) : ∀ (ts : List (List Nat)) (best : Option (Nat × List Nat)),
    (ts ≠ [] ∨ best.isSome) → (searchBest target dims best ts).isSome
  | [], none, h => by simp at h
  | [], some (c, b), _ => by simp [searchBest]
  | t :: ts, none, _ => by
    rw [searchBest]; exact searchBest_isSome target dims ts _ (Or.inr rfl)
  | t :: ts, some (c, b), _ => by
    rw [searchBest]; exact searchBest_isSome target dims ts _ (Or.inr (by split <;> rfl))

theorem blockComputation_ok (lv target : Nat) (dims : List Nat) (hd : ∀ d ∈ dims, 0 < d) :
    ∃ g, blockComputation lv target dims = some g ∧ GeomOK dims g := by
  unfold blockComputation
  have hne : tuples (dims.map (candidates lv)) ≠ [] := by
    apply tuples_ne_nil
    intro c hc
    obtain ⟨d, hdm, rfl⟩ := List.mem_map.1 hc
    exact candidates_ne_nil lv (hd d hdm)
  have hs := searchBest_isSome target dims _ none (Or.inl hne)
  obtain ⟨⟨cl, divs⟩, hb⟩ := Option.isSome_iff_exists.1 hs
  rw [hb]
  refine ⟨_, rfl, ?_⟩
  have hm : divs ∈ tuples (dims.map (candidates lv)) := by
    rcases searchBest_mem _ _ _ _ _ hb with h | h
    · exact h
    · simp at h
  obtain ⟨h1, h2⟩ := mem_tuples_len _ _ hm
  refine ⟨by simpa using h1, ?_, rfl, ?_⟩
  · intro k hk
    obtain ⟨c, hc, hkc⟩ := h2 k hk
    obtain ⟨d, _, rfl⟩ := List.mem_map.1 hc
    exact candidates_pos hkc
  · simp only
    split <;> omega

theorem buildGeometry_ok (kb : Nat) (dims : List Nat) (hd : ∀ d ∈ dims, 0 < d) :
    ∃ g, buildGeometry kb dims = some g ∧ GeomOK dims g := by
  unfold buildGeometry
  obtain ⟨g, hg, ok⟩ := blockComputation_ok 0 (kb * 256) dims hd
  rw [hg]
  simp only
  split
  · exact blockComputation_ok 1 (kb * 256) dims hd
  · exact ⟨g, rfl, ok⟩

/-! ### compressed table -/

variable {β : Type}

/-- The cells a block stands for, whatever its representation. -/
def Content.cells (p : Params β) : Content β → List Int
  | .absent => List.replicate p.geom.blockElts uncalculated
  | .plain cs => cs
  | .packed z => p.codec.dec z

/-- All blocks' cells. -/
def absCells (p : Params β) (t : CTable β) : List (List Int) :=
  t.blocks.map (fun b => b.content.cells p)

theorem map_modify_id {α γ : Type} (f : α → γ) (g : α → α) (h : ∀ a, f (g a) = f a) :
    ∀ (l : List α) (i : Nat), (l.modify i g).map f = l.map f
  | [], i => by simp
  | a :: l, 0 => by simp [h]
  | a :: l, i + 1 => by simp [map_modify_id f g h l i]

theorem set_self_of_getElem? {α : Type} : ∀ (l : List α) (i : Nat) (a : α), l[i]? = some a →
    l.set i a = l
  | [], _, _, h => by simp at h
  | b :: l, 0, a, h => by simp at h; simp [h]
  | b :: l, i + 1, a, h => by simp at h; simp [set_self_of_getElem? l i a h]

theorem abs_touch (p : Params β) (t : CTable β) (i : Nat) :
    absCells p (touch t i) = absCells p t := by
  unfold absCells touch
  exact map_modify_id (fun b : Block β => b.content.cells p)
    (fun b => { b with hits := t.accesses }) (fun _ => rfl) _ _

theorem count_touch (t : CTable β) (i : Nat) : (touch t i).count = t.count := rfl

/-- Replacing a block by one with the same cells keeps the abstraction. -/
theorem abs_set_same (p : Params β) (t : CTable β) (i : Nat) (b b' : Block β) (m : Int) (dc : Nat)
    (hb : t.blocks[i]? = some b) (h : b'.content.cells p = b.content.cells p) :
    absCells p { t with blocks := t.blocks.set i b', mem := m, decompressions := dc } = absCells p t := by
  unfold absCells
  simp only [List.map_set, h]
  apply set_self_of_getElem?
  simp [hb]

/-- The codec gives back what was compressed. -/
def Lossless (k : Codec β) : Prop := ∀ x, k.dec (k.enc x) = x

theorem abs_compressCreated (p : Params β) (hk : Lossless p.codec) (t : CTable β) (i : Nat) :
    absCells p (compressCreated p t i) = absCells p t := by
  unfold compressCreated
  split
  · rename_i cells sz h hb
    simp only
    split
    · rfl
    · exact abs_set_same p t i _ _ _ _ hb (hk cells)
  · rfl

theorem count_compressCreated (p : Params β) (t : CTable β) (i : Nat) :
    (compressCreated p t i).count = t.count := by
  unfold compressCreated
  split
  · simp only; split <;> rfl
  · rfl

theorem abs_forcedGC (p : Params β) (hk : Lossless p.codec) (t : CTable β) :
    absCells p (forcedGC p t).1 = absCells p t := by
  unfold forcedGC
  split
  · rfl
  · exact abs_compressCreated p hk t _

theorem count_forcedGC (p : Params β) (t : CTable β) : (forcedGC p t).1.count = t.count := by
  unfold forcedGC
  split
  · rfl
  · exact count_compressCreated p t _

theorem abs_gcLoop (p : Params β) (hk : Lossless p.codec) : ∀ fuel (t t' : CTable β),
    gcLoop p fuel t = some t' → absCells p t' = absCells p t ∧ t'.count = t.count
  | 0, _, _, h => by simp [gcLoop] at h
  | fuel + 1, t, t', h => by
    rw [gcLoop] at h
    simp only at h
    split at h
    · obtain ⟨h1, h2⟩ := abs_gcLoop p hk fuel _ _ h
      exact ⟨h1.trans (abs_forcedGC p hk t), h2.trans (count_forcedGC p t)⟩
    · simp only [Option.some.injEq] at h
      subst h
      exact ⟨abs_forcedGC p hk t, count_forcedGC p t⟩

theorem abs_gc (p : Params β) (hk : Lossless p.codec) {fuel} {t t' : CTable β}
    (h : gc p fuel t = some t') : absCells p t' = absCells p t ∧ t'.count = t.count := by
  unfold gc at h
  split at h
  · exact abs_gcLoop p hk _ _ _ h
  · simp at h; subst h; exact ⟨rfl, rfl⟩

theorem abs_createBlock (p : Params β) (hk : Lossless p.codec) {fuel} {t t' : CTable β} {i}
    (h : createBlock p fuel t i = some t') : absCells p t' = absCells p t ∧ t'.count = t.count := by
  unfold createBlock at h
  split at h
  · simp at h
  · rename_i b hb
    split at h
    · rename_i hc
      simp only at h
      obtain ⟨h1, h2⟩ := abs_gc p hk h
      refine ⟨?_, h2⟩
      rw [h1, abs_touch]
      exact abs_set_same p t i b _ _ _ hb (by simp [hc, Content.cells])
    · simp at h; subst h; exact ⟨rfl, rfl⟩

/-- After `createBlock` the block exists. -/
def created (t : CTable β) (i : Nat) : Prop :=
  ∃ b, t.blocks[i]? = some b ∧ b.content ≠ .absent

theorem created_touch {t : CTable β} {i} (j) (h : created t i) : created (touch t j) i := by
  obtain ⟨b, hb, hc⟩ := h
  unfold created touch
  simp only [List.getElem?_modify, hb]
  refine ⟨_, rfl, ?_⟩
  split <;> exact hc

theorem created_compressCreated {p : Params β} {t : CTable β} {i} (j) (h : created t i) :
    created (compressCreated p t j) i := by
  unfold compressCreated
  split
  · rename_i hb
    simp only
    split
    · exact h
    · obtain ⟨b, hb', hc⟩ := h
      unfold created
      by_cases e : j = i
      · subst e
        have : j < t.blocks.length := by
          rcases Nat.lt_or_ge j t.blocks.length with h | h
          · exact h
          · simp [List.getElem?_eq_none h] at hb'
        simp [this]
      · simp only [List.getElem?_set_ne e]
        exact ⟨b, hb', hc⟩
  · exact h

theorem created_gcLoop {p : Params β} {i} : ∀ fuel (t t' : CTable β),
    gcLoop p fuel t = some t' → created t i → created t' i
  | 0, _, _, h, _ => by simp [gcLoop] at h
  | fuel + 1, t, t', h, hc => by
    have hf : created (forcedGC p t).1 i := by
      unfold forcedGC
      split
      · exact hc
      · exact created_compressCreated _ hc
    rw [gcLoop] at h
    simp only at h
    split at h
    · exact created_gcLoop fuel _ _ h hf
    · simp only [Option.some.injEq] at h
      subst h; exact hf

theorem created_createBlock {p : Params β} {fuel} {t t' : CTable β} {i}
    (h : createBlock p fuel t i = some t') : created t' i := by
  unfold createBlock at h
  split at h
  · simp at h
  · rename_i b hb
    split at h
    · rename_i hc
      simp only at h
      have hlt : i < t.blocks.length := by
        rcases Nat.lt_or_ge i t.blocks.length with h | h
        · exact h
        · simp [List.getElem?_eq_none h] at hb
      have h0 : created (touch { t with
          blocks := t.blocks.set i
            { content := .plain (List.replicate p.geom.blockElts uncalculated)
              size := baseLengthIn p, hits := b.hits }
          mem := t.mem + baseLengthIn p } i) i := by
        apply created_touch
        unfold created
        simp [hlt]
      unfold gc at h
      split at h
      · exact created_gcLoop _ _ _ h h0
      · simp at h; subst h; exact h0
    · rename_i hc
      simp at h; subst h
      exact ⟨b, hb, fun e => hc e⟩

theorem abs_decompressBlock (p : Params β) (hk : Lossless p.codec) {fuel} {t t' : CTable β} {i d}
    (h : decompressBlock p fuel t i = some (t', d)) :
    absCells p t' = absCells p t ∧ t'.count = t.count ∧
      ∃ b cs, t'.blocks[i]? = some b ∧ b.content = .plain cs := by
  unfold decompressBlock at h
  split at h
  · simp at h
  · rename_i t1 h1
    obtain ⟨ha, hcnt⟩ := abs_createBlock p hk h1
    obtain ⟨b0, hb0, hcr⟩ := created_createBlock h1
    rw [hb0] at h
    simp only at h
    have hlt : i < t1.blocks.length := by
      rcases Nat.lt_or_ge i t1.blocks.length with h | h
      · exact h
      · simp [List.getElem?_eq_none h] at hb0
    split at h
    · rename_i z hz
      simp only [Option.some.injEq, Prod.mk.injEq] at h
      obtain ⟨h, _⟩ := h
      subst h
      refine ⟨?_, hcnt, ?_⟩
      · rw [abs_touch, ← ha]
        exact abs_set_same p t1 i b0 _ _ _ hb0 (by simp [hz, Content.cells])
      · unfold touch
        simp [hlt]
    · rename_i hnp
      simp only [Option.some.injEq, Prod.mk.injEq] at h
      obtain ⟨h, _⟩ := h
      subst h
      refine ⟨(abs_touch p t1 i).trans ha, hcnt, ?_⟩
      have : ∃ cs, b0.content = .plain cs := by
        cases hc : b0.content with
        | absent => exact absurd hc hcr
        | plain cs => exact ⟨cs, rfl⟩
        | packed z => exact absurd hc (hnp z)
      obtain ⟨cs, hcs⟩ := this
      refine ⟨{ b0 with hits := t1.accesses }, cs, ?_, hcs⟩
      unfold touch
      simp [hb0]

/-- Reading a cell of the abstraction. -/
def absGet (cells : List (List Int)) (i off : Nat) : Option Int :=
  match cells[i]? with
  | some cs => cs[off]?
  | none => none

theorem peek_eq (p : Params β) (t : CTable β) {i off b cs}
    (hb : t.blocks[i]? = some b) (hc : b.content = .plain cs) :
    peek t i off = absGet (absCells p t) i off := by
  obtain ⟨c, s, h⟩ := b
  simp only at hc
  subst hc
  simp [peek, absGet, absCells, hb, Content.cells]

theorem modify_eq_set {α : Type} (f : α → α) : ∀ (l : List α) (i : Nat) (a : α),
    l[i]? = some a → l.modify i f = l.set i (f a)
  | [], _, _, h => by simp at h
  | b :: l, 0, a, h => by simp at h; simp [h]
  | b :: l, i + 1, a, h => by simp at h; simp [modify_eq_set f l i a h]

theorem abs_poke (p : Params β) (t : CTable β) {i b cs} (off : Nat) (v : Int)
    (hb : t.blocks[i]? = some b) (hc : b.content = .plain cs) :
    absCells p (poke t i off v) = (absCells p t).set i (cs.set off v) := by
  unfold absCells poke
  have hlt : i < t.blocks.length := by
    rcases Nat.lt_or_ge i t.blocks.length with h | h
    · exact h
    · simp [List.getElem?_eq_none h] at hb
  simp [modify_eq_set _ _ _ _ hb, hc, Content.cells, List.map_set, pokeBlock]

end Verif.LevMatrix
