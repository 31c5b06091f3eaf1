import Verif.LevMatrix.LemmasC
/-!
# Cost tables: property theorems (C01–C05)

The vocabulary (`Op`, `InRange`, `readAfter`, `answers`, `distinctStored`) is in
`Verif.LevMatrix.Spec`.
-/
set_option autoImplicit false
namespace Verif.LevMatrix

/-! ## C01 -/

theorem arrayRun_aux (dims : List Nat) : ∀ (ops past : List Op) (t : ArrayTable),
    ArrayInv dims past t → (∀ o ∈ ops, InRange dims o.coord) →
    ∃ t', t.run ops = some (answers past ops, t') ∧ ArrayInv dims (past ++ ops) t' ∧
      ((∀ p ∈ stores (past ++ ops), p.2 ≠ -1) → t.count = distinctStored past →
        t'.count = distinctStored (past ++ ops))
  | [], past, t, h, _ => ⟨t, rfl, by simpa using h, by simp⟩
  | .set c v :: ops, past, t, h, hr => by
    have hin : InRange dims c := hr (.set c v) (by simp)
    obtain ⟨t1, h1, hi, hc⟩ := arrayInv_set h c v hin
    obtain ⟨t2, h2, hi2, hc2⟩ := arrayRun_aux dims ops _ t1 hi (fun o ho => hr o (by simp [ho]))
    refine ⟨t2, ?_, by simpa using hi2, ?_⟩
    · simp only [ArrayTable.run, h1, h2, answers]
    · intro hv hcount
      simp only [List.append_assoc, List.cons_append, List.nil_append] at hc2
      apply hc2 hv
      rw [hc, distinct_set past c v (fun p hp => hv p (by rw [stores_append]; simp [hp])), hcount]
  | .get c :: ops, past, t, h, hr => by
    have hin : InRange dims c := hr (.get c) (by simp)
    obtain ⟨t2, h2, hi2, hc2⟩ := arrayRun_aux dims ops _ t (arrayInv_get h c)
      (fun o ho => hr o (by simp [ho]))
    refine ⟨t2, ?_, by simpa using hi2, ?_⟩
    · simp only [ArrayTable.run, h.reads c hin, h2, answers]
    · intro hv hcount
      simp only [List.append_assoc, List.cons_append, List.nil_append] at hc2
      apply hc2 hv
      rw [distinct_get, hcount]

/-- **C01.** For every list of dimension sizes and every history of in-range stores and reads, the
array table answers each read with the last value stored there (−1 if none), afterwards every
in-range coordinate reads back its last stored value, and, if −1 itself was never stored, the
number of calculated costs is the number of distinct coordinates stored.
(`ArrayTable.new` receives each size plus one, as `Graph` passes it.) -/
theorem array_table_correct (dims : List Nat) (ops : List Op)
    (hr : ∀ o ∈ ops, InRange dims o.coord) :
    ∃ t, (ArrayTable.new (dims.map (· + 1))).run ops = some (answers [] ops, t) ∧
      (∀ c, InRange dims c → t.get c = some (readAfter ops c)) ∧
      ((∀ p ∈ stores ops, p.2 ≠ -1) → t.count = distinctStored ops) := by
  have hd : dimsOf (dims.map (· + 1)) = dims := by
    unfold dimsOf
    rw [List.map_map]
    conv => rhs; rw [← List.map_id dims]
    apply List.map_congr_left
    intro a _; simp
  have h0 := arrayInv_new (dims.map (· + 1))
  rw [hd] at h0
  obtain ⟨t, h1, h2, h3⟩ := arrayRun_aux dims ops [] _ h0 hr
  exact ⟨t, h1, h2.reads, fun hv => h3 hv rfl⟩

/-- An out-of-table linear index makes the array table stop the program instead of reading
another cell. -/
theorem array_table_rejects (t : ArrayTable) (c : Coord)
    (h : prod t.dims ≤ weightedSum (multipliers t.dims) c) : t.get c = none := by
  unfold ArrayTable.get ArrayTable.index
  simp [h]

/-- The hypotheses of `array_table_correct` are met by a three-dimensional history with overwrites. -/
example : (∀ o ∈ [Op.set [1, 2, 0] 5, .get [1, 2, 0], .set [1, 2, 0] 7, .set [0, 0, 1] 3, .get [0, 1, 1],
      .get [1, 2, 0]], InRange [2, 3, 2] o.coord) ∧
    answers [] [Op.set [1, 2, 0] 5, .get [1, 2, 0], .set [1, 2, 0] 7, .set [0, 0, 1] 3, .get [0, 1, 1],
      .get [1, 2, 0]] = [5, -1, 7] := by
  refine ⟨by decide, by decide⟩

/-! ## C03 -/

/-- **C03.** For every vector of positive dimension sizes and every requested block size, the geometry
the compressed table computes places every in-range coordinate at a block below the number of blocks
(the product of the dividers, i.e. the length of the block array) and at an offset below the number
of cells of a block, and no two different coordinates share both. -/
theorem block_addressing (blockKB : Nat) (dims : List Nat) (hd : ∀ d ∈ dims, 0 < d) :
    ∃ g, buildGeometry blockKB dims = some g ∧
      (∀ c, InRange dims c → blockNum g c < prod g.dividers ∧ blockOffset g c < g.blockElts) ∧
      (∀ c c', InRange dims c → InRange dims c' → c ≠ c' →
        (blockNum g c, blockOffset g c) ≠ (blockNum g c', blockOffset g c')) := by
  obtain ⟨g, hg, ok⟩ := buildGeometry_ok blockKB dims hd
  refine ⟨g, hg, fun c hc => ⟨blockNum_lt ok hc, blockOffset_lt ok hc⟩, ?_⟩
  intro c c' hc hc' hne e
  simp only [Prod.mk.injEq] at e
  exact hne (address_inj ok hc hc' e.1 e.2)

/-- A geometry where the dividers do not divide the sizes evenly. -/
example : (buildGeometry 1 [7, 5]).map (fun g => (g.dividers, g.blockDims, blockNum g [6, 4],
    blockOffset g [6, 4])) = some ([2, 2], [4, 3], 3, 6) := by decide

/-! ## C02 -/

variable {β : Type}

theorem compressedRun_aux (p : Params β) (hk : Lossless p.codec) (dims : List Nat)
    (hg : GeomOK dims p.geom) (fuel : Nat) : ∀ (h : List COp) (past : List Op) (t t' : CTable β)
    (outs : List Int), CInv p dims past t → (∀ o ∈ clientOps h, InRange dims o.coord) →
    t.run p fuel h = some (outs, t') →
    outs = answers past (clientOps h) ∧ CInv p dims (past ++ clientOps h) t' ∧
      ((∀ q ∈ stores (past ++ clientOps h), q.2 ≠ -1) → t.count = distinctStored past →
        t'.count = distinctStored (past ++ clientOps h))
  | [], past, t, t', outs, hi, _, hrun => by
    simp only [CTable.run, Option.some.injEq, Prod.mk.injEq] at hrun
    obtain ⟨rfl, rfl⟩ := hrun
    exact ⟨rfl, by simpa [clientOps] using hi, by simp [clientOps]⟩
  | .client (.set c v) :: h, past, t, t', outs, hi, hr, hrun => by
    simp only [CTable.run] at hrun
    split at hrun
    · simp at hrun
    · rename_i t1 h1
      have hin : InRange dims c := hr (.set c v) (by simp [clientOps])
      obtain ⟨hi1, hc1⟩ := cinv_setOp hk hg hi hin h1
      obtain ⟨ha, hi2, hc2⟩ := compressedRun_aux p hk dims hg fuel h _ t1 t' outs hi1
        (fun o ho => hr o (by simp [clientOps, ho])) hrun
      simp only [List.append_assoc, List.cons_append, List.nil_append] at hi2 hc2
      refine ⟨by simpa [clientOps, answers] using ha, by simpa [clientOps] using hi2, ?_⟩
      intro hv hcount
      simp only [clientOps] at hv ⊢
      apply hc2 hv
      rw [hc1, distinct_set past c v (fun q hq => hv q (by rw [stores_append]; simp [hq])), hcount]
  | .client (.get c) :: h, past, t, t', outs, hi, hr, hrun => by
    simp only [CTable.run] at hrun
    split at hrun
    · simp at hrun
    · rename_i x t1 h1
      have hin : InRange dims c := hr (.get c) (by simp [clientOps])
      obtain ⟨hx, hi1, hc1⟩ := cinv_get hk hi hin h1
      split at hrun
      · simp at hrun
      · rename_i xs t2 h2
        simp only [Option.some.injEq, Prod.mk.injEq] at hrun
        obtain ⟨rfl, rfl⟩ := hrun
        obtain ⟨ha, hi2, hc2⟩ := compressedRun_aux p hk dims hg fuel h _ t1 t2 xs hi1
          (fun o ho => hr o (by simp [clientOps, ho])) h2
        simp only [List.append_assoc, List.cons_append, List.nil_append] at hi2 hc2
        refine ⟨by simp [clientOps, answers, ha, hx], by simpa [clientOps] using hi2, ?_⟩
        intro hv hcount
        simp only [clientOps] at hv ⊢
        apply hc2 hv
        rw [hc1, distinct_get, hcount]
  | .compress i :: h, past, t, t', outs, hi, hr, hrun => by
    simp only [CTable.run] at hrun
    split at hrun
    · simp at hrun
    · rename_i t1 h1
      obtain ⟨hi1, hc1⟩ := cinv_compressBlock hk hi h1
      obtain ⟨ha, hi2, hc2⟩ := compressedRun_aux p hk dims hg fuel h _ t1 t' outs hi1 hr hrun
      exact ⟨ha, hi2, fun hv hcount => hc2 hv (hc1.trans hcount)⟩
  | .collect :: h, past, t, t', outs, hi, hr, hrun => by
    simp only [CTable.run] at hrun
    split at hrun
    · simp at hrun
    · rename_i t1 h1
      obtain ⟨hi1, hc1⟩ := cinv_gc hk hi h1
      obtain ⟨ha, hi2, hc2⟩ := compressedRun_aux p hk dims hg fuel h _ t1 t' outs hi1 hr hrun
      exact ⟨ha, hi2, fun hv hcount => hc2 hv (hc1.trans hcount)⟩

/-- **C02.** For every lossless codec, every pair of memory triggers, every block size and every vector
of positive dimension sizes: whenever a history of in-range stores and reads, interleaved with any
compressions and collections, runs to completion on the compressed table, its answers are the answers
the array table gives for the client part of the history, and the two calculated-cell counts agree. -/
theorem compressed_refines_array (codec : Codec β) (hk : Lossless codec) (callGC stopGC : Int → Bool)
    (blockKB fuel : Nat) (dims : List Nat) (g : Geometry) (hd : ∀ d ∈ dims, 0 < d)
    (hg : buildGeometry blockKB dims = some g)
    (h : List COp) (hr : ∀ o ∈ clientOps h, InRange dims o.coord)
    (hv : ∀ q ∈ stores (clientOps h), q.2 ≠ -1)
    (outs : List Int) (t' : CTable β)
    (hrun : (CTable.new ⟨g, codec, callGC, stopGC⟩).run ⟨g, codec, callGC, stopGC⟩ fuel h
      = some (outs, t')) :
    ∃ a, (ArrayTable.new (dims.map (· + 1))).run (clientOps h) = some (outs, a) ∧
      t'.count = a.count := by
  obtain ⟨g', hg', ok⟩ := buildGeometry_ok blockKB dims hd
  rw [hg] at hg'
  simp only [Option.some.injEq] at hg'
  subst hg'
  obtain ⟨ha, _, hc⟩ := compressedRun_aux ⟨g, codec, callGC, stopGC⟩ hk dims ok fuel h [] _ t' outs
    (cinv_new ok) hr hrun
  obtain ⟨a, h1, _, h3⟩ := array_table_correct dims (clientOps h) hr
  refine ⟨a, by rw [h1, ha], ?_⟩
  rw [h3 hv]
  exact hc hv rfl

theorem compressedRun_total_aux (p : Params β) (hk : Lossless p.codec) (hs : AlwaysShrinks p)
    (dims : List Nat) (hg : GeomOK dims p.geom) (fuel : Nat) (hf : prod p.geom.dividers < fuel) :
    ∀ (ops : List Op) (past : List Op) (t : CTable β), CInv p dims past t →
    (∀ o ∈ ops, InRange dims o.coord) →
    ∃ r, t.run p fuel (ops.map .client) = some r
  | [], _, _, _, _ => ⟨_, rfl⟩
  | .set c v :: ops, past, t, hi, hr => by
    have hc : InRange dims c := hr (.set c v) (by simp)
    obtain ⟨t1, h1⟩ := set_terminates hk hs v hg hi hc hf
    obtain ⟨hi1, _⟩ := cinv_setOp hk hg hi hc h1
    obtain ⟨r, h2⟩ := compressedRun_total_aux p hk hs dims hg fuel hf ops _ t1 hi1
      (fun o ho => hr o (by simp [ho]))
    exact ⟨r, by simp [CTable.run, h1, h2]⟩
  | .get c :: ops, past, t, hi, hr => by
    have hc : InRange dims c := hr (.get c) (by simp)
    obtain ⟨x, t1, h1⟩ := get_terminates hk hs hg hi hc hf
    obtain ⟨_, hi1, _⟩ := cinv_get hk hi hc h1
    obtain ⟨⟨xs, t2⟩, h2⟩ := compressedRun_total_aux p hk hs dims hg fuel hf ops _ t1 hi1
      (fun o ho => hr o (by simp [ho]))
    exact ⟨(x :: xs, t2), by simp [CTable.run, h1, h2]⟩

/-- **C02/C05, completion.** If the codec makes every block smaller, every in-range history of stores and
reads completes on the compressed table (each collection needs at most one iteration per block plus
one) and answers exactly like the specification. -/
theorem compressed_total_of_shrinking (codec : Codec β) (hk : Lossless codec)
    (callGC stopGC : Int → Bool) (blockKB : Nat) (dims : List Nat) (g : Geometry)
    (hd : ∀ d ∈ dims, 0 < d) (hg : buildGeometry blockKB dims = some g)
    (hs : ∀ cells : List Int, cells.length = g.blockElts →
      codec.encLen cells + 5 < g.blockElts * 4)
    (ops : List Op) (hr : ∀ o ∈ ops, InRange dims o.coord) :
    ∃ t', (CTable.new ⟨g, codec, callGC, stopGC⟩).run ⟨g, codec, callGC, stopGC⟩
      (prod g.dividers + 1) (ops.map .client) = some (answers [] ops, t') := by
  obtain ⟨g', hg', ok⟩ := buildGeometry_ok blockKB dims hd
  rw [hg] at hg'
  simp only [Option.some.injEq] at hg'
  subst hg'
  obtain ⟨⟨outs, t'⟩, h1⟩ := compressedRun_total_aux ⟨g, codec, callGC, stopGC⟩ hk hs dims ok
    (prod g.dividers + 1) (by simp) ops [] _ (cinv_new ok) hr
  have hcl : clientOps (ops.map COp.client) = ops := by
    clear h1 hr
    induction ops with
    | nil => rfl
    | cons o ops ih => simp [clientOps, ih]
  obtain ⟨ha, _, _⟩ := compressedRun_aux ⟨g, codec, callGC, stopGC⟩ hk dims ok _ _ [] _ t' outs
    (cinv_new ok) (by rw [hcl]; exact hr) h1
  exact ⟨t', by rw [h1, ha, hcl]⟩

/-- A toy lossless codec used in the concrete cases: it stores the cells and charges one byte. -/
def toyCodec : Codec (List Int) := ⟨id, fun _ => 1, id⟩

/-- A lossless codec that never makes anything smaller. -/
def rawCodec : Codec (List Int) := ⟨id, fun z => z.length * 4, id⟩

/-- A history with evictions that meets the hypotheses of C02: two blocks, always collecting. -/
example : Lossless toyCodec ∧
    ((CTable.new ⟨⟨[2, 2], [2, 2], 4⟩, toyCodec, fun _ => true, fun _ => false⟩).run
      ⟨⟨[2, 2], [2, 2], 4⟩, toyCodec, fun _ => true, fun _ => false⟩ 5
      [.client (.set [0, 0] 5), .client (.set [3, 3] 8), .compress 1, .client (.get [0, 0]),
       .client (.set [0, 0] 6), .collect, .client (.get [3, 3]), .client (.get [0, 0]),
       .client (.get [2, 0])]).map (·.1) = some [5, 8, 6, -1] := by
  refine ⟨fun _ => rfl, by decide⟩

/-! ## C04 -/

/-- Bytes of data actually held by the blocks. -/
def dataHeld (k : Codec β) (t : CTable β) : Int :=
  (t.blocks.map (fun b => ((b.content.dataBytes k : Nat) : Int))).sum

/-- Bytes obtained from the allocator for the blocks. -/
def allocated (p : Params β) (t : CTable β) : Nat :=
  (t.blocks.map (fun b => b.content.allocBytes p)).sum

theorem dataHeld_eq_heldBytes {p : Params β} {t : CTable β} (hw : WF p t) :
    dataHeld p.codec t = heldBytes t := by
  unfold dataHeld heldBytes
  congr 1
  apply List.map_congr_left
  intro b hb
  obtain ⟨i, hi, rfl⟩ := List.getElem_of_mem hb
  have h := hw.blocks i _ (List.getElem?_eq_getElem hi)
  cases hc : t.blocks[i].content with
  | absent => simp only [WFb, hc] at h; simp [Content.dataBytes, h]
  | plain cs =>
    simp only [WFb, hc] at h
    simp [Content.dataBytes, h.1, h.2, baseLengthIn]
  | packed z =>
    simp only [WFb, hc] at h
    obtain ⟨x, rfl, _, hsz⟩ := h
    simp [Content.dataBytes, hsz, Codec.encLen]

theorem wf_run (p : Params β) (hk : Lossless p.codec) (fuel : Nat) : ∀ (h : List COp)
    (t t' : CTable β) (outs : List Int), WF p t → t.run p fuel h = some (outs, t') → WF p t'
  | [], t, t', outs, hw, hrun => by
    simp only [CTable.run, Option.some.injEq, Prod.mk.injEq] at hrun
    exact hrun.2 ▸ hw
  | .client (.set c v) :: h, t, t', outs, hw, hrun => by
    simp only [CTable.run] at hrun
    split at hrun
    · simp at hrun
    · rename_i t1 h1
      exact wf_run p hk fuel h t1 t' outs (wf_setOp hk hw h1) hrun
  | .client (.get c) :: h, t, t', outs, hw, hrun => by
    simp only [CTable.run] at hrun
    split at hrun
    · simp at hrun
    · rename_i x t1 h1
      split at hrun
      · simp at hrun
      · rename_i xs t2 h2
        simp only [Option.some.injEq, Prod.mk.injEq] at hrun
        obtain ⟨rfl, rfl⟩ := hrun
        exact wf_run p hk fuel h t1 t2 xs (wf_get hk hw h1) h2
  | .compress i :: h, t, t', outs, hw, hrun => by
    simp only [CTable.run] at hrun
    split at hrun
    · simp at hrun
    · rename_i t1 h1
      exact wf_run p hk fuel h t1 t' outs (wf_compressBlock hw h1) hrun
  | .collect :: h, t, t', outs, hw, hrun => by
    simp only [CTable.run] at hrun
    split at hrun
    · simp at hrun
    · rename_i t1 h1
      exact wf_run p hk fuel h t1 t' outs (wf_gc hw h1) hrun

/-- **C04, partial.** In every reachable state of the compressed table the memory figure it keeps is the
number of bytes of block data held plus five bytes per decompression performed so far.  Missing from
the full claim: equality, which is false (`memory_accounting_wrong`); it holds exactly as long as
nothing was decompressed. -/
theorem memory_accounting_partial (p : Params β) (hk : Lossless p.codec) (fuel : Nat) (h : List COp)
    (outs : List Int) (t : CTable β) (hrun : (CTable.new p).run p fuel h = some (outs, t)) :
    t.mem = dataHeld p.codec t + 5 * t.decompressions ∧
    (t.mem = dataHeld p.codec t ↔ t.decompressions = 0) := by
  have hw := wf_run p hk fuel h _ t outs (wf_new p) hrun
  have := hw.acct
  rw [← dataHeld_eq_heldBytes hw] at this
  refine ⟨this, ?_⟩
  constructor <;> intro _ <;> omega

/-- **C04 is false.** A single compress/read cycle leaves the memory figure five bytes too high. -/
theorem memory_accounting_wrong :
    ∃ (p : Params (List Int)) (h : List COp) (outs : List Int) (t : CTable (List Int)),
      Lossless p.codec ∧ (CTable.new p).run p 3 h = some (outs, t) ∧
      t.mem ≠ dataHeld p.codec t := by
  refine ⟨⟨⟨[1], [4], 4⟩, toyCodec, fun _ => false, fun _ => true⟩,
    [.client (.set [0] 7), .compress 0, .client (.get [0])], [7], _, fun _ => rfl, rfl, by decide⟩

/-- Number of blocks in existence. -/
def createdBlocks (t : CTable β) : Nat :=
  (t.blocks.filter (fun b => match b.content with | .absent => false | _ => true)).length

/-- Memory given back by compression: none.  Whatever the state, the bytes obtained from the allocator
are at least the uncompressed size of every block ever created, compressed or not, so the memory limit
cannot be honoured by compressing; and each successful compression of a block raises the figure. -/
theorem compression_frees_nothing (p : Params β) (t : CTable β) :
    baseLengthIn p * createdBlocks t ≤ allocated p t ∧
    ∀ i, allocated p t ≤ allocated p (compressCreated p t i) := by
  constructor
  · unfold allocated createdBlocks
    induction t.blocks with
    | nil => simp
    | cons b bs ih =>
      have hb : b.content = .absent ∨ (b.content ≠ .absent ∧
          baseLengthIn p ≤ b.content.allocBytes p) := by
        cases b.content <;> simp [Content.allocBytes]
        omega
      rcases hb with hb | ⟨hb, hle⟩
      · simp only [List.filter_cons, hb, List.map_cons, List.sum_cons]
        simp only [Bool.false_eq_true, if_false]
        omega
      · have : (match b.content with | .absent => false | _ => true) = true := by
          cases hc : b.content <;> simp_all
        simp only [List.filter_cons, List.map_cons, List.sum_cons, if_true, List.length_cons,
          Nat.mul_add, Nat.mul_one]
        omega
  · intro i
    unfold compressCreated
    split
    · rename_i cells sz hh hb
      simp only
      split
      · exact Nat.le_refl _
      · unfold allocated
        simp only [List.map_set]
        have := sum_set_nat (t.blocks.map (fun b => b.content.allocBytes p)) i (baseLengthIn p)
          (baseLengthIn p + baseLengthIn p / 50 + propsSize) (by simp [hb, Content.allocBytes])
        simp only [Content.allocBytes] at this ⊢
        omega
    · exact Nat.le_refl _

/-! ## C05 -/

/-- **C05, partial.** If every block content gets smaller when compressed, every collection that starts
in a reachable state finishes, within one iteration per block plus one.  Missing from the full claim:
incompressible blocks, for which it is false (`gc_can_loop_forever`). -/
theorem gc_terminates_partial (p : Params β) (hk : Lossless p.codec)
    (hs : ∀ cells : List Int, cells.length = p.geom.blockElts →
      p.codec.encLen cells + 5 < p.geom.blockElts * 4)
    (fuel : Nat) (h : List COp) (outs : List Int) (t : CTable β)
    (hrun : (CTable.new p).run p fuel h = some (outs, t)) :
    ∃ t', gc p (prod p.geom.dividers + 1) t = some t' :=
  gc_terminates hs (wf_run p hk fuel h _ t outs (wf_new p) hrun) (by omega)

/-- **C05 is false.** With a lossless codec that does not shrink the blocks and a memory limit that is
reached, the very first store never returns: no number of collector iterations is enough. -/
theorem gc_can_loop_forever :
    ∃ (p : Params (List Int)), Lossless p.codec ∧
      ∀ fuel, (CTable.new p).set p fuel [0] 7 = none := by
  refine ⟨⟨⟨[1], [4], 4⟩, rawCodec, fun m => decide (16 ≤ m), fun m => decide (m ≤ 8)⟩,
    fun _ => rfl, ?_⟩
  intro fuel
  have loop : ∀ n, gcLoop ⟨⟨[1], [4], 4⟩, rawCodec, fun m => decide (16 ≤ m), fun m => decide (m ≤ 8)⟩ n
      ⟨[⟨.plain [-1, -1, -1, -1], 16, 0⟩], 16, 1, 0, 0⟩ = none := by
    intro n
    induction n with
    | zero => rfl
    | succ n ih => exact ih
  simp [CTable.set, decompressBlock, createBlock, CTable.new, gc, touch, loop, baseLengthIn,
    uncalculated, blockNum, prod, weightedSum, multipliers, multipliersFrom]

/-- C04, companion: compressing a block either leaves the table as it was or strictly lowers the memory
counter; a block is never replaced by a form that is accounted larger. -/
theorem compression_lowers_counter {β : Type} (p : Params β) (t : CTable β) (i : Nat) :
    compressCreated p t i = t ∨ (compressCreated p t i).mem < t.mem := by
  unfold compressCreated
  split
  · simp only
    split
    · exact Or.inl rfl
    · right
      simp only
      omega
  · exact Or.inl rfl

end Verif.LevMatrix
