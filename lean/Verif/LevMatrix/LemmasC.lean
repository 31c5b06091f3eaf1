import Verif.LevMatrix.Lemmas
/-! Well-formedness, accounting and termination lemmas for the compressed table. -/
set_option autoImplicit false
namespace Verif.LevMatrix
variable {β : Type}

/-- A block is well formed. -/
def WFb (p : Params β) (b : Block β) : Prop :=
  match b.content with
  | .absent => b.size = 0
  | .plain cs => cs.length = p.geom.blockElts ∧ b.size = baseLengthIn p
  | .packed z => ∃ x, z = p.codec.enc x ∧ x.length = p.geom.blockElts ∧
      b.size = p.codec.encLen x + propsSize

/-- Bytes held by the blocks. -/
def heldBytes (t : CTable β) : Int := (t.blocks.map (fun b => (b.size : Int))).sum

structure WF (p : Params β) (t : CTable β) : Prop where
  len : t.blocks.length = prod p.geom.dividers
  blocks : ∀ (i : Nat) (b : Block β), t.blocks[i]? = some b → WFb p b
  acct : t.mem = heldBytes t + 5 * t.decompressions

theorem sum_set_int : ∀ (l : List Int) (i : Nat) (a b : Int), l[i]? = some a →
    (l.set i b).sum = l.sum + b - a
  | [], _, _, _, h => by simp at h
  | x :: l, 0, a, b, h => by simp at h; subst h; simp; omega
  | x :: l, i + 1, a, b, h => by
    simp at h
    simp [sum_set_int l i a b h]; omega

theorem getElem?_lt {α : Type} {l : List α} {i : Nat} {a : α} (h : l[i]? = some a) : i < l.length := by
  rcases Nat.lt_or_ge i l.length with h' | h'
  · exact h'
  · simp [List.getElem?_eq_none h'] at h

theorem wf_set {p : Params β} {t : CTable β} (h : WF p t) {i b b'} (hb : t.blocks[i]? = some b)
    (hb' : WFb p b') {m : Int} {dc : Nat}
    (hm : m - 5 * dc - b'.size = t.mem - 5 * t.decompressions - b.size) :
    WF p { t with blocks := t.blocks.set i b', mem := m, decompressions := dc } := by
  refine ⟨by simp [h.len], ?_, ?_⟩
  · intro j c hj
    by_cases e : i = j
    · subst e
      simp [getElem?_lt hb] at hj
      subst hj; exact hb'
    · simp only [List.getElem?_set_ne e] at hj
      exact h.blocks j c hj
  · have := h.acct
    unfold heldBytes at *
    simp only [List.map_set]
    rw [sum_set_int _ i b.size b'.size (by simp [hb])]
    omega

theorem wf_touch {p : Params β} {t : CTable β} (h : WF p t) (i : Nat) : WF p (touch t i) := by
  unfold touch
  refine ⟨by simp [h.len], ?_, ?_⟩
  · intro j c hj
    simp only [List.getElem?_modify] at hj
    cases hb : t.blocks[j]? with
    | none => simp [hb] at hj
    | some b =>
      have := h.blocks j b hb
      rw [hb] at hj
      simp only [Option.map_eq_map, Option.map_some, Option.some.injEq] at hj
      subst hj
      split <;> exact this
  · have := h.acct
    unfold heldBytes at *
    simp only
    rw [map_modify_id (fun b : Block β => (b.size : Int))
      (fun b => { b with hits := t.accesses }) (fun _ => rfl)]
    exact this

theorem wf_compressCreated {p : Params β} {t : CTable β} (h : WF p t) (i : Nat) :
    WF p (compressCreated p t i) := by
  unfold compressCreated
  split
  · rename_i cells sz hh hb
    simp only
    split
    · exact h
    · have hw := h.blocks i _ hb
      apply wf_set h hb
      · exact ⟨cells, rfl, hw.1, rfl⟩
      · simp only; omega
  · exact h

theorem wf_forcedGC {p : Params β} {t : CTable β} (h : WF p t) : WF p (forcedGC p t).1 := by
  unfold forcedGC
  split
  · exact h
  · exact wf_compressCreated h _

theorem wf_gcLoop {p : Params β} : ∀ fuel (t t' : CTable β), gcLoop p fuel t = some t' →
    WF p t → WF p t'
  | 0, _, _, h, _ => by simp [gcLoop] at h
  | fuel + 1, t, t', h, hw => by
    rw [gcLoop] at h
    simp only at h
    split at h
    · exact wf_gcLoop fuel _ _ h (wf_forcedGC hw)
    · simp only [Option.some.injEq] at h
      subst h
      exact wf_forcedGC hw

theorem wf_gc {p : Params β} {fuel} {t t' : CTable β} (hw : WF p t) (h : gc p fuel t = some t') :
    WF p t' := by
  unfold gc at h
  split at h
  · exact wf_gcLoop _ _ _ h hw
  · simp at h; subst h; exact hw

theorem wf_createBlock {p : Params β} {fuel} {t t' : CTable β} {i} (hw : WF p t)
    (h : createBlock p fuel t i = some t') : WF p t' := by
  unfold createBlock at h
  split at h
  · simp at h
  · rename_i b hb
    split at h
    · rename_i hc
      simp only at h
      refine wf_gc (wf_touch ?_ i) h
      have hs := hw.blocks i b hb
      simp only [WFb, hc] at hs
      exact wf_set hw hb (by simp [WFb]) (by simp only; omega)
    · simp at h; subst h; exact hw

theorem wf_compressBlock {p : Params β} {fuel} {t t' : CTable β} {i} (hw : WF p t)
    (h : compressBlock p fuel t i = some t') : WF p t' := by
  unfold compressBlock at h
  split at h
  · simp at h
  · rename_i t1 h1
    simp at h; subst h
    exact wf_compressCreated (wf_createBlock hw h1) i

theorem wf_decompressBlock {p : Params β} (hk : Lossless p.codec) {fuel} {t t' : CTable β} {i d}
    (hw : WF p t) (h : decompressBlock p fuel t i = some (t', d)) : WF p t' := by
  unfold decompressBlock at h
  split at h
  · simp at h
  · rename_i t1 h1
    have hw1 := wf_createBlock hw h1
    split at h
    · simp at h
    · rename_i b hb
      split at h
      · rename_i z hz
        simp only [Option.some.injEq, Prod.mk.injEq] at h
        obtain ⟨h, _⟩ := h
        subst h
        apply wf_touch
        have hs := hw1.blocks i b hb
        simp only [WFb, hz] at hs
        obtain ⟨x, rfl, hx, hsz⟩ := hs
        apply wf_set hw1 hb
        · exact ⟨by rw [hk]; exact hx, rfl⟩
        · simp only [propsSize] at *
          omega
      · simp only [Option.some.injEq, Prod.mk.injEq] at h
        obtain ⟨h, _⟩ := h
        subst h
        exact wf_touch hw1 i

theorem wf_poke {p : Params β} {t : CTable β} (h : WF p t) (i off : Nat) (v : Int) :
    WF p (poke t i off v) := by
  unfold poke
  refine ⟨by simp [h.len], ?_, ?_⟩
  · intro j c hj
    simp only [List.getElem?_modify] at hj
    cases hb : t.blocks[j]? with
    | none => simp [hb] at hj
    | some b =>
      have := h.blocks j b hb
      rw [hb] at hj
      simp only [Option.map_eq_map, Option.map_some, Option.some.injEq] at hj
      subst hj
      split
      · unfold pokeBlock
        cases hc : b.content with
        | plain cs =>
          simp only [WFb, hc] at this ⊢
          simpa using this
        | absent => exact this
        | packed z => exact this
      · exact this
  · have := h.acct
    unfold heldBytes at *
    simp only
    rw [map_modify_id (fun b : Block β => (b.size : Int)) (pokeBlock off v)
      (fun b => by unfold pokeBlock; cases hc : b.content <;> simp)]
    exact this

theorem wf_count {p : Params β} {t : CTable β} (h : WF p t) (n : Nat) :
    WF p { t with count := n } := ⟨h.len, h.blocks, h.acct⟩

theorem wf_get {p : Params β} (hk : Lossless p.codec) {fuel} {t t' : CTable β} {c x}
    (hw : WF p t) (h : t.get p fuel c = some (x, t')) : WF p t' := by
  unfold CTable.get at h
  split at h
  · simp at h
  · rename_i t1 d h1
    have hw1 := wf_decompressBlock hk hw h1
    split at h
    · simp at h
    · split at h
      · split at h
        · simp at h
        · rename_i t2 h2
          simp at h; obtain ⟨_, rfl⟩ := h
          exact wf_gc hw1 h2
      · simp at h; obtain ⟨_, rfl⟩ := h
        exact hw1

theorem wf_setOp {p : Params β} (hk : Lossless p.codec) {fuel} {t t' : CTable β} {c v}
    (hw : WF p t) (h : t.set p fuel c v = some t') : WF p t' := by
  unfold CTable.set at h
  split at h
  · simp at h
  · rename_i t1 d h1
    have hw1 := wf_decompressBlock hk hw h1
    split at h
    · simp at h
    · simp only at h
      split at h
      · exact wf_gc (wf_poke (wf_count hw1 _) _ _ _) h
      · simp at h; subst h
        exact wf_poke (wf_count hw1 _) _ _ _

theorem wf_new (p : Params β) : WF p (CTable.new p) := by
  refine ⟨by simp [CTable.new], ?_, ?_⟩
  · intro i b hb
    have := List.mem_of_getElem? hb
    simp [CTable.new] at this
    rw [this.2]; rfl
  · simp [heldBytes, CTable.new]

/-! ### termination of the collector -/

/-- Every block content is worth compressing. -/
def AlwaysShrinks (p : Params β) : Prop :=
  ∀ cs : List Int, cs.length = p.geom.blockElts → p.codec.encLen cs + propsSize < baseLengthIn p

/-- 1 for an uncompressed block. -/
def isPlain (b : Block β) : Nat :=
  match b.content with
  | .plain _ => 1
  | _ => 0

/-- Number of uncompressed blocks. -/
def plainCount (t : CTable β) : Nat := (t.blocks.map isPlain).sum

theorem victim_spec : ∀ (bs : List (Block β)) (i : Nat) (best : Option (Nat × Nat)) (r : Nat × Nat),
    victim bs i best = some r →
    best = some r ∨ ∃ k b cs, r.2 = i + k ∧ bs[k]? = some b ∧ b.content = .plain cs
  | [], i, best, r, h => Or.inl (by simpa [victim] using h)
  | b :: bs, i, best, r, h => by
    have step : ∀ best', victim bs (i + 1) best' = some r →
        (best' = best ∨ (best' = some (b.hits, i) ∧ ∃ cs, b.content = .plain cs)) →
        best = some r ∨ ∃ k b' cs, r.2 = i + k ∧ (b :: bs)[k]? = some b' ∧ b'.content = .plain cs := by
      intro best' h' hb
      rcases victim_spec bs (i + 1) best' r h' with h1 | ⟨k, b', cs, h1, h2, h3⟩
      · rcases hb with hb | ⟨hb, cs, hc⟩
        · exact Or.inl (hb ▸ h1)
        · rw [h1] at hb
          simp only [Option.some.injEq] at hb
          exact Or.inr ⟨0, b, cs, by rw [hb]; rfl, rfl, hc⟩
      · exact Or.inr ⟨k + 1, b', cs, by omega, by simpa using h2, h3⟩
    cases hc : b.content with
    | absent => simp only [victim, hc] at h; exact step _ h (Or.inl rfl)
    | packed z => simp only [victim, hc] at h; exact step _ h (Or.inl rfl)
    | plain cs =>
      cases best with
      | none =>
        simp only [victim, hc] at h
        exact step _ h (Or.inr ⟨rfl, cs, hc⟩)
      | some q =>
        obtain ⟨hh, j⟩ := q
        simp only [victim, hc] at h
        apply step _ h
        by_cases hlt : b.hits < hh
        · rw [if_pos hlt]; exact Or.inr ⟨rfl, cs, hc⟩
        · rw [if_neg hlt]; exact Or.inl rfl

theorem sum_set_nat : ∀ (l : List Nat) (i : Nat) (a b : Nat), l[i]? = some a →
    (l.set i b).sum + a = l.sum + b
  | [], _, _, _, h => by simp at h
  | x :: l, 0, a, b, h => by simp at h; subst h; simp; omega
  | x :: l, i + 1, a, b, h => by
    simp at h
    have := sum_set_nat l i a b h
    simp; omega

theorem plainCount_forcedGC {p : Params β} (hs : AlwaysShrinks p) {t : CTable β} (hw : WF p t)
    (hf : (forcedGC p t).2 = true) : plainCount (forcedGC p t).1 + 1 = plainCount t := by
  unfold forcedGC at hf ⊢
  cases hv : victim t.blocks 0 none with
  | none => simp [hv] at hf
  | some r =>
    obtain ⟨hh, i⟩ := r
    simp only
    rcases victim_spec _ _ _ _ hv with h | ⟨k, b, cs, h1, h2, h3⟩
    · simp at h
    · simp only [Nat.zero_add] at h1
      subst h1
      obtain ⟨c, sz, hit⟩ := b
      simp only at h3
      subst h3
      have hwb := hw.blocks _ _ h2
      simp only [WFb] at hwb
      unfold compressCreated
      rw [h2]
      simp only
      have := hs cs hwb.1
      rw [if_neg (by omega)]
      unfold plainCount
      simp only [List.map_set]
      have := sum_set_nat (t.blocks.map isPlain) i 1 0 (by simp [h2, isPlain])
      simp only [isPlain] at this ⊢
      omega

theorem gcLoop_terminates {p : Params β} (hs : AlwaysShrinks p) : ∀ fuel (t : CTable β), WF p t →
    plainCount t < fuel → ∃ t', gcLoop p fuel t = some t'
  | 0, _, _, h => by omega
  | fuel + 1, t, hw, h => by
    rw [gcLoop]
    simp only
    split
    · rename_i hc
      simp only [Bool.and_eq_true] at hc
      have := plainCount_forcedGC hs hw hc.1
      exact gcLoop_terminates hs fuel _ (wf_forcedGC hw) (by omega)
    · exact ⟨_, rfl⟩

theorem sum_le_length : ∀ (l : List (Block β)), (l.map isPlain).sum ≤ l.length
  | [] => by simp
  | b :: l => by
    have := sum_le_length l
    have : isPlain b ≤ 1 := by unfold isPlain; split <;> omega
    simp; omega

theorem gc_terminates {p : Params β} (hs : AlwaysShrinks p) {fuel} {t : CTable β} (hw : WF p t)
    (hf : prod p.geom.dividers < fuel) : ∃ t', gc p fuel t = some t' := by
  unfold gc
  split
  · apply gcLoop_terminates hs fuel t hw
    have := sum_le_length t.blocks
    unfold plainCount
    have := hw.len
    omega
  · exact ⟨t, rfl⟩

theorem createBlock_terminates {p : Params β} (hs : AlwaysShrinks p) {fuel} {t : CTable β}
    (hw : WF p t) (hf : prod p.geom.dividers < fuel) {i} (hi : i < prod p.geom.dividers) :
    ∃ t', createBlock p fuel t i = some t' := by
  unfold createBlock
  have hi' : i < t.blocks.length := by rw [hw.len]; exact hi
  rw [List.getElem?_eq_getElem hi']
  simp only
  have hb : t.blocks[i]? = some t.blocks[i] := List.getElem?_eq_getElem hi'
  split
  · rename_i hc
    apply gc_terminates hs ?_ hf
    apply wf_touch
    have hsz := hw.blocks i _ hb
    simp only [WFb, hc] at hsz
    exact wf_set hw hb (by simp [WFb]) (by simp only; omega)
  · exact ⟨t, rfl⟩

theorem decompressBlock_terminates {p : Params β} (hs : AlwaysShrinks p) {fuel} {t : CTable β}
    (hw : WF p t) (hf : prod p.geom.dividers < fuel) {i} (hi : i < prod p.geom.dividers) :
    ∃ t' d, decompressBlock p fuel t i = some (t', d) := by
  unfold decompressBlock
  obtain ⟨t1, h1⟩ := createBlock_terminates hs hw hf hi
  rw [h1]
  have hw1 := wf_createBlock hw h1
  simp only
  have hi' : i < t1.blocks.length := by rw [hw1.len]; exact hi
  rw [List.getElem?_eq_getElem hi']
  simp only
  split
  · exact ⟨_, _, rfl⟩
  · exact ⟨_, _, rfl⟩

/-! ### simulation -/

/-- The compressed table agrees with the history. -/
structure CInv (p : Params β) (dims : List Nat) (past : List Op) (t : CTable β) : Prop where
  wf : WF p t
  reads : ∀ c, InRange dims c →
    absGet (absCells p t) (blockNum p.geom c) (blockOffset p.geom c) = some (readAfter past c)

theorem cinv_new {p : Params β} {dims} (hg : GeomOK dims p.geom) : CInv p dims [] (CTable.new p) := by
  refine ⟨wf_new p, ?_⟩
  intro c hc
  have h1 := blockNum_lt hg hc
  have h2 := blockOffset_lt hg hc
  simp [absGet, absCells, CTable.new, Content.cells, h1, h2, readAfter_nil,
    uncalculated]

theorem cinv_gc {p : Params β} (hk : Lossless p.codec) {dims past fuel} {t t' : CTable β}
    (h : CInv p dims past t) (hgc : gc p fuel t = some t') :
    CInv p dims past t' ∧ t'.count = t.count := by
  obtain ⟨h1, h2⟩ := abs_gc p hk hgc
  exact ⟨⟨wf_gc h.wf hgc, by rw [h1]; exact h.reads⟩, h2⟩

theorem cinv_compressBlock {p : Params β} (hk : Lossless p.codec) {dims past fuel} {t t' : CTable β} {i}
    (h : CInv p dims past t) (hc : compressBlock p fuel t i = some t') :
    CInv p dims past t' ∧ t'.count = t.count := by
  refine ⟨⟨wf_compressBlock h.wf hc, ?_⟩, ?_⟩ <;>
  · unfold compressBlock at hc
    split at hc
    · simp at hc
    · rename_i t1 h1
      obtain ⟨ha, hb⟩ := abs_createBlock p hk h1
      simp at hc; subst hc
      first
        | rw [abs_compressCreated p hk, ha]; exact h.reads
        | rw [count_compressCreated, hb]

theorem cinv_decompress {p : Params β} (hk : Lossless p.codec) {dims past fuel} {t t' : CTable β} {i d}
    (h : CInv p dims past t) (hd : decompressBlock p fuel t i = some (t', d)) :
    CInv p dims past t' ∧ t'.count = t.count ∧
      ∃ b cs, t'.blocks[i]? = some b ∧ b.content = .plain cs := by
  obtain ⟨h1, h2, h3⟩ := abs_decompressBlock p hk hd
  exact ⟨⟨wf_decompressBlock hk h.wf hd, by rw [h1]; exact h.reads⟩, h2, h3⟩

theorem cinv_get {p : Params β} (hk : Lossless p.codec) {dims past fuel} {t t' : CTable β} {c x}
    (h : CInv p dims past t) (hc : InRange dims c) (hg : t.get p fuel c = some (x, t')) :
    x = readAfter past c ∧ CInv p dims (past ++ [.get c]) t' ∧ t'.count = t.count := by
  have lift : ∀ s : CTable β, CInv p dims past s → CInv p dims (past ++ [.get c]) s := fun s hs =>
    ⟨hs.wf, fun c' hc' => by rw [readAfter_get]; exact hs.reads c' hc'⟩
  unfold CTable.get at hg
  split at hg
  · simp at hg
  · rename_i t1 d h1
    obtain ⟨hi, hcnt, b, cs, hb, hcs⟩ := cinv_decompress hk h h1
    have hpk := peek_eq p t1 (off := blockOffset p.geom c) hb hcs
    rw [hi.reads c hc] at hpk
    rw [hpk] at hg
    simp only at hg
    split at hg
    · split at hg
      · simp at hg
      · rename_i t2 h2
        simp at hg
        obtain ⟨rfl, rfl⟩ := hg
        obtain ⟨hi2, hc2⟩ := cinv_gc hk hi h2
        exact ⟨rfl, lift _ hi2, hc2.trans hcnt⟩
    · simp at hg
      obtain ⟨rfl, rfl⟩ := hg
      exact ⟨rfl, lift _ hi, hcnt⟩

theorem cinv_poke {p : Params β} {dims past} {t : CTable β} {c v n b cs}
    (hg : GeomOK dims p.geom) (h : CInv p dims past t) (hc : InRange dims c)
    (hb : t.blocks[blockNum p.geom c]? = some b) (hcs : b.content = .plain cs) :
    CInv p dims (past ++ [.set c v])
      (poke { t with count := n } (blockNum p.geom c) (blockOffset p.geom c) v) := by
  refine ⟨wf_poke (wf_count h.wf n) _ _ _, ?_⟩
  intro c' hc'
  rw [abs_poke p { t with count := n } _ v hb hcs, readAfter_set]
  have hr' := h.reads c' hc'
  have habs : absCells p { t with count := n } = absCells p t := rfl
  rw [habs]
  have hlen : (absCells p t).length = prod p.geom.dividers := by simp [absCells, h.wf.len]
  have hbn := blockNum_lt hg hc
  have hbo := blockOffset_lt hg hc
  have hcsl : cs.length = p.geom.blockElts := by
    have := h.wf.blocks _ _ hb
    simp only [WFb, hcs] at this
    exact this.1
  by_cases e1 : blockNum p.geom c = blockNum p.geom c'
  · rw [← e1]
    have hself : (absCells p t)[blockNum p.geom c]? = some cs := by
      simp [absCells, hb, hcs, Content.cells]
    simp only [absGet, List.getElem?_set_self (by rw [hlen]; exact hbn :
      blockNum p.geom c < (absCells p t).length)]
    by_cases e2 : blockOffset p.geom c = blockOffset p.geom c'
    · have := address_inj hg hc hc' e1 e2
      subst this
      rw [if_pos rfl, List.getElem?_set_self (by rw [hcsl]; exact hbo)]
    · have hne : c ≠ c' := fun e => e2 (by rw [e])
      rw [if_neg hne, List.getElem?_set_ne e2]
      rw [← e1] at hr'
      simpa [absGet, hself] using hr'
  · have hne : c ≠ c' := fun e => e1 (by rw [e])
    rw [if_neg hne]
    simp only [absGet, List.getElem?_set_ne e1]
    exact hr'

theorem cinv_setOp {p : Params β} (hk : Lossless p.codec) {dims past fuel} {t t' : CTable β} {c v}
    (hg : GeomOK dims p.geom) (h : CInv p dims past t) (hc : InRange dims c)
    (hs : t.set p fuel c v = some t') :
    CInv p dims (past ++ [.set c v]) t' ∧
      t'.count = if readAfter past c = -1 then t.count + 1 else t.count := by
  unfold CTable.set at hs
  split at hs
  · simp at hs
  · rename_i t1 d h1
    obtain ⟨hi, hcnt, b, cs, hb, hcs⟩ := cinv_decompress hk h h1
    have hpk := peek_eq p t1 (off := blockOffset p.geom c) hb hcs
    rw [hi.reads c hc] at hpk
    rw [hpk] at hs
    simp only at hs
    have hp := cinv_poke (v := v)
      (n := if readAfter past c = uncalculated then t1.count + 1 else t1.count) hg hi hc hb hcs
    split at hs
    · obtain ⟨hi2, hc2⟩ := cinv_gc hk hp hs
      refine ⟨hi2, hc2.trans ?_⟩
      simp [poke, hcnt, uncalculated]
    · simp at hs
      subst hs
      refine ⟨hp, ?_⟩
      simp [poke, hcnt, uncalculated]

theorem get_terminates {p : Params β} (hk : Lossless p.codec) (hs : AlwaysShrinks p)
    {dims past fuel} {t : CTable β} {c}
    (hg : GeomOK dims p.geom) (h : CInv p dims past t) (hc : InRange dims c)
    (hf : prod p.geom.dividers < fuel) : ∃ x t', t.get p fuel c = some (x, t') := by
  obtain ⟨t1, d, h1⟩ := decompressBlock_terminates hs h.wf hf (blockNum_lt hg hc)
  obtain ⟨hi, hcnt, b, cs, hb, hcs⟩ := cinv_decompress hk h h1
  have hpk := peek_eq p t1 (off := blockOffset p.geom c) hb hcs
  rw [hi.reads c hc] at hpk
  unfold CTable.get
  rw [h1]
  simp only
  rw [hpk]
  simp only
  split
  · obtain ⟨t2, h2⟩ := gc_terminates hs (fuel := fuel) hi.wf hf
    rw [h2]; exact ⟨_, _, rfl⟩
  · exact ⟨_, _, rfl⟩

theorem set_terminates {p : Params β} (hk : Lossless p.codec) (hs : AlwaysShrinks p)
    {dims past fuel} {t : CTable β} {c} (v : Int)
    (hg : GeomOK dims p.geom) (h : CInv p dims past t) (hc : InRange dims c)
    (hf : prod p.geom.dividers < fuel) : ∃ t', t.set p fuel c v = some t' := by
  obtain ⟨t1, d, h1⟩ := decompressBlock_terminates hs h.wf hf (blockNum_lt hg hc)
  obtain ⟨hi, hcnt, b, cs, hb, hcs⟩ := cinv_decompress hk h h1
  have hpk := peek_eq p t1 (off := blockOffset p.geom c) hb hcs
  rw [hi.reads c hc] at hpk
  unfold CTable.set
  rw [h1]
  simp only
  rw [hpk]
  simp only
  split
  · exact gc_terminates hs (fuel := fuel) (cinv_poke hg hi hc hb hcs).wf hf
  · exact ⟨_, rfl⟩

end Verif.LevMatrix
