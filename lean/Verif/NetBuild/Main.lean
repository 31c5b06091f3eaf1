import Verif.NetBuild.Expand
import Verif.NetBuild.Scan
/-!
# The network of a text
-/
set_option autoImplicit false
namespace Verif.NetBuild
open Verif.Net Verif.Text Verif.Split Verif.Lines

/-- The items of a sequence. -/
def Seq.items : Seq → List Item
  | .nil => []
  | .cons i s => i :: s.items

/-- The bound on the names of the inner nodes at nesting `h`, with numbers of at most `dg` digits. -/
def nameBound (dg h : Nat) : Nat := 5 + 2 * h * (1 + dg)

theorem nameBound_succ (dg h : Nat) : nameBound dg (h + 1) = nameBound dg h + (1 + dg) + (1 + dg) := by
  unfold nameBound
  rw [show 2 * (h + 1) = 2 * h + 2 by omega, Nat.add_mul]
  omega

theorem nameBound_mono {dg h k : Nat} (hk : h ≤ k) : nameBound dg h ≤ nameBound dg k := by
  unfold nameBound
  have := Nat.mul_le_mul_right (1 + dg) (Nat.mul_le_mul_left 2 hk)
  omega

theorem Good.mono {bd bd' len len' : Nat} {b : Built} {s : Nat} {P : List Parts → Prop} (h : Good bd len b s P) (h1 : bd ≤ bd')
    (h2 : len ≤ len') : Good bd' len' b s P :=
  ⟨h.wf, h.stop, h.words, h.lang, Nat.le_trans h.arcs h2, Nat.le_trans h.hi h2, h.flags, h.nStart, h.nStop,
    fun w a b => Nat.le_trans (h.names w a b) h1, h.live⟩

theorem Good.congr {bd len : Nat} {b : Built} {s : Nat} {P Q : List Parts → Prop} (h : Good bd len b s P) (h1 : ∀ ws, P ws ↔ Q ws) :
    Good bd len b s Q :=
  ⟨h.wf, h.stop, h.words, fun ws => (h.lang ws).trans (h1 ws), h.arcs, h.hi, h.flags, h.nStart, h.nStop, h.names, h.live⟩

theorem seq_den_parts (e : Enc) : ∀ (s : Seq) (u : List Parts), s.den e u ↔ ∃ parts : List (List Parts), u = parts.flatten ∧
    parts.length = s.items.length ∧ ∀ (i : Nat) (it : Item) (p : List Parts), s.items[i]? = some it → parts[i]? = some p → it.den e p
  | .nil, u => by
    constructor
    · intro h
      exact ⟨[], h, rfl, fun i it p h => by simp [Seq.items] at h⟩
    · rintro ⟨parts, rfl, hl, _⟩
      rw [List.length_eq_zero_iff.1 hl]
      rfl
  | .cons it s, u => by
    constructor
    · rintro ⟨v, w, rfl, h1, h2⟩
      obtain ⟨parts, rfl, hl, hp⟩ := (seq_den_parts e s w).1 h2
      refine ⟨v :: parts, rfl, by simp [Seq.items, hl], ?_⟩
      intro i it' p hi hpi
      cases i with
      | zero => simp [Seq.items] at hi hpi; subst hi hpi; exact h1
      | succ i => exact hp i it' p (by simpa [Seq.items] using hi) (by simpa using hpi)
    · rintro ⟨parts, rfl, hl, hp⟩
      match parts, hl with
      | v :: parts, hl =>
        refine ⟨v, parts.flatten, rfl, hp 0 it v rfl rfl, (seq_den_parts e s _).2 ⟨parts, rfl, by simpa [Seq.items] using hl, ?_⟩⟩
        intro i it' p hi hpi
        exact hp (i + 1) it' p (by simpa [Seq.items] using hi) (by simpa using hpi)

/-- What the tokens of a text are, by position. -/
theorem pars_get {e : Enc} {s : Seq} {ps : List Parts} (h : Pars e s ps) : s.items.length = ps.length ∧
    ∀ (i : Nat) (it : Item) (p : Parts), s.items[i]? = some it → ps[i]? = some p →
      (∃ w, it = .word w ∧ parseText e w = some p ∧ 123 ∉ p.value) ∨
      (∃ a g, it = .alt a ∧ p.value = 123 :: (g ++ [125]) ∧ a.Writes g ∧ g.length < maxString) := by
  induction h with
  | nil => exact ⟨rfl, fun i it p h => by simp [Seq.items] at h⟩
  | word w p s ps h1 h2 _ ih =>
    refine ⟨by simp [Seq.items, ih.1], ?_⟩
    intro i it p' hi hp
    cases i with
    | zero => simp [Seq.items] at hi hp; subst hi hp; exact Or.inl ⟨w, rfl, h1, h2⟩
    | succ i => exact ih.2 i it p' (by simpa [Seq.items] using hi) (by simpa using hp)
  | alt a g p s ps h1 h2 h3 _ ih =>
    refine ⟨by simp [Seq.items, ih.1], ?_⟩
    intro i it p' hi hp
    cases i with
    | zero => simp [Seq.items] at hi hp; subst hi hp; exact Or.inr ⟨a, g, rfl, h1, h2, h3⟩
    | succ i => exact ih.2 i it p' (by simpa [Seq.items] using hi) (by simpa using hp)

theorem item_depth : ∀ (s : Seq) (it : Item), it ∈ s.items → it.depth ≤ s.depth
  | .nil, _, h => by cases h
  | .cons i s, it, h => by
    simp only [Seq.depth]
    rcases List.mem_cons.1 h with rfl | h
    · omega
    · have := item_depth s it h; omega

theorem item_ok {e : Enc} : ∀ (s : Seq) (it : Item), s.Ok e → it ∈ s.items → it.Ok e
  | .nil, _, _, h => by cases h
  | .cons i s, it, hok, h => by
    rcases List.mem_cons.1 h with rfl | h
    · exact hok.1
    · exact item_ok s it hok.2 h

/-- The claim about a sequence. -/
def SeqP (e : Enc) (N dg : Nat) (s : Seq) : Prop :=
  ∀ (inside : Bool) (t : List Nat) (h fuel d : Nat), s.Writes inside t → s.Ok e → s ≠ .nil → s.depth ≤ h → t.length ≤ N → s.depth < fuel →
    d + s.depth < 31 → nameBound dg h < nameBuf →
    ∃ b st, create e fuel d t = some b ∧ Good (nameBound dg h) t.length b st (s.den e)

/-- The claim about alternatives. -/
def AltsP (e : Enc) (N dg : Nat) (a : Alts) : Prop :=
  ∀ (ts : List (List Nat)) (h fuel d : Nat), AltToks a ts → a.Ok e → a.depth ≤ h → a.depth < fuel → d + a.depth < 31 →
    nameBound dg h + 1 + dg < nameBuf →
    ((ts.map List.length).sum + ts.length ≤ N + 1 →
      ∃ b st, ts.foldlM (altStep (create e fuel d)) none = some (some b) ∧
        Good (nameBound dg h + 1 + dg) ((ts.map List.length).sum + ts.length - 1) b st (a.den e)) ∧
    (∀ (f : Built) (st len : Nat) (P : List Parts → Prop), Good (nameBound dg h + 1 + dg) len f st P →
      len + (ts.map List.length).sum + ts.length ≤ N →
      ∃ b, ts.foldlM (altStep (create e fuel d)) (some f) = some (some b) ∧
        Good (nameBound dg h + 1 + dg) (len + (ts.map List.length).sum + ts.length) b st (fun ws => P ws ∨ a.den e ws))

/-- The claim about the groups in a sequence. -/
def ItemsP (e : Enc) (N dg : Nat) (s : Seq) : Prop := ∀ a, Item.alt a ∈ s.items → AltsP e N dg a

theorem altToks_ne {a : Alts} {ts : List (List Nat)} (h : AltToks a ts) : ts ≠ [] := by
  cases h <;> simp

theorem altToks_pos {a : Alts} {ts : List (List Nat)} (h : AltToks a ts) : 2 ≤ (ts.map List.length).sum + ts.length := by
  cases h with
  | one s t _ h2 =>
    have := List.length_pos_iff.2 h2
    simp; omega
  | or s a t ts _ h2 _ =>
    have := List.length_pos_iff.2 h2
    simp; omega

theorem getElem?_of_mapEq {A B C : Type} {L : List A} {M : List B} {f : A → C} {g : B → C} (h : L.map f = M.map g) {i : Nat} {a : A}
    (ha : L[i]? = some a) : ∃ m, M[i]? = some m ∧ f a = g m := by
  have h1 : (L.map f)[i]? = some (f a) := by simp [ha]
  rw [h, List.getElem?_map] at h1
  match hm : M[i]?, h1 with
  | some m, h1 => exact ⟨m, rfl, by simpa using h1.symm⟩

theorem le_sum : ∀ {l : List Nat} {x : Nat}, x ∈ l → x ≤ l.sum
  | y :: l, x, h => by
    rw [List.sum_cons]
    rcases List.mem_cons.1 h with rfl | h
    · omega
    · have := le_sum h; omega

theorem seqP_of {e : Enc} {N dg : Nat} (hN : N < maxString) (hdg : ∀ k, k ≤ N → digits k ≤ dg) (hdg5 : dg ≤ 5) {s : Seq}
    (hitems : ItemsP e N dg s) : SeqP e N dg s := by
  intro inside t h fuel d hw hok hne hdep hlen hfuel hd hbuf
  obtain ⟨toks, ps, k1, k2, k3, k4⟩ := pieces_seq hw hok (by omega) t.length (Nat.le_refl _)
  obtain ⟨g1, g2⟩ := pars_get k3
  have hpos : ps.length = (ps.length - 1) + 1 := by
    have : 0 < s.items.length := by
      match s, hne with
      | .nil, h => exact absurd rfl h
      | .cons _ _, _ => simp [Seq.items]
    omega
  have hplen : ps.length ≤ t.length := by omega
  obtain ⟨st, L, hb⟩ := base_all dg (ps.length - 1) ps hpos (fun i hi => hdg i (by omega))
  generalize hB : ps.foldl Built.addTail Built.init = B at hb
  match fuel, hfuel with
  | fuel + 1, hfuel =>
  obtain ⟨r, hn⟩ := hb.wf
  have hLlen : L.length = ps.length := by simpa using congrArg List.length hb.data
  have hso := hn.stop_ok st hb.stop
  -- what the arcs stand for
  let D : Nat → List Parts → Prop := fun a vs => ∃ (i : Nat) (it : Item), L[i]? = some a ∧ s.items[i]? = some it ∧ it.den e vs
  let wgt : Nat → Nat := fun a => match B.net.data a with | some p => room p | none => 0
  have hD : ∀ (i a : Nat) (it : Item), L[i]? = some a → s.items[i]? = some it → ∀ vs, D a vs ↔ it.den e vs := by
    intro i a it h1 h2 vs
    constructor
    · rintro ⟨j, it', h3, h4, h5⟩
      have hi : i < L.length := by
        rcases Nat.lt_or_ge i L.length with h | h
        · exact h
        · rw [List.getElem?_eq_none h] at h1; cases h1
      have := (List.getElem?_inj hi hb.nodup).1 (h1.trans h3.symm)
      subst this
      rw [h2] at h4
      cases h4
      exact h5
    · intro h5; exact ⟨i, it, h1, h2, h5⟩
  have hwgt : (L.map wgt) = ps.map room := by
    have : L.map wgt = (L.map B.net.data).map (fun o => match o with | some p => room p | none => 0) := by
      rw [List.map_map]; rfl
    rw [this, hb.data, List.map_map]
    rfl
  let B' : Built := { B with flag2 := upd B.flag2 B.net.start (upd (B.flag2 B.net.start) d (!false)) }
  have hstart : ∀ w, B.net.inn w ≠ [] → w ≠ B.net.start := fun w hw => (inn_node hn hw).2
  have inv : Inv d false (nameBound dg h) t.length wgt D (s.den e) st B' B.net.start L := by
    refine ⟨hb.wf, hb.stop, hb.words, hb.chain, hb.nodup, ?_, ?_, ?_, ?_, ?_, ?_, ?_, ?_, hb.live⟩
    · intro ws
      have c1 : Sp B.net (fun a vs => if a ∈ L then D a vs else one B.net a vs) B.net.start ws st ↔ _ := chain_sp hso.1 _ hb.chain ws
      refine c1.trans ?_
      rw [seq_den_parts]
      constructor
      · rintro ⟨parts, hu, hl, hp⟩
        refine ⟨parts, hu, by omega, ?_⟩
        intro i it p hi hpi
        have hiL : i < L.length := by
          have := (List.getElem?_eq_some_iff.1 hi).1
          omega
        have hLi : L[i]? = some L[i] := List.getElem?_eq_getElem hiL
        have := hp i _ p hLi hpi
        rw [if_pos (List.getElem_mem hiL)] at this
        exact (hD i _ it hLi hi p).1 this
      · rintro ⟨parts, hu, hl, hp⟩
        refine ⟨parts, hu, by omega, ?_⟩
        intro i a p hi hpi
        rw [if_pos (List.mem_of_getElem? hi)]
        have hil : i < s.items.length := by
          have := (List.getElem?_eq_some_iff.1 hi).1
          omega
        exact (hD i a _ hi (List.getElem?_eq_getElem hil) p).2 (hp i _ p (List.getElem?_eq_getElem hil) hpi)
    · show B.net.nArcs + _ ≤ _
      rw [hwgt, hb.arcs]; exact k4
    · show B.hi + 1 + _ ≤ _
      rw [hwgt, hb.hi]; exact k4
    · intro w i hw
      show upd B.flag2 B.net.start _ w i = if w ∈ L.map B.net.dst ∧ i = d then false else upd B.flag2 B.net.start (upd (B.flag2 B.net.start) d (!false)) B.net.start i
      rw [upd_ne _ _ _ _ (hstart w hw), upd_self, hb.flags]
      by_cases hi : i = d
      · rw [hi, upd_self]
        -- every node with an incoming arc is the end of an arc of the chain
        have hm : w ∈ L.map B.net.dst := by
          obtain ⟨a, ha⟩ := List.exists_mem_of_ne_nil _ hw
          have ha' := hn.inn_ok w a ha
          have haA : a < B.net.nArcs := (hn.out_ok _ _ ha'.2).1
          have hsub : ∀ c ∈ L, c ∈ List.range B.net.nArcs := by
            intro c hc
            obtain ⟨x, hx⟩ := hb.chain.mem c hc
            exact List.mem_range.2 (hn.out_ok x c (by rw [hx]; exact List.mem_singleton.2 rfl)).1
          have haL : a ∈ L := by
            refine Classical.byContradiction fun hna => ?_
            have := (List.nodup_cons.2 ⟨hna, hb.nodup⟩).length_le_of_subset (l₂ := List.range B.net.nArcs) (by
              intro c hc
              rcases List.mem_cons.1 hc with rfl | hc
              · exact List.mem_range.2 haA
              · exact hsub c hc)
            rw [List.length_range, List.length_cons, hb.arcs] at this
            omega
          exact List.mem_map.2 ⟨a, haL, ha'.1⟩
        rw [if_pos ⟨hm, rfl⟩]
      · rw [upd_ne _ _ _ _ hi, if_neg (fun hh => hi hh.2), hb.flags]
    · show upd B.flag2 B.net.start (upd (B.flag2 B.net.start) d (!false)) B.net.start d = !false
      rw [upd_self, upd_self]
    · show B.nameLen B.net.start ≤ 5
      have := hb.nStart; omega
    · show B.nameLen st ≤ 4
      have := hb.nStop; omega
    · intro w h1 h2
      have := hb.names w h1 h2
      show B.nameLen w ≤ _
      unfold nameBound
      omega
  -- the callback
  have hA : ∀ a ∈ L, ArcOk (create e fuel (d + 1)) dg (nameBound dg h) wgt D B'.net.data a := by
    intro a ha
    obtain ⟨i, hi, hLi⟩ := List.getElem_of_mem ha
    have hLi : L[i]? = some a := by rw [List.getElem?_eq_getElem hi, hLi]
    obtain ⟨p, hp, hdp⟩ := getElem?_of_mapEq hb.data hLi
    have hit : s.items[i]? = some s.items[i] := List.getElem?_eq_getElem (by omega)
    refine ⟨p, hdp, ?_⟩
    have hmem := List.mem_of_getElem? hit
    rcases g2 i _ p hit hp with ⟨w, e1, e2, e3⟩ | ⟨al, g, e1, e2, e3, e4⟩
    · refine Or.inl ⟨e3, fun vs => ?_⟩
      rw [hD i a _ hLi hit, e1]
      simp only [Item.den, e2]
      exact ⟨fun ⟨q, hq, hv⟩ => by cases hq; exact hv, fun hv => ⟨p, rfl, hv⟩⟩
    · have hdep' := item_depth s _ hmem
      have hok' : al.Ok e := by
        have := item_ok s _ hok hmem
        rw [e1] at this
        exact this
      rw [e1] at hdep' hmem
      simp only [Item.depth] at hdep'
      obtain ⟨h', hh⟩ : ∃ h', h = h' + 1 := ⟨h - 1, by omega⟩
      subst hh
      have hbuf' := hbuf
      rw [nameBound_succ] at hbuf'
      have h123 : 123 ∈ p.value := by rw [e2]; simp
      have hroom : room p = g.length := by unfold room; rw [if_pos h123, e2]; simp
      have hwa : wgt a = g.length := by
        show (match B.net.data a with | some p => room p | none => 0) = _
        rw [show B.net.data a = some p from hdp]; exact hroom
      have hbody : cutLast (p.value.drop 1) = g := by rw [e2]; exact cutLast_group g
      have hgN : g.length ≤ N := by
        have : room p ∈ ps.map room := List.mem_map.2 ⟨p, List.mem_of_getElem? hp, rfl⟩
        have := le_sum this
        omega
      obtain ⟨ts, q1, q2, q3⟩ := pieces_alt (e := e) e3 g.length [] hok' e4 (fun _ hc => by cases hc) (by simp)
      have hpos2 := altToks_pos q2
      obtain ⟨b, st', r1, r2⟩ := (hitems al hmem ts h' fuel (d + 1) q2 hok' (by omega) (by omega) (by omega) (by omega)).1 (by omega)
      refine Or.inr ⟨h123, by omega, ts, b, st', nameBound dg h' + 1 + dg, by unfold nameBound; omega, by rw [nameBound_succ]; omega, hbuf, ?_, r1, ?_⟩
      · rw [hbody]; exact q1
      · refine (r2.mono (Nat.le_refl _) (by rw [hwa]; omega)).congr fun ws => ?_
        rw [hD i a _ hLi hit, e1]
        exact Iff.rfl
  obtain ⟨b', f1, f2⟩ := expand_loop (dg := dg) (cur := false) (d := d) (create := create e fuel (d + 1))
    (fun k hk => hdg k (by omega)) L B.net.nNodes B' B.net.start (by rw [hb.nodes, hLlen]; omega) inv hA
  refine ⟨b', st, ?_, f2⟩
  rw [create, k1]
  simp only [k2, hB]
  rw [if_pos (by omega)]
  unfold expandAll
  simp only [hb.flags]
  exact f1

theorem altsP_step {e : Enc} {N dg : Nat} (hdg : ∀ k, k ≤ N → digits k ≤ dg) {s : Seq} (hs : SeqP e N dg s) (ho : s ≠ .nil ∧ s.Ok e)
    {t : List Nat} {h fuel d : Nat} (hw : s.Writes true t) (h1 : s.depth ≤ h) (h2 : s.depth < fuel) (h3 : d + s.depth < 31)
    (h4 : nameBound dg h + 1 + dg < nameBuf) :
    (t.length ≤ N → ∃ b st, altStep (create e fuel d) none t = some (some b) ∧ Good (nameBound dg h + 1 + dg) t.length b st (s.den e)) ∧
    (∀ (f : Built) (st len : Nat) (P : List Parts → Prop), Good (nameBound dg h + 1 + dg) len f st P → len + t.length + 1 ≤ N →
      ∃ b, altStep (create e fuel d) (some f) t = some (some b) ∧
        Good (nameBound dg h + 1 + dg) (len + 1 + t.length) b st (fun ws => P ws ∨ s.den e ws)) := by
  constructor
  · intro hl
    obtain ⟨b, st, e1, e2⟩ := hs true t h fuel d hw ho.2 ho.1 h1 hl h2 h3 (by omega)
    refine ⟨b, st, ?_, e2.mono (by omega) (Nat.le_refl _)⟩
    unfold altStep
    rw [e1]
    rfl
  · intro f st len P hf hl
    obtain ⟨b, st', e1, e2⟩ := hs true t h fuel d hw ho.2 ho.1 h1 (by omega) h2 h3 (by omega)
    obtain ⟨b', e3, e4⟩ := join_good hf e2 (hdg _ (by have := hf.hi; omega)) (Nat.le_refl _) h4 (by unfold nameBound; omega)
    refine ⟨b', ?_, e4⟩
    unfold altStep
    rw [e1]
    show Option.map some (join (some f) b) = _
    rw [e3]; rfl

mutual
theorem items_all {e : Enc} {N dg : Nat} (hN : N < maxString) (hdg : ∀ k, k ≤ N → digits k ≤ dg) (hdg5 : dg ≤ 5) :
    ∀ s : Seq, ItemsP e N dg s
  | .nil => fun _ h => by cases h
  | .cons i s => by
    intro a ha
    rcases List.mem_cons.1 ha with h | h
    · match i, h with
      | .alt a', h =>
        have : a = a' := by cases h; rfl
        subst this
        exact alts_all hN hdg hdg5 a
    · exact items_all hN hdg hdg5 s a h
theorem alts_all {e : Enc} {N dg : Nat} (hN : N < maxString) (hdg : ∀ k, k ≤ N → digits k ≤ dg) (hdg5 : dg ≤ 5) :
    ∀ a : Alts, AltsP e N dg a
  | .one s => by
    have hs := seqP_of hN hdg hdg5 (items_all (e := e) hN hdg hdg5 s)
    intro ts h fuel d ht hok h1 h2 h3 h4
    cases ht with
    | one _ t hw hne =>
      have hst := altsP_step hdg hs hok hw h1 h2 h3 h4
      constructor
      · intro hl
        obtain ⟨b, st, e1, e2⟩ := hst.1 (by simpa using hl)
        refine ⟨b, st, ?_, e2.mono (Nat.le_refl _) (by simp)⟩
        rw [List.foldlM_cons, e1]; rfl
      · intro f st len P hf hl
        obtain ⟨b, e1, e2⟩ := hst.2 f st len P hf (by simpa using hl)
        refine ⟨b, ?_, e2.mono (Nat.le_refl _) (by simp; omega)⟩
        rw [List.foldlM_cons, e1]; rfl
  | .or s a => by
    have hs := seqP_of hN hdg hdg5 (items_all (e := e) hN hdg hdg5 s)
    have ha := alts_all (e := e) hN hdg hdg5 a
    intro ts h fuel d ht hok h1 h2 h3 h4
    simp only [Alts.depth] at h1 h2 h3
    cases ht with
    | or _ _ t ts hw hne hts =>
      have hst := altsP_step hdg hs hok.1 hw (h := h) (fuel := fuel) (d := d) (by omega) (by omega) (by omega) h4
      have hrest := (ha ts h fuel d hts hok.2 (by omega) (by omega) (by omega) h4).2
      simp only [List.map_cons, List.sum_cons, List.length_cons]
      constructor
      · intro hl
        obtain ⟨b, st, e1, e2⟩ := hst.1 (by omega)
        obtain ⟨b', e3, e4⟩ := hrest b st _ _ e2 (by omega)
        refine ⟨b', st, ?_, (e4.mono (Nat.le_refl _) (by omega)).congr fun ws => Iff.rfl⟩
        rw [List.foldlM_cons, e1]
        exact e3
      · intro f st len P hf hl
        obtain ⟨b, e1, e2⟩ := hst.2 f st len P hf (by omega)
        obtain ⟨b', e3, e4⟩ := hrest b st _ _ e2 (by omega)
        refine ⟨b', ?_, (e4.mono (Nat.le_refl _) (by omega)).congr fun ws => ?_⟩
        · rw [List.foldlM_cons, e1]
          exact e3
        · simp only [Alts.den]
          exact or_assoc
end

end Verif.NetBuild
