import Verif.CharNet.Units
import Verif.CharNet.Step
import Verif.NetBuild.Main
import Verif.Split.Props
/-!
# The network made of a word
-/
set_option autoImplicit false
namespace Verif.CharNet
open Verif.Net Verif.Text Verif.Split Verif.NetBuild Verif.Lines

/-! ### Chains of words without groups -/

theorem expand_chain {create : List Nat → Option Built} {d : Nat} {cur : Bool} {n : Net Parts} {r : Nat → Nat} (hn : n.WF r) {s v : Nat} {L : List Nat}
    (h : Chain n s v L) (hs : n.out s = []) (hd : ∀ a ∈ L, ∃ p, n.data a = some p ∧ 123 ∉ p.value) (nl : Nat → Nat) (hi : Nat) :
    ∀ (fuel : Nat) (fl : Nat → Nat → Bool), L.length < fuel → (∀ a ∈ L, fl (n.dst a) d = cur) →
    ∃ fl', expandLoop create d cur fuel ⟨n, fl, nl, hi⟩ [v] = some ⟨n, fl', nl, hi⟩ ∧ (∀ a ∈ L, fl' (n.dst a) d = !cur) ∧
      (∀ w, (∀ a ∈ L, w ≠ n.dst a) → fl' w = fl w) := by
  induction h with
  | nil =>
    intro fuel fl hf hc
    match fuel, hf with
    | fuel + 1, hf =>
      refine ⟨fl, ?_, (by intro a h; cases h), fun _ _ => rfl⟩
      unfold expandLoop
      simp only [hs, List.map_nil, List.foldl_nil, List.foldlM_nil]
      cases fuel <;> rfl
  | cons v a L h1 h2 ih =>
    intro fuel fl hf hc
    rw [List.length_cons] at hf
    have hne : ∀ b ∈ L, n.dst b ≠ n.dst a := by
      intro b hb e
      have := chain_rank hn h2 b hb
      rw [e] at this; omega
    match fuel, hf with
    | fuel + 1, hf =>
      obtain ⟨p, hp, h123⟩ := hd a (List.mem_cons_self ..)
      have hca := hc a (List.mem_cons_self ..)
      obtain ⟨fl', k1, k2, k3⟩ := ih (fun b hb => hd b (List.mem_cons_of_mem _ hb)) fuel
        (upd fl (n.dst a) (upd (fl (n.dst a)) d (!cur))) (by omega)
        (fun b hb => by rw [upd_ne _ _ _ _ (hne b hb)]; exact hc b (List.mem_cons_of_mem _ hb))
      refine ⟨fl', ?_, ?_, ?_⟩
      · have hx : ∀ fl2 : Nat → Nat → Bool, expandArc create ⟨n, fl2, nl, hi⟩ a = some ⟨n, fl2, nl, hi⟩ := by
          intro fl2
          unfold expandArc
          simp only [hp]
          rw [if_neg h123]
        have hpush : NetBuild.push d cur (fl, []) (n.dst a) = (upd fl (n.dst a) (upd (fl (n.dst a)) d (!cur)), [n.dst a]) := by
          unfold NetBuild.push
          rw [if_neg (by simpa using hca)]
          simp only [hca]
        unfold expandLoop
        simp only [h1, List.map_cons, List.map_nil, List.foldl_cons, List.foldl_nil, List.foldlM_cons, List.foldlM_nil, hpush, hx]
        exact k1
      · intro b hb
        rcases List.mem_cons.1 hb with e | e
        · subst e
          rw [k3 _ (fun c hc' => (hne c hc').symm), upd_self, upd_self]
        · exact k2 b e
      · intro w hw
        rw [k3 w (fun b hb => hw b (List.mem_cons_of_mem _ hb)), upd_ne _ _ _ _ (hw a (List.mem_cons_self ..))]

theorem trav_chain {n : Net Parts} {r : Nat → Nat} (hn : n.WF r) {cur : Bool} {s v : Nat} {L : List Nat} (h : Chain n s v L) (hs : n.out s = []) :
    ∀ (fuel : Nat) (fl : Net.Flags) (N A : List Nat), L.length < fuel → (∀ a ∈ L, fl.flag2 (n.dst a) = cur) →
    ∃ fl' N', travLoop n false cur (fun f _ => f) fuel ⟨fl, [v], N, A⟩ = some ⟨fl', [], N', A ++ L⟩ := by
  induction h with
  | nil =>
    intro fuel fl N A hf hc
    match fuel, hf with
    | fuel + 1, hf =>
      refine ⟨fl, N ++ [s], ?_⟩
      unfold travLoop
      simp only [hs, List.map_nil, List.foldl_nil]
      cases fuel <;> rfl
  | cons v a L h1 h2 ih =>
    intro fuel fl N A hf hc
    rw [List.length_cons] at hf
    have hne : ∀ b ∈ L, n.dst b ≠ n.dst a := by
      intro b hb e
      have := chain_rank hn h2 b hb
      rw [e] at this; omega
    have hca := hc a (List.mem_cons_self ..)
    match fuel, hf with
    | fuel + 1, hf =>
      obtain ⟨fl', N', k⟩ := ih fuel { fl with flag2 := upd fl.flag2 (n.dst a) (!fl.flag2 (n.dst a)) } (N ++ [v]) (A ++ [a]) (by omega)
        (fun b hb => by
          show upd fl.flag2 (n.dst a) _ (n.dst b) = cur
          rw [upd_ne _ _ _ _ (hne b hb)]; exact hc b (List.mem_cons_of_mem _ hb))
      refine ⟨fl', N', ?_⟩
      unfold travLoop
      have hpush : pushNode false cur ⟨fl, [], N ++ [v], A⟩ (n.dst a) =
          ⟨{ fl with flag2 := upd fl.flag2 (n.dst a) (!fl.flag2 (n.dst a)) }, [n.dst a], N ++ [v], A⟩ := by
        simp [pushNode, hca]
      simp only [h1, List.map_cons, List.map_nil, List.foldl_cons, List.foldl_nil, hpush]
      rw [k]
      simp

/-! ### Writing units as a text -/

/-- Words one after the other. -/
def seqOf : List (List Nat) → Seq
  | [] => .nil
  | w :: ws => .cons (.word w) (seqOf ws)

theorem seqOf_items : ∀ ws : List (List Nat), (seqOf ws).items = ws.map .word
  | [] => rfl
  | w :: ws => by simp [seqOf, Seq.items, seqOf_items ws]

theorem writes_rest : ∀ (ws : List (List Nat)), (∀ w ∈ ws, Spelling false w) → (seqOf ws).Writes false (ws.flatMap fun w => 32 :: w) := by
  intro ws
  induction ws with
  | nil => intro _; exact .nil false [] (by intro c h; cases h)
  | cons w ws ih =>
    intro h
    rw [List.flatMap_cons]
    refine .word false [32] w _ _ (by intro c h; rw [List.mem_singleton.1 h]; decide) (h w (by simp)) ?_ (ih fun x hx => h x (by simp [hx]))
    cases ws with
    | nil => exact Or.inl rfl
    | cons x xs => exact Or.inr ⟨32, _, rfl, by decide⟩

theorem writes_join (ws : List (List Nat)) (h : ∀ w ∈ ws, Spelling false w) : (seqOf ws).Writes false (joinText ws) := by
  cases ws with
  | nil => exact .nil false [] (by intro c h; cases h)
  | cons w ws =>
    refine .word false [] w _ _ (by intro c h; cases h) (h w (by simp)) ?_ (writes_rest ws fun x hx => h x (by simp [hx]))
    cases ws with
    | nil => exact Or.inl rfl
    | cons x xs => exact Or.inr ⟨32, _, rfl, by decide⟩

theorem escape_join (us : List (List Nat)) : escape 59 (joinText us) = joinText (us.map (escape 59)) := by
  cases us with
  | nil => rfl
  | cons u us =>
    simp only [joinText, List.map_cons, escape_append]
    congr 1
    induction us with
    | nil => rfl
    | cons u us ih =>
      simp only [List.flatMap_cons, List.map_cons, escape_append, ih]
      simp [escape]

theorem escape_mem (v : List Nat) : ∀ c ∈ escape 59 v, c ∈ v ∨ c = 92 := by
  induction v with
  | nil => intro c h; cases h
  | cons b v ih =>
    intro c h
    simp only [escape] at h
    split at h
    · rename_i hb
      simp only [List.mem_cons] at h ⊢
      rcases h with h | h | h
      · exact Or.inr h
      · exact Or.inl (Or.inl (by omega))
      · rcases ih c h with h | h
        · exact Or.inl (Or.inr h)
        · exact Or.inr h
    · simp only [List.mem_cons] at h ⊢
      rcases h with h | h
      · exact Or.inl (Or.inl h)
      · rcases ih c h with h | h
        · exact Or.inl (Or.inr h)
        · exact Or.inr h

theorem escape_twice (v : List Nat) : (escape 59 v).length ≤ 2 * v.length := by
  induction v with
  | nil => simp [escape]
  | cons b v ih =>
    simp only [escape]
    split <;> simp only [List.length_cons] <;> omega

theorem join_len (us : List (List Nat)) (h : ∀ u ∈ us, u ≠ []) : (joinText us).length ≤ 2 * (us.map List.length).sum := by
  cases us with
  | nil => simp [joinText]
  | cons u us =>
    simp only [joinText, List.length_append, List.map_cons, List.sum_cons]
    have : ∀ us : List (List Nat), (∀ u ∈ us, u ≠ []) → (us.flatMap fun u => 32 :: u).length ≤ 2 * (us.map List.length).sum := by
      intro us
      induction us with
      | nil => simp
      | cons u us ih =>
        intro h
        have h1 := ih fun x hx => h x (by simp [hx])
        have h2 := List.length_pos_iff.2 (h u (by simp))
        simp only [List.flatMap_cons, List.length_append, List.map_cons, List.sum_cons, List.length_cons]
        omega
    have := this us fun x hx => h x (by simp [hx])
    omega

theorem join_blank {u x : List Nat} {us : List (List Nat)} : 32 ∈ joinText (u :: x :: us) := by
  simp [joinText]

/-! ### The network of a chain of units -/

/-- What is known of the text of one unit. -/
structure UnitOk (e : Enc) (u : List Nat) : Prop where
  ne : u ≠ []
  clean : Clean e u
  bytes : ∀ c ∈ u, isSpace c = false ∧ c ≠ 123
  star : ¬ (1 < u.length ∧ u.getLast? = some 42)

theorem digits_small (k : Nat) (h : k < 10000) : digits k ≤ 4 := by
  unfold digits
  have := Nat.length_toDigits_le_iff (b := 10) (n := k) (k := 4) (by decide) (by decide)
  exact this.2 (by omega)

theorem create_units (e : Enc) (us : List (List Nat)) (hne : us ≠ []) (hu : ∀ u ∈ us, UnitOk e u) (hl : (escape 59 (joinText us)).length < maxString) :
    ∃ (b : Built) (s : Nat) (L : List Nat) (cur : Bool), create e ((escape 59 (joinText us)).length + 1) 1 (escape 59 (joinText us)) = some b ∧
      (∃ r, b.net.WF r) ∧ b.net.stop = some s ∧ Chain b.net s b.net.start L ∧ L.Nodup ∧ b.net.nNodes = us.length + 1 ∧
      L.map b.net.data = us.map (fun u => some ⟨u, none, none⟩) ∧ (∀ w, b.net.inn w ≠ [] → w ≠ s → b.net.out w ≠ []) ∧
      b.flag2 b.net.start 1 = cur ∧ (∀ a ∈ L, b.flag2 (b.net.dst a) 1 = cur) := by
  have hparse : ∀ u ∈ us, parseText e (escape 59 u) = some ⟨u, none, none⟩ := by
    intro u hm
    have h := hu u hm
    have := word_round_trip_partial e ⟨u, none, none⟩ h.clean (by simp) (by simp) h.ne
      (fun hh => (h.bytes 123 (List.mem_of_mem_head? hh)).2 rfl) h.star Iff.rfl
    simpa [format] using this
  have hsp : ∀ w ∈ us.map (escape 59), Spelling false w := by
    intro w hw
    obtain ⟨u, hm, rfl⟩ := List.mem_map.1 hw
    have h := hu u hm
    refine ⟨?_, ?_⟩
    · intro e1
      have := escape_len u
      rw [e1] at this
      exact h.ne (List.length_eq_zero_iff.1 (Nat.le_zero.1 this))
    · intro c hc
      rcases escape_mem u c hc with h1 | h1
      · exact ⟨(h.bytes c h1).1, (h.bytes c h1).2, by simp⟩
      · subst h1; exact ⟨by decide, by decide, by simp⟩
  have hw := writes_join _ hsp
  rw [← escape_join] at hw
  have hok : (seqOf (us.map (escape 59))).Ok e := by
    clear hw hsp hl hne
    induction us with
    | nil => exact trivial
    | cons u us ih =>
      exact ⟨⟨_, hparse u (by simp)⟩, ih (fun x hx => hu x (by simp [hx])) (fun x hx => hparse x (by simp [hx]))⟩
  obtain ⟨toks, ps, k1, k2, k3, k4⟩ := pieces_seq hw hok hl (escape 59 (joinText us)).length (Nat.le_refl _)
  obtain ⟨g1, g2⟩ := pars_get k3
  rw [seqOf_items, List.length_map, List.length_map] at g1
  have hps : ps = us.map fun u => ⟨u, none, none⟩ := by
    apply List.ext_getElem?
    intro i
    rw [List.getElem?_map]
    by_cases hi : i < us.length
    · have h1 : us[i]? = some us[i] := List.getElem?_eq_getElem hi
      have h2 : ps[i]? = some ps[i] := List.getElem?_eq_getElem (by omega)
      rw [h1, h2, Option.map_some]
      have h3 := g2 i (.word (escape 59 us[i])) ps[i] (by rw [seqOf_items, List.map_map, List.getElem?_map, h1]; rfl) h2
      rcases h3 with ⟨w, e1, e2, _⟩ | ⟨a, g, e1, _⟩
      · cases e1
        rw [hparse _ (List.getElem_mem hi)] at e2
        rw [← e2]
      · cases e1
    · rw [List.getElem?_eq_none (by omega), List.getElem?_eq_none (by omega)]; rfl
  have hpl : 0 < us.length := List.length_pos_iff.2 hne
  have hplen : ps.length ≤ (escape 59 (joinText us)).length := by omega
  obtain ⟨s, L, hb⟩ := base_all 4 (ps.length - 1) ps (by omega) (fun i hi => digits_small i (by unfold maxString at hl; omega))
  have hdat : L.map (ps.foldl Built.addTail Built.init).net.data = us.map (fun u => some ⟨u, none, none⟩) := by
    rw [hb.data, hps, List.map_map]; rfl
  generalize hB : ps.foldl Built.addTail Built.init = B at hb hdat
  obtain ⟨r, hn⟩ := hb.wf
  have hso := hn.stop_ok s hb.stop
  have hLlen : L.length = ps.length := by simpa using congrArg List.length hb.data
  have hno : ∀ a ∈ L, ∃ p, B.net.data a = some p ∧ 123 ∉ p.value := by
    intro a ha
    have : B.net.data a ∈ us.map (fun u => some (⟨u, none, none⟩ : Parts)) := by rw [← hdat]; exact List.mem_map.2 ⟨a, ha, rfl⟩
    obtain ⟨u, hm, e1⟩ := List.mem_map.1 this
    exact ⟨_, e1.symm, fun h => ((hu u hm).bytes 123 h).2 rfl⟩
  have hst : ∀ a ∈ L, B.net.dst a ≠ B.net.start := by
    intro a ha e1
    have := chain_rank hn hb.chain a ha
    rw [e1] at this; omega
  obtain ⟨fl', x1, x2, x3⟩ := expand_chain (create := create e (escape 59 (joinText us)).length 2) (d := 1) (cur := false) hn hb.chain hso.1 hno
    B.nameLen B.hi B.net.nNodes (upd B.flag2 B.net.start (upd (B.flag2 B.net.start) 1 true)) (by rw [hb.nodes]; omega)
    (fun a ha => by rw [upd_ne _ _ _ _ (hst a ha)]; exact hb.flags _ _)
  refine ⟨⟨B.net, fl', B.nameLen, B.hi⟩, s, L, true, ?_, hb.wf, hb.stop, hb.chain, hb.nodup, ?_, hdat, hb.live, ?_, ?_⟩
  · unfold create
    rw [k1]
    simp only [k2]
    rw [if_pos (by decide), hB]
    unfold expandAll
    simp only [hb.flags]
    exact x1
  · show B.net.nNodes = _
    rw [hb.nodes]; omega
  · show fl' B.net.start 1 = true
    rw [x3 _ (fun a ha => (hst a ha).symm), upd_self, upd_self]
  · intro a ha
    exact x2 a ha

end Verif.CharNet
