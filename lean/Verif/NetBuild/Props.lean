import Verif.NetBuild.Main
import Verif.Net.Props
/-!
# Texts with alternatives (sclite): properties
-/
set_option autoImplicit false
namespace Verif.NetBuild
open Verif.Net Verif.Text Verif.Split Verif.Lines

/-- Within the built-in limits: fewer than 10000 bytes, and groups nested so little that the names given to the nodes of
the network, which grow with the nesting and with the number of digits of the counters, fit their array. -/
def Fits40 (len depth : Nat) : Prop := ∃ dg, 1 ≤ dg ∧ dg ≤ 4 ∧ len < 10 ^ dg ∧ 5 + 2 * depth * (1 + dg) < 40

/-- Nesting up to three is fine for any text of fewer than 10000 bytes. -/
theorem fits_three (len depth : Nat) (h1 : len < 10000) (h2 : depth ≤ 3) : Fits40 len depth :=
  ⟨4, by decide, by decide, h1, by omega⟩

/-- Nesting up to four is fine for texts of fewer than 1000 bytes. -/
theorem fits_four (len depth : Nat) (h1 : len < 1000) (h2 : depth ≤ 4) : Fits40 len depth :=
  ⟨3, by decide, by decide, h1, by omega⟩

mutual
theorem seq_depth_le {s : Seq} {inside : Bool} {t : List Nat} (h : s.Writes inside t) : s.depth ≤ t.length := by
  match h with
  | .nil _ _ _ => exact Nat.zero_le _
  | .word _ b w t s _ _ _ hs =>
    have := seq_depth_le hs
    simp only [Seq.depth, Item.depth, List.length_append]
    omega
  | .alt _ b g t a s _ hg hs =>
    have := seq_depth_le hs
    have := alts_depth_le hg
    simp only [Seq.depth, Item.depth, List.length_append, List.length_cons, List.length_nil]
    omega
theorem alts_depth_le {a : Alts} {t : List Nat} (h : a.Writes t) : a.depth ≤ t.length := by
  match h with
  | .one s t hs => exact seq_depth_le hs
  | .or s a t t' hs ha =>
    have := seq_depth_le hs
    have := alts_depth_le ha
    simp only [Alts.depth, List.length_append, List.length_cons, List.length_nil]
    omega
end

theorem build_live (e : Enc) (s : Seq) (t : List Nat) (hw : s.Writes false t) (hok : s.Ok e) (hfit : Fits40 t.length s.depth) :
    ∃ b, build e t = some b ∧ (∃ r, b.net.WF r) ∧ b.net.Words ∧ b.net.nArcs ≤ t.length ∧
      (∀ w i, b.net.Reach w → b.flag2 w i = b.flag2 b.net.start i) ∧ (∀ ws, b.net.Produces ws ↔ s.den e ws) ∧
      ∀ w, b.net.inn w ≠ [] → b.net.stop ≠ some w → b.net.out w ≠ [] := by
  obtain ⟨dg, hd1, hd4, hlen, hbuf⟩ := hfit
  have hpow : 10 ^ dg ≤ 10 ^ 4 := Nat.pow_le_pow_right (by decide) hd4
  have hN : t.length < maxString := by unfold maxString; omega
  by_cases hs : s = .nil
  · subst hs
    obtain ⟨toks, ps, k1, k2, k3, k4⟩ := pieces_seq hw hok hN t.length (Nat.le_refl _)
    cases k3
    refine ⟨{ Built.init with flag2 := upd Built.init.flag2 0 (upd (Built.init.flag2 0) 0 true) }, ?_, ⟨_, init_wf⟩, ?_, Nat.zero_le _, ?_, ?_, ?_⟩
    · unfold build
      rw [create, k1]
      simp only [k2]
      rfl
    · intro v a h; cases h
    · intro w i h
      have : ∀ v, Net.Reach (Net.init Parts) v → v = 0 := by
        intro v h
        cases h with
        | start => rfl
        | step v a _ ha => cases ha
      rw [this w h]
      rfl
    · intro ws
      show ws = [] ↔ _
      exact Iff.rfl
    · intro w h; exact absurd rfl h
  · have hdig : ∀ k, k ≤ t.length → digits k ≤ dg := fun k hk =>
      (Nat.length_toDigits_le_iff (by decide) (by omega)).2 (by omega)
    have hdep := seq_depth_le hw
    have h8 : s.depth < 31 := by
      have : s.depth * 1 ≤ s.depth * (1 + dg) := Nat.mul_le_mul_left _ (by omega)
      have e1 : 2 * s.depth * (1 + dg) = 2 * (s.depth * (1 + dg)) := by rw [Nat.mul_assoc]
      omega
    obtain ⟨b, st, e1, hg⟩ := seqP_of hN hdig (by omega) (items_all (e := e) hN hdig (by omega) s) false t s.depth (t.length + 1) 0 hw hok hs
      (Nat.le_refl _) (Nat.le_refl _) (by omega) (by omega) hbuf
    refine ⟨b, e1, hg.wf, hg.words, hg.arcs, ?_, ?_, fun w h1 h2 => hg.live w h1 (fun h => h2 (h ▸ hg.stop))⟩
    · intro w i hr
      obtain ⟨r, hn⟩ := hg.wf
      rcases (hn.reach_iff w).1 hr with h | h
      · rw [h]
      · exact hg.flags w i h
    · intro ws
      rw [produces_sp _ _ hg.stop]
      exact hg.lang ws

theorem build_ok (e : Enc) (s : Seq) (t : List Nat) (hw : s.Writes false t) (hok : s.Ok e) (hfit : Fits40 t.length s.depth) :
    ∃ b, build e t = some b ∧ (∃ r, b.net.WF r) ∧ b.net.Words ∧ b.net.nArcs ≤ t.length ∧
      (∀ w i, b.net.Reach w → b.flag2 w i = b.flag2 b.net.start i) ∧ ∀ ws, b.net.Produces ws ↔ s.den e ws := by
  obtain ⟨b, h1, h2, h3, h4, h5, h6, _⟩ := build_live e s t hw hok hfit
  exact ⟨b, h1, h2, h3, h4, h5, h6⟩

/-! ### C81 -/

/-- C81: from a text with alternatives, sclite builds a network that can be read as exactly the word sequences the text
stands for: one alternative of every group, in order, groups inside groups included.  Within the limits on the length of
the text and on nesting, if every word can be taken apart, every group is a word of its own and no alternative is empty.
Missing: what the code does beyond these (see the theorems below). -/
theorem network_readings_partial (e : Enc) (s : Seq) (t : List Nat) (hw : s.Writes false t) (hok : s.Ok e)
    (hfit : Fits40 t.length s.depth) :
    ∃ b, build e t = some b ∧ ∀ ws, b.net.Produces ws ↔ s.den e ws := by
  obtain ⟨b, h1, _, _, _, _, h2⟩ := build_ok e s t hw hok hfit
  exact ⟨b, h1, h2⟩

/-- The network is well-formed: acyclic, every node on the way from start to stop, every arc with a word; its visited
marks are all equal, so that it can be traversed; and it has no more arcs than the text has bytes. -/
theorem network_well_formed_partial (e : Enc) (s : Seq) (t : List Nat) (hw : s.Writes false t) (hok : s.Ok e)
    (hfit : Fits40 t.length s.depth) :
    ∃ b, build e t = some b ∧ (∃ r, b.net.WF r) ∧ b.net.Words ∧ b.net.nArcs ≤ t.length ∧
      ∀ fl, (⟨fl, fun w => b.flag2 w 0⟩ : Net.Flags).Uniform b.net := by
  obtain ⟨b, h1, h2, h3, h4, h5, _⟩ := build_ok e s t hw hok hfit
  exact ⟨b, h1, h2, h3, h4, fun _ w hr => h5 w 0 hr⟩

/-! ### C82 -/

/-- C82: sclite aligns a reference text with a hypothesis text, both possibly with alternatives, at the lowest total of
the standard costs over all readings of the one and all readings of the other; the path it reports belongs to one reading
of each. -/
theorem text_alignment_best_partial (F : Funcs Parts) (hd : F.dist = wwd F.isNull F.optDel F.equal) (e : Enc) (ref hyp : Seq)
    (tr th : List Nat) (hr : ref.Writes false tr) (hh : hyp.Writes false th) (or : ref.Ok e) (oh : hyp.Ok e)
    (fr : Fits40 tr.length ref.depth) (fh : Fits40 th.length hyp.depth) (t0 : Table) (incl : Bool) (fla flb : Nat → Int) :
    ∃ a b la lb r s, build e tr = some a ∧ build e th = some b ∧
      dpalign F a.net b.net ⟨fla, fun w => a.flag2 w 0⟩ ⟨flb, fun w => b.flag2 w 0⟩ t0 incl = some (la, lb, r) ∧
      ref.den e (lefts s) ∧ hyp.den e (rights s) ∧ Total F s r.cost ∧ r.path = s.flatMap (reported F incl) ∧
      ∀ s' c, ref.den e (lefts s') → hyp.den e (rights s') → Total F s' c → r.cost ≤ c := by
  obtain ⟨a, a1, ⟨ra, a2⟩, a3, a4, a5, a6⟩ := build_ok e ref tr hr or fr
  obtain ⟨b, b1, ⟨rb, b2⟩, b3, b4, b5, b6⟩ := build_ok e hyp th hh oh fh
  have bound : ∀ {len depth : Nat}, Fits40 len depth → len < 65534 := by
    rintro len depth ⟨dg, _, h4, h, _⟩
    have : 10 ^ dg ≤ 10 ^ 4 := Nat.pow_le_pow_right (by decide) h4
    omega
  have ha := bound fr
  have hb := bound fh
  obtain ⟨la, lb, r, h1, s, h2, h3, h4, h5, _⟩ := dpalign_spec F a.net b.net ra rb ⟨fla, fun w => a.flag2 w 0⟩ ⟨flb, fun w => b.flag2 w 0⟩
    t0 incl 4000 a2 b2 a3 b3 (fun w hw => a5 w 0 hw) (fun w hw => b5 w 0 hw) (by omega) (by omega)
    (wwd_below F hd _ _ (by omega) (by omega))
  exact ⟨a, b, la, lb, r, s, a1, b1, h1, (a6 _).1 h2.1, (b6 _).1 h2.2, (wwd_total F hd _ _).2 h3, h5,
    fun s' c e1 e2 e3 => (wwd_total F hd _ _).1 e3 ▸ h4 s' ⟨(a6 _).2 e1, (b6 _).2 e2⟩⟩

/-! ### Cases that meet the hypotheses -/

/-- "a { b c / d } e" -/
def exText : List Nat := [97, 32, 123, 32, 98, 32, 99, 32, 47, 32, 100, 32, 125, 32, 101]
/-- Its structure. -/
def exSeq : Seq := .cons (.word [97]) (.cons (.alt (.or (.cons (.word [98]) (.cons (.word [99]) .nil)) (.one (.cons (.word [100]) .nil))))
  (.cons (.word [101]) .nil))

theorem ex_blank : Blank [32] := by intro c h; rw [List.mem_singleton.1 h]; decide
theorem ex_spelling (inside : Bool) (c : Nat) (h : isSpace c = false) (h1 : c ≠ 123) (h2 : c ≠ 47) (h3 : c ≠ 125) : Spelling inside [c] :=
  ⟨by simp, fun x hx => by rw [List.mem_singleton.1 hx]; exact ⟨h, h1, fun _ => ⟨h2, h3⟩⟩⟩

example : exSeq.Writes false exText ∧ exSeq.Ok .ascii ∧ Fits40 exText.length exSeq.depth := by
  refine ⟨?_, ?_, fits_three _ _ (by decide) (by decide)⟩
  · have sp : ∀ t : List Nat, (32 :: t = [] ∨ ∃ c t', 32 :: t = c :: t' ∧ isSpace c = true) := fun t => Or.inr ⟨32, t, rfl, by decide⟩
    have d : Seq.Writes (.cons (.word [100]) .nil) true [32, 100, 32] :=
      .word true [32] [100] [32] .nil ex_blank (ex_spelling true 100 (by decide) (by decide) (by decide) (by decide)) (sp []) (.nil true [32] ex_blank)
    have c : Seq.Writes (.cons (.word [99]) .nil) true [32, 99, 32] :=
      .word true [32] [99] [32] .nil ex_blank (ex_spelling true 99 (by decide) (by decide) (by decide) (by decide)) (sp []) (.nil true [32] ex_blank)
    have b : Seq.Writes (.cons (.word [98]) (.cons (.word [99]) .nil)) true [32, 98, 32, 99, 32] :=
      .word true [32] [98] [32, 99, 32] _ ex_blank (ex_spelling true 98 (by decide) (by decide) (by decide) (by decide)) (sp _) c
    have g : Alts.Writes (.or (.cons (.word [98]) (.cons (.word [99]) .nil)) (.one (.cons (.word [100]) .nil)))
        [32, 98, 32, 99, 32, 47, 32, 100, 32] := .or _ _ [32, 98, 32, 99, 32] [32, 100, 32] b (.one _ _ d)
    have w : Seq.Writes (.cons (.word [101]) .nil) false [32, 101] :=
      .word false [32] [101] [] .nil ex_blank (ex_spelling false 101 (by decide) (by decide) (by decide) (by decide)) (Or.inl rfl) (.nil false [] (fun _ h => by cases h))
    have v := Seq.Writes.alt false [32] _ [32, 101] _ _ ex_blank g w
    exact .word false [] [97] _ _ (fun _ h => by cases h) (ex_spelling false 97 (by decide) (by decide) (by decide) (by decide)) (sp _) v
  · refine ⟨⟨_, rfl⟩, ?_, ⟨_, rfl⟩, trivial⟩
    exact ⟨⟨by simp, ⟨_, rfl⟩, ⟨_, rfl⟩, trivial⟩, by simp, ⟨_, rfl⟩, trivial⟩

/-- The arcs of the example, as (from, to, word). -/
example : (build .ascii exText).map (fun b => ((List.range b.net.nNodes).flatMap b.net.out).map fun a =>
      (b.net.src a, b.net.dst a, (b.net.data a).map Parts.value)) =
    some [(0, 2, some [97]), (2, 6, some [98]), (2, 3, some [100]), (3, 1, some [101]), (6, 3, some [99])] := by decide +kernel

/-! ### Outside of the hypotheses -/

/-- A brace inside a word ("a{b/c}") crashes the program: the word is taken for a group, its first byte and its last brace
are removed, what is left is a group that is not closed, and the network without a stop node made of it is merged. -/
theorem brace_in_word_crashes : build .ascii [97, 123, 98, 47, 99, 125] = none := by decide +kernel

/-- A group with no alternative ("{}", "{ / }") crashes the program. -/
theorem empty_group_crashes : build .ascii [123, 125] = none ∧ build .ascii [123, 32, 47, 32, 125] = none := by decide +kernel

/-- An empty alternative is dropped: "{ a / }" is not optional. -/
theorem empty_alternative_dropped : ∃ b, build .ascii [123, 32, 97, 32, 47, 32, 125] = some b ∧ ¬ b.net.Produces [] := by
  refine ⟨(build .ascii [123, 32, 97, 32, 47, 32, 125]).get (by decide +kernel), by simp, ?_⟩
  have h1 : ((build .ascii [123, 32, 97, 32, 47, 32, 125]).get (by decide +kernel)).net.stop = some 1 := by decide +kernel
  have h2 : ((build .ascii [123, 32, 97, 32, 47, 32, 125]).get (by decide +kernel)).net.start = 0 := by decide +kernel
  unfold Net.Produces
  rw [h1]
  rintro ⟨p, hp, he⟩
  have : p = [] := by simpa using he
  subst this
  rw [h2] at hp
  generalize hk : (1 : Nat) = k at hp
  cases hp
  cases hk

/-- A group that is not closed is dropped with everything after it, without a message: "a { b c" is read as "a". -/
theorem open_group_dropped : (build .ascii [97, 32, 123, 32, 98, 32, 99]).map (fun b => (b.net.nArcs, b.net.data 0)) =
    some (1, some ⟨[97], none, none⟩) := by decide +kernel

/-- `nest k`: groups nested `k` deep, each in the second alternative of the one around it: "b", "{a/b b}",
"{a/{a/b b} b}", ... -/
def nest : Nat → List Nat
  | 0 => [98]
  | k + 1 => [123, 97, 47] ++ nest k ++ [32, 98, 125]

/-- Ten nested groups, in a text of 61 bytes, write past the array for the names of the nodes; nine do not. -/
theorem deep_nesting_overflows : build .ascii (nest 10) = none ∧ (nest 10).length = 61 ∧ (build .ascii (nest 9)).isSome = true := by
  decide +kernel

end Verif.NetBuild
