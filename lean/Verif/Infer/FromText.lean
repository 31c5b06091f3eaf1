import Verif.Infer.Lexicon
import Verif.CharNet.Props
/-!
# From a text to the network of its units
-/
set_option autoImplicit false
namespace Verif.Infer
open Verif.Net Verif.Text Verif.Lines Verif.CharNet Verif.NetBuild

theorem decode_plain {frag : Bool} {p : Split.Parts} {w : CW} (h : CharNet.decode false frag (fresh p) = some w) : w.opt = false := by
  unfold CharNet.decode at h
  rw [if_neg (by decide)] at h
  dsimp only at h
  cases frag with
  | false => rw [if_neg (by decide)] at h; cases h; rfl
  | true =>
    rw [if_pos rfl] at h
    unfold decodeFragment at h
    split at h
    · cases h
    · split at h <;> cases h <;> rfl

/-- Spellable and not optionally deletable. -/
def PlainWord (e : Enc) (f : Split.Flags) (w : CW) : Prop := Spellable e f w ∧ w.opt = false

theorem plain_subOk (e : Enc) (f : Split.Flags) (hg : EncFits e f) : SubOk (charSub e f) (PlainWord e f) CW.opt (spelled e f) := by
  intro w hw
  rcases char_subOk e f hg w hw.1 with h | ⟨m, t, b0, h1, h2⟩
  · exact Or.inl h
  · refine Or.inr ⟨m, t, b0, h1, h2.wf, h2.stop, h2.first, h2.live, h2.lang, ?_⟩
    intro v a ha
    obtain ⟨y, y1, y2, y3, y4, y5⟩ := h2.words v a ha
    exact ⟨y, y1, ⟨y2, by rw [y4]; exact hw.2⟩, y3, y4, y5⟩

theorem plain_joinable {e : Enc} {f : Split.Flags} {w : CW} (h : PlainWord e f w) : Joinable e w := by
  have ho : ¬ w.opt = true := by rw [h.2]; decide
  refine ⟨fun h' => absurd h' ho, ⟨?_, ?_⟩, ?_⟩
  · obtain ⟨cs, h1, h2⟩ := h.1.text
    exact ⟨cs, h1, fun c hc => (h2 c hc).1⟩
  · intro h0
    apply h.1.something
    unfold unitsOf
    rw [h0]
    rfl
  · intro h0
    rw [textOf_plain ho] at h0
    exact h0

theorem expand_plain {e : Enc} {f : Split.Flags} (hg : EncFits e f) {b b' : CNet CW} (hb : Ready e f b)
    (hp : ∀ v a, a ∈ b.net.out v → ∀ w, b.net.data a = some w → w.opt = false) {fuel : Nat} (h : expandChars e f fuel b = .ok b') :
    ∀ v a, a ∈ b'.net.out v → ∃ w, b'.net.data a = some w ∧ PlainWord e f w := by
  have hwords : ∀ v a, a ∈ b.net.out v → ∃ w, b.net.data a = some w ∧ PlainWord e f w := by
    intro v a ha
    obtain ⟨w, h1, h2⟩ := hb.words v a ha
    exact ⟨w, h1, h2, hp v a ha w h1⟩
  cases hstop : b.net.stop with
  | none =>
    obtain ⟨r, hw⟩ := hb.wf
    have hout := hw.no_stop hstop
    unfold expandChars expandNet at h
    cases fuel with
    | zero => unfold nodeLoop at h; cases h
    | succ fuel =>
      unfold nodeLoop at h
      simp only [hout, List.map_nil, List.foldl_nil, List.head?_nil] at h
      unfold arcLoop at h
      simp only at h
      have h : (.ok ⟨b.net, upd b.vis b.net.start (!b.vis b.net.start)⟩ : Res (CNet CW)) = .ok b' := by
        rw [← h]; cases fuel <;> rfl
      injection h with h
      rw [← h]
      exact hwords
  | some s =>
    have hfine : Fine (PlainWord e f) b.net s := ⟨hb.wf, hstop, hwords⟩
    rcases (expand_run (plain_subOk e f hg) hfine hb.bits fuel).1 with k1 | ⟨b2, k1, k3, _⟩
    · unfold expandChars at h; rw [k1] at h; cases h
    · unfold expandChars at h
      rw [k1] at h
      injection h with h
      rw [← h]
      exact k3.words

theorem text_units (e : Enc) (f : Split.Flags) (hg : EncFits e f) (frag : Bool) (s : Seq) (t : List Nat) (hw : s.Writes false t) (hok : s.Ok e)
    (hfit : Fits40 t.length s.depth) (hsp : SpellText e f false frag s) :
    ∃ b K, (∀ fuel, K < fuel → charNet e f false frag fuel t = .ok b) ∧ Units e b ∧
      ∀ ws, b.net.Produces ws ↔ charDen e f false frag s ws := by
  obtain ⟨b', K, h1, h2, h3⟩ := char_text_readings_partial e f hg false frag s t hw hok hfit hsp (one_optional e frag t)
  obtain ⟨b, n, g1, g2, g3, g4⟩ := text_ready hw hok hfit hsp
  have hx := h1 (K + 1) (Nat.lt_succ_self _)
  unfold charNet at hx
  rw [g1] at hx
  simp only [g2] at hx
  have hopt : ∀ v a, a ∈ n.out v → ∀ w, n.data a = some w → w.opt = false := by
    intro v a ha w hd
    unfold mapWords at g2
    split at g2
    · have g2 := Option.some.inj g2
      subst g2
      dsimp only at hd
      cases hda : b.net.data a with
      | none => rw [hda] at hd; cases hd
      | some p => rw [hda] at hd; exact decode_plain hd
    · cases g2
  have hall := expand_plain hg g3 hopt hx
  refine ⟨b', K, h1, ⟨h2.wf, ?_, h2.bits, ?_⟩, h3⟩
  · intro v a ha
    obtain ⟨w, w1, w2⟩ := hall v a ha
    exact ⟨w, w1, plain_joinable w2⟩
  · intro v p u ws hwalk hd ho
    cases ws with
    | nil => decide
    | cons w ws =>
      exfalso
      cases hwalk with
      | nil => cases hd
      | cons _ a p' _ ha _ =>
        rw [List.map_cons, List.map_cons] at hd
        injection hd with hd _
        obtain ⟨w', w1, w2⟩ := hall v a ha
        rw [hd] at w1
        cases w1
        have := ho w (by simp)
        rw [w2.2] at this
        cases this

end Verif.Infer
