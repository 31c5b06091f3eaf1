import Verif.Sgml.Lemmas
import Verif.Split.Escape
/-!
# Alignment lines of SGML reports round trip (C65)
-/
set_option autoImplicit false
namespace Verif.Sgml
open Verif.Text

/-- **C65, what is read back**: for every path whose words have no quotes, in every encoding and for all auxiliary values,
loading the written line gives the same entries, evaluations and requested auxiliary values; the value of each word is
the text as written in the file, i.e. with its semicolons escaped and its tags attached. -/
theorem path_read_back (e : Enc) (ks : List Kind) (ens : List (Entry Word)) (hw : ∀ en ∈ ens, ∀ w ∈ en.words, Writable w) :
    loadPath e ks (dumpPath ks ens) = some (ens.map (expected (fun w => Split.format w.parts) ks)) :=
  loadPath_spec e ks ens hw

/-- A word whose text survives: no quotes, no semicolons, no tags; its numbers print as numbers. -/
def PlainWord (w : Word) : Prop :=
  34 ∉ w.parts.value ∧ 59 ∉ w.parts.value ∧ w.parts.tag1 = none ∧ w.parts.tag2 = none ∧
    IsNumber w.t1 ∧ IsNumber w.t2 ∧ IsNumber w.conf ∧ IsNumber w.weight

/-- **C65, partial**: for every path of plain words, in every encoding, the line that is written loads to the same entries:
evaluations, words, and exactly the requested auxiliary values.  Missing: words with semicolons, quotes or tags, see
below. -/
theorem path_round_trip_partial (e : Enc) (ks : List Kind) (ens : List (Entry Word)) (hw : ∀ en ∈ ens, ∀ w ∈ en.words, PlainWord w) :
    loadPath e ks (dumpPath ks ens) = some (ens.map (expected (fun w => w.parts.value) ks)) := by
  have hf : ∀ w, PlainWord w → Split.format w.parts = w.parts.value := by
    rintro w ⟨_, h2, h3, h4, _⟩
    unfold Split.format
    rw [if_pos ⟨h3, h4⟩, Split.escape_clean 59 _ h2]
  rw [path_read_back e ks ens (fun en he w hm => by
    have h := hw en he w hm
    have h' := hf w h
    obtain ⟨h1, h2, h3, h4, h5, h6, h7, h8⟩ := h
    exact ⟨h5, h6, h7, h8, by rw [h']; exact h1⟩)]
  congr 1
  apply List.map_congr_left
  intro en he
  have := hw en he
  cases en with
  | ins b => simp only [expected, expected.hypW, hf b (this b (by simp [Entry.words]))]
  | del a => simp only [expected, expected.refW, hf a (this a (by simp [Entry.words]))]
  | pair ev a b =>
    simp only [expected, expected.refW, expected.hypW, hf a (this a (by simp [Entry.words])), hf b (this b (by simp [Entry.words]))]

/-- A concrete case: a word with a colon and a comma, and times and weights for the words that exist. -/
def sample : List (Entry Word) :=
  [.pair .sub ⟨⟨[97, 58, 44], none, none⟩, [49], [50], [51], [52]⟩ ⟨⟨[98], none, none⟩, [53], [54], [55], [56]⟩,
   .ins ⟨⟨[99], none, none⟩, [48], [49], [50], [51]⟩, .del ⟨⟨[100], none, none⟩, [52], [53], [54], [55]⟩]

example : ∀ en ∈ sample, ∀ w ∈ en.words, PlainWord w := by
  simp [sample, Entry.words, PlainWord, IsNumber]

example : loadPath .utf8 [.rTimes, .hWeight] (dumpPath [.rTimes, .hWeight] sample) =
    some [.pair .sub ⟨[97, 58, 44], some ([49], [50]), none, none⟩ ⟨[98], none, none, some [56]⟩,
      .ins ⟨[99], none, none, some [51]⟩, .del ⟨[100], some ([52], [53]), none, none⟩] := by decide

/-- **C65 is false with semicolons**: every word with a semicolon is read back with another text. -/
theorem semicolon_changes (w : Word) (h : 59 ∈ w.parts.value) (ht : w.parts.tag1 = none ∧ w.parts.tag2 = none) :
    Split.format w.parts ≠ w.parts.value := by
  unfold Split.format
  rw [if_pos ht]
  generalize w.parts.value = v at h
  intro he
  have hl : ∀ v : List Nat, 59 ∈ v → v.length < (Split.escape 59 v).length := by
    intro v
    induction v with
    | nil => simp
    | cons b v ih =>
      intro hm
      simp only [Split.escape]
      split
      · have := Split.escape_len v
        simp only [List.length_cons]; omega
      · rename_i hb
        rcases List.mem_cons.1 hm with rfl | hm
        · exact absurd rfl hb
        · have := ih hm
          simp only [List.length_cons]; omega
  have := hl v h
  rw [he] at this
  omega

/-- A word with a quote is read back as other words, without an error: `"a` against `"a` becomes the empty word against a
comma. -/
theorem quote_breaks : loadPath .ascii [] (dumpPath [] [.pair .corr ⟨⟨[34, 97], none, none⟩, [49], [50], [51], [52]⟩
    ⟨⟨[34, 97], none, none⟩, [49], [50], [51], [52]⟩]) = some [.pair .corr (.new []) (.new [44])] := by decide

end Verif.Sgml
