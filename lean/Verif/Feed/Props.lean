import Verif.Feed.Text
import Verif.CtmIn.Props
/-!
# Reading long files through tables of limited size: properties
-/
set_option autoImplicit false
namespace Verif.Feed
open Verif.Lines Verif.Text

/-! ## C159: no word is lost, whatever the size of the table -/

section
variable {L X Y F : Type} [DecidableEq F] (ends : L → Bool) (read : L → Line X) (tag : Option Y → X → Y) (key : Y → F)

/-- **C159.**  A program that works through a time-marked file by way of a table of any size of at least four entries sees every
record of the file, once and in order, with what depends on the record before it; each of its portions is of one file, and all
records of a file that are neighbours are in the same portion. -/
theorem words_fed (max : Nat) (hm : 4 ≤ max) (lines : List L) (hc : Clean read lines) (he : Ended ends lines)
    (ff f : Nat) (hff : 2 ≤ ff) (hf : lines.length + 1 ≤ f) :
    ∃ gs, drain ends read tag key ff f (Tab.init max lines) = .ok gs ∧
      gs.flatten = completed tag none (records read lines) ∧
      (∀ g ∈ gs, g ≠ [] ∧ ∀ a ∈ g, ∀ b ∈ g, key a = key b) ∧
      ∀ pre g h post, gs = pre ++ g :: h :: post → ∀ a ∈ g, ∀ b ∈ h, key a ≠ key b := by
  have ht : (Tab.init max lines : Tab L Y).todo read tag = completed tag none (records read lines) := by
    simp [Tab.todo, Tab.init]
  have hlen : ∀ (xs : List X) (p : Option Y), (completed tag p xs).length = xs.length := by
    intro xs
    induction xs with
    | nil => intro p; rfl
    | cons x xs ih => intro p; simp [completed, ih]
  have hl : (records read lines).length ≤ lines.length := List.length_filterMap_le _ _
  obtain ⟨gs, g1, g2, g3⟩ := drain_ok ends read tag key ff hff f (Tab.init max lines) (init_inv ends read key max hm lines hc he)
    (by rw [ht, hlen]; omega)
  obtain ⟨r1, r2⟩ := runs_props key gs g3
  exact ⟨gs, g1, by rw [g2, ht], r1, r2⟩

end

/-- A file of eleven words of two recordings through a table of four entries. -/
example : drain (L := Nat × Nat) (fun _ => true) (fun l => if l.2 = 0 then .comment else .data l) (fun _ x => x) (fun x : Nat × Nat => x.1)
      2 13 (Tab.init 4 [(1, 1), (1, 2), (1, 3), (1, 4), (1, 0), (1, 5), (1, 6), (1, 7), (2, 1), (2, 2), (3, 1), (3, 0)]) =
    .ok [[(1, 1), (1, 2), (1, 3), (1, 4), (1, 5), (1, 6), (1, 7)], [(2, 1), (2, 2)], [(3, 1)]] := by rfl

/-! ## C160: aligning through tables is aligning whole files -/

section
variable {L M F C : Type} [DecidableEq F] [DecidableEq C] (ends : L → Bool) (read : L → Line (Chan.Word (F × C)))
  (ends' skip : M → Bool) (parse : M → Option (Chan.Utt (F × C))) (p : M → Chan.Utt (F × C)) (reduce : Bool)

/-- **C160.**  For references with at least one segment the alignment that reads both files piece by piece, with tables of whatever
size, gives what the alignment of the whole files gives. -/
theorem buffered_alignment_partial (maxS maxW : Nat) (hS : 1 ≤ maxS) (hW : 4 ≤ maxW) (ref : List M) (hyp : List L)
    (hr : ∀ l ∈ ref, (skip l && ends' l) = true ∨ parse l = some (p l)) (her : Ended ends' ref)
    (hh : Clean read hyp) (heh : Ended ends hyp) (hne : segments ends' skip p ref ≠ [])
    (fuel : Nat) (hf : ref.length + 3 ≤ fuel) :
    alignBuffered ends read ends' skip parse reduce maxS maxW fuel ref hyp =
      ofOut (Chan.alignFiles reduce (segments ends' skip p ref) (records read hyp)) := by
  have e1 : (Stm.init maxS ref : Stm M (Chan.Utt (F × C))).todo ends' skip p = segments ends' skip p ref := by
    simp [Stm.todo, Stm.init]
  have e2 : (Tab.init maxW hyp : Tab L (Chan.Tok (F × C))).todo read tagTok = Chan.mark none (records read hyp) := by
    simp [Tab.todo, Tab.init, completed_mark]
  have hl : (segments ends' skip p ref).length ≤ ref.length := by
    unfold segments; rw [List.length_map]; exact List.length_filter_le _ _
  unfold alignBuffered
  rw [loop_eq ends read ends' skip parse p reduce fuel (by omega) fuel _ _ (stm_init_inv ends' skip parse p maxS hS ref hr her)
    (init_inv ends read _ maxW hW hyp hh heh) (by show ref.length + 3 ≤ fuel; exact hf) (by rw [e1]; omega) (.inl (by rw [e1]; exact hne)),
    e1, e2]
  unfold Chan.alignFiles
  rw [fileLoop_fuel reduce fuel ((segments ends' skip p ref).length + 1) _ _ (by omega) (Nat.le_refl _)]

/-- The sizes of the tables do not matter. -/
theorem table_sizes_partial (maxS maxW maxS' maxW' : Nat) (hS : 1 ≤ maxS) (hW : 4 ≤ maxW) (hS' : 1 ≤ maxS') (hW' : 4 ≤ maxW')
    (ref : List M) (hyp : List L)
    (hr : ∀ l ∈ ref, (skip l && ends' l) = true ∨ parse l = some (p l)) (her : Ended ends' ref)
    (hh : Clean read hyp) (heh : Ended ends hyp) (hne : segments ends' skip p ref ≠ [])
    (fuel : Nat) (hf : ref.length + 3 ≤ fuel) :
    alignBuffered ends read ends' skip parse reduce maxS maxW fuel ref hyp =
      alignBuffered ends read ends' skip parse reduce maxS' maxW' fuel ref hyp := by
  rw [buffered_alignment_partial ends read ends' skip parse p reduce maxS maxW hS hW ref hyp hr her hh heh hne fuel hf,
    buffered_alignment_partial ends read ends' skip parse p reduce maxS' maxW' hS' hW' ref hyp hr her hh heh hne fuel hf]

end

/-- Two recordings through tables of two segments and four words: three words, six words, one segment without words. -/
example : alignBuffered (L := Chan.Word (Nat × Nat)) (M := Chan.Utt (Nat × Nat)) (fun _ => true) (fun w => .data w) (fun _ => true)
      (fun _ => false) some false 2 4 6
      [⟨(1, 1), 0, 10, false⟩, ⟨(1, 1), 10, 20, false⟩, ⟨(2, 1), 0, 10, false⟩]
      [⟨(1, 1), 1, 1, .word "a"⟩, ⟨(1, 1), 2, 1, .word "b"⟩, ⟨(1, 1), 11, 1, .word "c"⟩, ⟨(1, 1), 12, 1, .word "d"⟩,
       ⟨(1, 1), 13, 1, .word "e"⟩, ⟨(2, 1), 1, 1, .word "f"⟩] =
    .ok [(⟨(1, 1), 0, 10, false⟩, [⟨⟨(1, 1), 1, 1, .word "a"⟩, false⟩, ⟨⟨(1, 1), 2, 1, .word "b"⟩, false⟩]),
      (⟨(1, 1), 10, 20, false⟩, [⟨⟨(1, 1), 11, 1, .word "c"⟩, false⟩, ⟨⟨(1, 1), 12, 1, .word "d"⟩, false⟩,
        ⟨⟨(1, 1), 13, 1, .word "e"⟩, false⟩]),
      (⟨(2, 1), 0, 10, false⟩, [⟨⟨(2, 1), 1, 1, .word "f"⟩, false⟩])] := by decide +kernel

/-- What is missing in `buffered_alignment_partial`: with a reference file that has no segment, the code compares with, or reports, the
first segment of the table, which has not been set; here with and without words to be aligned. -/
theorem empty_reference_undefined :
    alignBuffered (L := Chan.Word (Nat × Nat)) (M := Chan.Utt (Nat × Nat)) (fun _ => true) (fun w => .data w) (fun _ => true)
      (fun _ => false) some false 200 5000 3 [] [⟨(1, 1), 1, 1, .word "a"⟩] = .undef ∧
    alignBuffered (L := Chan.Word (Nat × Nat)) (M := Chan.Utt (Nat × Nat)) (fun _ => true) (fun w => .data w) (fun _ => true)
      (fun _ => false) some false 200 5000 3 [] [] = .undef := by
  constructor <;> rfl

/-! ## C161: lines of time-marked files -/

section
variable {N : Type} (e : Enc) (fold : List Nat → List Nat) (num : List Nat → N)

theorem isNA_iff (f : List Nat) : isNA f = true ↔ f.map (fun b => if 97 ≤ b ∧ b ≤ 122 then b - 32 else b) = [78, 65] := by
  have key : ∀ b k : Nat, 65 ≤ k → k ≤ 90 → ((if 97 ≤ b ∧ b ≤ 122 then b - 32 else b) = k ↔ b = k ∨ b = k + 32) := by
    intro b k h1 h2
    split <;> omega
  unfold isNA
  match f with
  | [] => simp
  | [a] => simp
  | [a, b] =>
    simp only [Bool.or_eq_true, beq_iff_eq, List.cons.injEq, and_true, List.map_cons, List.map_nil,
      key a 78 (by decide) (by decide), key b 65 (by decide) (by decide)]
    omega
  | a :: b :: c :: d =>
    simp only [Bool.or_eq_true, beq_iff_eq, List.cons.injEq, List.map_cons, reduceCtorEq, and_false, or_self]

theorem isPrefixOf_take (f : List Nat) : f.take 2 = [38, 38] ↔ [38, 38].isPrefixOf f = true := by
  match f with
  | [] => simp
  | [a] => simp
  | a :: b :: c =>
    simp only [List.take_succ_cons, List.take_zero, List.isPrefixOf, Bool.and_true, Bool.and_eq_true, beq_iff_eq, List.cons.injEq, and_true]
    exact ⟨fun h => ⟨h.1.symm, h.2.symm⟩, fun h => ⟨h.1.symm, h.2.symm⟩⟩

/-- **C161.**  A line of at least five fields, each shorter than 500 bytes, that does not begin with a semicolon is stored with its
first, second and fifth field, the times in the third (without the mark for bad times) and fourth, and the confidence and
correctness in the sixth and seventh, if there are such fields. -/
theorem ctm_line_partial (line : List Nat) (cs : List (List Nat)) (hline : fold line = cs.flatten) (hcom : line.head? ≠ some 59)
    (hc : ∀ c ∈ cs, IsChar e c) (hnl : ∀ c ∈ cs, 10 ∈ c → c = [10])
    (conv turn s2 s3 sp : List (List Nat)) (more : List (List (List Nat)))
    (hf : Fields (IsSep [32, 9, 10]) cs (conv :: turn :: s2 :: s3 :: sp :: more))
    (hshort : ∀ f ∈ conv :: turn :: s2 :: s3 :: sp :: more.take 2, f.flatten.length < 500) :
    ctmLine e fold num line =
      .data { conv := conv.flatten, turn := turn.flatten, t1 := timeOf num s2.flatten, bad := [38, 38].isPrefixOf s2.flatten,
              dur := num s3.flatten, sp := sp.flatten, conf := confOf num (more.map List.flatten),
              corr := (more[1]?).map (fun f => num f.flatten) } := by
  have hw := noNewline_spec e cs _ hc hnl hf
  have htok := tokens_of_words e _ _ hw
  unfold ctmLine
  rw [if_neg hcom, hline]
  dsimp only
  have hb : (if cs.flatten.getLast? = some 10 then cs.flatten.dropLast else cs.flatten) ≠ [] := by
    intro h0
    rw [h0] at hw
    obtain ⟨ds, d1, d2, d3⟩ := hw
    have hl := length_le_flatten e ds d2
    rw [← d1] at hl
    have : ds = [] := by cases ds with | nil => rfl | cons _ _ => simp at hl
    subst this
    have := d3.of_nil
    cases this
  rw [if_neg hb, htok]
  dsimp only
  rw [if_pos]
  · simp only [List.map_cons]
    have h1 : decide (s2.flatten.take 2 = [38, 38]) = [38, 38].isPrefixOf s2.flatten := by
      rw [Bool.eq_iff_iff, decide_eq_true_iff, isPrefixOf_take]
    have h2 : (if s2.flatten.take 2 = [38, 38] then num (s2.flatten.drop 2) else num s2.flatten) = timeOf num s2.flatten := by
      unfold timeOf
      simp only [isPrefixOf_take]
    have h3 : (match (more.map List.flatten).head? with
        | none => none
        | some c => if isNA c then none else some (num c)) = confOf num (more.map List.flatten) := by
      cases more.map List.flatten with
      | nil => rfl
      | cons a b =>
        show (if isNA a = true then none else some (num a)) = if _ then _ else _
        simp only [isNA_iff]
    rw [h1, h2, ← h3]
    simp only [List.getElem?_map, Option.map_map]
    congr 1
  · rw [List.all_eq_true]
    intro f hfm
    rw [decide_eq_true_iff]
    have : f ∈ (conv :: turn :: s2 :: s3 :: sp :: more.take 2).map List.flatten := by
      rw [← List.map_take] at hfm
      simpa using hfm
    obtain ⟨g, g1, g2⟩ := List.mem_map.mp this
    rw [← g2]
    exact hshort g g1

/-- What is missing in `ctm_line_partial`: a line with fewer than five fields is copied from a null pointer, although the code has
messages for it; only an entirely empty line is reported. -/
theorem ctm_few_fields_undefined (line : List Nat) (cs : List (List Nat)) (hline : fold line = cs.flatten) (hcom : line.head? ≠ some 59)
    (hc : ∀ c ∈ cs, IsChar e c) (hnl : ∀ c ∈ cs, 10 ∈ c → c = [10])
    (fs : List (List (List Nat))) (hf : Fields (IsSep [32, 9, 10]) cs fs) (hlt : fs.length < 5) :
    ctmLine e fold num line = if cs = [] ∨ cs = [[10]] then .fail else .undef := by
  have hw := noNewline_spec e cs _ hc hnl hf
  have htok := tokens_of_words e _ _ hw
  have hb : (if cs.flatten.getLast? = some 10 then cs.flatten.dropLast else cs.flatten) = [] ↔ cs = [] ∨ cs = [[10]] := by
    constructor
    · intro h0
      have hl := length_le_flatten e cs hc
      split at h0
      · rename_i h10
        have hlen := congrArg List.length h0
        rw [List.length_dropLast, List.length_nil] at hlen
        match cs with
        | [] => exact .inl rfl
        | [c] =>
          right
          have : c.getLast? = some 10 := by simpa using h10
          rw [hnl c List.mem_cons_self (List.mem_of_getLast? this)]
        | c :: d :: r => simp only [List.length_cons] at hl; omega
      · rw [h0] at hl
        left
        cases cs with
        | nil => rfl
        | cons _ _ => simp at hl
    · rintro (h | h) <;> subst h <;> rfl
  unfold ctmLine
  rw [if_neg hcom, hline]
  dsimp only
  by_cases h0 : cs = [] ∨ cs = [[10]]
  · rw [if_pos (hb.mpr h0), if_pos h0]
  · rw [if_neg (fun h => h0 (hb.mp h)), if_neg h0, htok]
    dsimp only
    split
    · match fs, hlt with
      | [], _ => rfl
      | [a], _ => rfl
      | [a, b], _ => rfl
      | [a, b, c], _ => rfl
      | [a, b, c, d], _ => rfl
      | a :: b :: c :: d :: g :: r, h => simp only [List.length_cons] at h; omega
    · rfl

end

example : ctmLine (N := List Nat) .extAscii id id (CtmIn.bytes "sw A &&1.5 0.25 hello na 1\n") =
    .data ⟨CtmIn.bytes "sw", CtmIn.bytes "A", CtmIn.bytes "1.5", true, CtmIn.bytes "0.25", CtmIn.bytes "hello", none, some (CtmIn.bytes "1")⟩ := by
  decide
/-- One semicolon makes a comment here; the readers of references ask for two. -/
example : ctmLine (N := List Nat) .extAscii id id (CtmIn.bytes "; A 1.5 0.25 hello\n") = .comment := by decide
example : ctmLine (N := List Nat) .extAscii id id (CtmIn.bytes "sw A 1.5 0.25\n") = .undef := by decide
/-- A line of a blank, and an empty line of a file with carriage returns. -/
theorem ctm_blank_line_undefined : ctmLine (N := List Nat) .extAscii id id [32, 10] = .undef ∧
    ctmLine (N := List Nat) .extAscii id id [13, 10] = .undef ∧ ctmLine (N := List Nat) .extAscii id id [10] = .fail := by decide

/-! ## C162: lines of reference segments -/

section
variable {N : Type} (e : Enc) (fold : List Nat → List Nat) (num : List Nat → N)

/-- **C162.**  A line of at least five fields is stored with its first three fields, the times in the fourth and fifth, the sixth as
label if it begins with `<`, and a text with the words that follow. -/
theorem stm_line_partial (line : List Nat) (cs : List (List Nat)) (hline : fold line = cs.flatten)
    (hc : ∀ c ∈ cs, IsChar e c) (hnl : ∀ c ∈ cs, 10 ∈ c → c = [10])
    (file chan spkr t1 t2 : List (List Nat)) (more : List (List (List Nat)))
    (hf : Fields (IsSep [32, 9, 10]) cs (file :: chan :: spkr :: t1 :: t2 :: more)) :
    ∃ text, stmLine e fold num line =
        some ⟨file.flatten, chan.flatten, spkr.flatten, num t1.flatten, num t2.flatten, labelOf more, text⟩ ∧
      HasWords e text (wordsOf more) := by
  obtain ⟨c1, a1, m1, f1⟩ := field_some e cs hc file _ hf none (some cs.flatten) rfl
  obtain ⟨c2, a2, m2, f2⟩ := field_some e c1 (fun c h => hc c (m1 c h)) chan _ f1 (some c1.flatten) none rfl
  have n2 : ∀ c ∈ c2, c ∈ cs := fun c h => m1 c (m2 c h)
  obtain ⟨c3, a3, m3, f3⟩ := field_some e c2 (fun c h => hc c (n2 c h)) spkr _ f2 (some c2.flatten) none rfl
  have n3 : ∀ c ∈ c3, c ∈ cs := fun c h => n2 c (m3 c h)
  obtain ⟨c4, a4, m4, f4⟩ := field_some e c3 (fun c h => hc c (n3 c h)) t1 _ f3 (some c3.flatten) none rfl
  have n4 : ∀ c ∈ c4, c ∈ cs := fun c h => n3 c (m4 c h)
  obtain ⟨c5, a5, m5, f5⟩ := field_some e c4 (fun c h => hc c (n4 c h)) t2 _ f4 (some c4.flatten) none rfl
  have n5 : ∀ c ∈ c5, c ∈ cs := fun c h => n4 c (m5 c h)
  obtain ⟨txt, b1, b2⟩ := labelsText_spec e cs.flatten c5 (fun c h => hc c (n5 c h)) (fun c h => hnl c (n5 c h)) more f5
  refine ⟨chopText txt, ?_, b2⟩
  unfold stmLine
  rw [hline]
  dsimp only
  rw [a1]; dsimp only
  rw [a2]; dsimp only
  rw [a3]; dsimp only
  rw [a4]; dsimp only
  rw [a5]; dsimp only
  rw [b1]

/-- What is missing in `stm_line_partial`: a line with fewer than five fields is read through a null pointer. -/
theorem stm_few_fields_undefined (line : List Nat) (cs : List (List Nat)) (hline : fold line = cs.flatten)
    (hc : ∀ c ∈ cs, IsChar e c) (fs : List (List (List Nat))) (hf : Fields (IsSep [32, 9, 10]) cs fs) (hlt : fs.length < 5) :
    stmLine e fold num line = none := by
  unfold stmLine
  rw [hline]
  dsimp only
  cases fs with
  | nil => rw [field_none e cs hc hf none (some cs.flatten) rfl]
  | cons t fs =>
  obtain ⟨c1, a1, m1, f1⟩ := field_some e cs hc t fs hf none (some cs.flatten) rfl
  rw [a1]; dsimp only
  cases fs with
  | nil => rw [field_none e c1 (fun c h => hc c (m1 c h)) f1 (some c1.flatten) none rfl]
  | cons t fs =>
  obtain ⟨c2, a2, m2, f2⟩ := field_some e c1 (fun c h => hc c (m1 c h)) t fs f1 (some c1.flatten) none rfl
  have n2 : ∀ c ∈ c2, c ∈ cs := fun c h => m1 c (m2 c h)
  rw [a2]; dsimp only
  cases fs with
  | nil => rw [field_none e c2 (fun c h => hc c (n2 c h)) f2 (some c2.flatten) none rfl]
  | cons t fs =>
  obtain ⟨c3, a3, m3, f3⟩ := field_some e c2 (fun c h => hc c (n2 c h)) t fs f2 (some c2.flatten) none rfl
  have n3 : ∀ c ∈ c3, c ∈ cs := fun c h => n2 c (m3 c h)
  rw [a3]; dsimp only
  cases fs with
  | nil => rw [field_none e c3 (fun c h => hc c (n3 c h)) f3 (some c3.flatten) none rfl]
  | cons t fs =>
  obtain ⟨c4, a4, m4, f4⟩ := field_some e c3 (fun c h => hc c (n3 c h)) t fs f3 (some c3.flatten) none rfl
  have n4 : ∀ c ∈ c4, c ∈ cs := fun c h => n3 c (m4 c h)
  rw [a4]; dsimp only
  cases fs with
  | nil => rw [field_none e c4 (fun c h => hc c (n4 c h)) f4 (some c4.flatten) none rfl]
  | cons t fs => simp only [List.length_cons] at hlt; omega

end

example : stmLine (N := List Nat) .extAscii id id (CtmIn.bytes "sw A spk 1.5 2.5 <o,f0> oh  yes\n") =
    some ⟨CtmIn.bytes "sw", CtmIn.bytes "A", CtmIn.bytes "spk", CtmIn.bytes "1.5", CtmIn.bytes "2.5", some (CtmIn.bytes "<o,f0>"),
      CtmIn.bytes "oh  yes"⟩ := by decide
example : stmLine (N := List Nat) .extAscii id id (CtmIn.bytes "sw A spk 1.5 2.5\n") =
    some ⟨CtmIn.bytes "sw", CtmIn.bytes "A", CtmIn.bytes "spk", CtmIn.bytes "1.5", CtmIn.bytes "2.5", none, []⟩ := by decide
/-- A first word that is written with `<` is taken for a label.  (A text of one word ends with a blank in place of the newline.) -/
theorem stm_word_as_label : (stmLine (N := List Nat) .extAscii id id (CtmIn.bytes "sw A spk 1.5 2.5 <unk> yes\n")).map (fun s => (s.labels, s.text)) =
    some (some (CtmIn.bytes "<unk>"), CtmIn.bytes "yes ") := by decide

/-- A line that is to be skipped is taken as a segment if it is the last one and no newline ends it: a comment gives a segment of a
recording `;;`, a blank is undefined. -/
theorem last_comment_is_segment :
    ((fillStm (fun l : List Nat => l.getLast? == some 10) stmSkip (stmLine (N := List Nat) .extAscii id id)
        (Stm.init 200 [CtmIn.bytes ";; the end of the file"])).bind fun m => .ok (m.segs.map (fun s => (s.file, s.chan)))) =
      .ok [(CtmIn.bytes ";;", CtmIn.bytes "the")] ∧
    fillStm (fun l : List Nat => l.getLast? == some 10) stmSkip (stmLine (N := List Nat) .extAscii id id)
        (Stm.init 200 [CtmIn.bytes " "]) = .undef := by decide

end Verif.Feed
