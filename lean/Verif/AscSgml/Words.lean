import Verif.AscSgml.Tags
/-!
# Reports of asclite: lemmas on lines of words
-/
set_option autoImplicit false
namespace Verif.AscSgml
open Verif.Text Verif.Lines
open Verif.Scorer (Verdict)
open Verif.Sgml (Entry LWord Ev2 Kind cut cut_spec takeWhile_stop dropWhile_stop takeWhile_all dropWhile_all loadHead loadQuoted
  assign HasUnits HasUnits.append hasUnits_ascii isUnit_sep units_of units_length)

/-! ## Auxiliary values -/

/-- The entry with these words. -/
def mk (v : Verdict) (wr wh : LWord) : Entry LWord :=
  match v with
  | .correct => .pair .corr wr wh
  | .substitution => .pair .sub wr wh
  | .speakerSub => .pair .sub wr wh
  | .deletion => .del wr
  | .insertion => .ins wh

/-- Storing one value. -/
def apply1 (x : AKind × List Nat) (en : Entry LWord) : Option (Entry LWord) :=
  match x.1 with
  | .known k => if x.2 = [] then some en else assign k x.2 en
  | _ => some en

/-- Storing values. -/
def applyAll : List (AKind × List Nat) → Entry LWord → Option (Entry LWord)
  | [], en => some en
  | x :: xs, en => (apply1 x en).bind (applyAll xs)

theorem applyAll_append (a b : List (AKind × List Nat)) (en : Entry LWord) :
    applyAll (a ++ b) en = (applyAll a en).bind (applyAll b) := by
  induction a generalizing en with
  | nil => rfl
  | cons x a ih =>
    show (apply1 x en).bind (applyAll (a ++ b)) = ((apply1 x en).bind (applyAll a)).bind (applyAll b)
    cases apply1 x en with
    | none => rfl
    | some en' => exact ih en'

/-- The text of values. -/
def itemsText (xs : List (AKind × List Nat)) : List Nat := xs.flatMap fun x => 44 :: x.2

theorem auxLoop_items (xs : List (AKind × List Nat)) (h : ∀ x ∈ xs, 44 ∉ x.2) : ∀ (fuel : Nat) (en : Entry LWord),
    (itemsText xs).length ≤ fuel → auxLoop fuel (xs.map Prod.fst) (itemsText xs) en = applyAll xs en := by
  induction xs with
  | nil =>
    intro fuel en _
    cases fuel <;> rfl
  | cons x xs ih =>
    intro fuel en hf
    have hx := h x List.mem_cons_self
    have ih := ih (fun y hy => h y (List.mem_cons_of_mem _ hy))
    have he : itemsText (x :: xs) = 44 :: (x.2 ++ itemsText xs) := rfl
    rw [he] at hf ⊢
    have hh : itemsText xs = [] ∨ ∃ r, itemsText xs = 44 :: r := by
      cases xs with
      | nil => exact Or.inl rfl
      | cons y ys => exact Or.inr ⟨_, rfl⟩
    have ht : (x.2 ++ itemsText xs).takeWhile (· ≠ 44) = x.2 := by
      rcases hh with h0 | ⟨r, h0⟩
      · rw [h0, List.append_nil, takeWhile_all 44 _ hx]
      · rw [h0, takeWhile_stop 44 _ _ hx]
    have hd : (x.2 ++ itemsText xs).dropWhile (· ≠ 44) = itemsText xs := by
      rcases hh with h0 | ⟨r, h0⟩
      · rw [h0, List.append_nil, dropWhile_all 44 _ hx]
      · rw [h0, dropWhile_stop 44 _ _ hx]
    cases fuel with
    | zero => simp at hf
    | succ fuel =>
      have hf' : (itemsText xs).length ≤ fuel := by
        simp only [List.length_cons, List.length_append] at hf; omega
      unfold auxLoop
      rw [ht, hd]
      obtain ⟨k, t⟩ := x
      rw [List.map_cons]
      cases t with
      | nil =>
        show auxLoop fuel (xs.map Prod.fst) (itemsText xs) en = (apply1 (k, []) en).bind (applyAll xs)
        rw [ih fuel en hf']
        cases k <;> rfl
      | cons c t =>
        cases k with
        | known k =>
          show (match assign k (c :: t) en with
            | none => none
            | some en' => auxLoop fuel (xs.map Prod.fst) (itemsText xs) en') =
              (if (c :: t) = [] then some en else assign k (c :: t) en).bind (applyAll xs)
          rw [if_neg (by simp)]
          cases assign k (c :: t) en with
          | none => rfl
          | some en' => exact ih fuel en' hf'
        | spkr => exact ih fuel en hf'
        | isSub => exact ih fuel en hf'

/-- The values of a token alignment with their kinds. -/
def items (o : Opts) (f : Flags) (v : Verdict) (ref hyp : Option Tok) : List (AKind × List Nat) :=
  (if f.refT then [(.known .rTimes, timesText ref)] else []) ++ ((if f.hypT then [(.known .hTimes, timesText hyp)] else []) ++
  ((if f.refC then [(.known .rConf, confText ref)] else []) ++ ((if f.hypC then [(.known .hConf, confText hyp)] else []) ++
  (if o.spkOpt then [(.spkr, hyp.elim [] Tok.spk), (.isSub, if hyp.isSome then boolText (v = .speakerSub) else [])] else []))))

/-- The declared kinds. -/
def kinds (o : Opts) (f : Flags) : List AKind :=
  (if f.refT then [.known .rTimes] else []) ++ ((if f.hypT then [.known .hTimes] else []) ++
  ((if f.refC then [.known .rConf] else []) ++ ((if f.hypC then [.known .hConf] else []) ++
  (if o.spkOpt then [.spkr, .isSub] else []))))

theorem items_text (o : Opts) (f : Flags) (v : Verdict) (ref hyp : Option Tok) : itemsText (items o f v ref hyp) = auxText o f v ref hyp := by
  unfold items auxText itemsText
  cases f.refT <;> cases f.hypT <;> cases f.refC <;> cases f.hypC <;> cases o.spkOpt <;> simp

theorem items_kinds (o : Opts) (f : Flags) (v : Verdict) (ref hyp : Option Tok) : (items o f v ref hyp).map Prod.fst = kinds o f := by
  unfold items kinds
  cases f.refT <;> cases f.hypT <;> cases f.refC <;> cases f.hypC <;> cases o.spkOpt <;> rfl

/-- The times of a token as texts. -/
def timesOf (k : Option Tok) : Option (List Nat × List Nat) :=
  k.bind fun k => if timeReal k.start k.stop then some (secs k.start, secs k.stop) else none

theorem timesText_cut (k : Option Tok) : (timesText k = [] ∧ timesOf k = none) ∨
    ∃ t, timesText k ≠ [] ∧ cut 43 (timesText k) = some t ∧ timesOf k = some t := by
  cases k with
  | none => exact Or.inl ⟨rfl, rfl⟩
  | some k =>
    show ((if timeReal k.start k.stop then secs k.start ++ 43 :: secs k.stop else []) = [] ∧
      (if timeReal k.start k.stop then some (secs k.start, secs k.stop) else none) = none) ∨
      ∃ t, (if timeReal k.start k.stop then secs k.start ++ 43 :: secs k.stop else []) ≠ [] ∧
        cut 43 (if timeReal k.start k.stop then secs k.start ++ 43 :: secs k.stop else []) = some t ∧
        (if timeReal k.start k.stop then some (secs k.start, secs k.stop) else none) = some t
    cases timeReal k.start k.stop with
    | false => exact Or.inl ⟨rfl, rfl⟩
    | true =>
      refine Or.inr ⟨(secs k.start, secs k.stop), by simp, ?_, rfl⟩
      exact cut_spec 43 _ _ (fun hm => by have := (secs_number k.start).2 43 hm; omega)

theorem apply_rTimes (v : Verdict) (wr wh : LWord) (k : Option Tok) (hw : wr.times = none) :
    apply1 (.known .rTimes, timesText k) (mk v wr wh) = some (mk v { wr with times := timesOf k } wh) := by
  rcases timesText_cut k with ⟨h1, h2⟩ | ⟨t, h1, h2, h3⟩
  · rw [h1, h2]
    obtain ⟨a, b, c, d⟩ := wr
    cases hw
    rfl
  · show (if timesText k = [] then _ else assign .rTimes (timesText k) (mk v wr wh)) = _
    rw [if_neg h1, h3]
    cases v <;> simp [assign, mk, Entry.ref, Entry.mapRef, h2]

theorem apply_hTimes (v : Verdict) (wr wh : LWord) (k : Option Tok) (hw : wh.times = none) :
    apply1 (.known .hTimes, timesText k) (mk v wr wh) = some (mk v wr { wh with times := timesOf k }) := by
  rcases timesText_cut k with ⟨h1, h2⟩ | ⟨t, h1, h2, h3⟩
  · rw [h1, h2]
    obtain ⟨a, b, c, d⟩ := wh
    cases hw
    rfl
  · show (if timesText k = [] then _ else assign .hTimes (timesText k) (mk v wr wh)) = _
    rw [if_neg h1, h3]
    cases v <;> simp [assign, mk, Entry.hyp, Entry.mapHyp, h2]

/-- The confidence of a token. -/
def confOf (k : Option Tok) : Option (List Nat) := k.bind Tok.conf

theorem confText_cases (k : Option Tok) (h : ∀ x, k = some x → TokOk x) : (confText k = [] ∧ confOf k = none) ∨
    (confText k ≠ [] ∧ confOf k = some (confText k)) := by
  cases k with
  | none => exact Or.inl ⟨rfl, rfl⟩
  | some k =>
    show (k.conf.getD [] = [] ∧ k.conf = none) ∨ (k.conf.getD [] ≠ [] ∧ k.conf = some (k.conf.getD []))
    cases hc : k.conf with
    | none => exact Or.inl ⟨rfl, rfl⟩
    | some c => exact Or.inr ⟨((h k rfl).conf c hc).1, rfl⟩

theorem apply_rConf (v : Verdict) (wr wh : LWord) (k : Option Tok) (h : ∀ x, k = some x → TokOk x) (hw : wr.conf = none) :
    apply1 (.known .rConf, confText k) (mk v wr wh) = some (mk v { wr with conf := confOf k } wh) := by
  rcases confText_cases k h with ⟨h1, h2⟩ | ⟨h1, h2⟩
  · rw [h1, h2]
    obtain ⟨a, b, c, d⟩ := wr
    cases hw
    rfl
  · show (if confText k = [] then _ else assign .rConf (confText k) (mk v wr wh)) = _
    rw [if_neg h1, h2]
    cases v <;> simp [assign, mk, Entry.mapRef]

theorem apply_hConf (v : Verdict) (wr wh : LWord) (k : Option Tok) (h : ∀ x, k = some x → TokOk x) (hw : wh.conf = none) :
    apply1 (.known .hConf, confText k) (mk v wr wh) = some (mk v wr { wh with conf := confOf k }) := by
  rcases confText_cases k h with ⟨h1, h2⟩ | ⟨h1, h2⟩
  · rw [h1, h2]
    obtain ⟨a, b, c, d⟩ := wh
    cases hw
    rfl
  · show (if confText k = [] then _ else assign .hConf (confText k) (mk v wr wh)) = _
    rw [if_neg h1, h2]
    cases v <;> simp [assign, mk, Entry.mapHyp]

/-- The word that is read for a token. -/
def readWord (cs hasT hasC : Bool) (k : Option Tok) : LWord :=
  ⟨(k.map (shown cs)).getD [], if hasT then timesOf k else none, if hasC then confOf k else none, none⟩

theorem applyAll_spec (o : Opts) (f : Flags) (v : Verdict) (ref hyp : Option Tok) (hr : ∀ x, ref = some x → TokOk x)
    (hh : ∀ x, hyp = some x → TokOk x) :
    applyAll (items o f v ref hyp) (mk v (readWord o.caseSens false false ref) (readWord o.caseSens false false hyp)) =
      some (mk v (readWord o.caseSens f.refT f.refC ref) (readWord o.caseSens f.hypT f.hypC hyp)) := by
  unfold items
  rw [applyAll_append]
  have h1 : applyAll (if f.refT then [(AKind.known .rTimes, timesText ref)] else [])
      (mk v (readWord o.caseSens false false ref) (readWord o.caseSens false false hyp)) =
      some (mk v (readWord o.caseSens f.refT false ref) (readWord o.caseSens false false hyp)) := by
    cases f.refT with
    | false => rfl
    | true =>
      show (apply1 _ _).bind _ = _
      rw [apply_rTimes _ _ _ _ rfl]
      rfl
  rw [h1, Option.bind_some, applyAll_append]
  have h2 : applyAll (if f.hypT then [(AKind.known .hTimes, timesText hyp)] else [])
      (mk v (readWord o.caseSens f.refT false ref) (readWord o.caseSens false false hyp)) =
      some (mk v (readWord o.caseSens f.refT false ref) (readWord o.caseSens f.hypT false hyp)) := by
    cases f.hypT with
    | false => rfl
    | true =>
      show (apply1 _ _).bind _ = _
      rw [apply_hTimes _ _ _ _ rfl]
      rfl
  rw [h2, Option.bind_some, applyAll_append]
  have h3 : applyAll (if f.refC then [(AKind.known .rConf, confText ref)] else [])
      (mk v (readWord o.caseSens f.refT false ref) (readWord o.caseSens f.hypT false hyp)) =
      some (mk v (readWord o.caseSens f.refT f.refC ref) (readWord o.caseSens f.hypT false hyp)) := by
    cases f.refC with
    | false => rfl
    | true =>
      show (apply1 _ _).bind _ = _
      rw [apply_rConf _ _ _ _ hr rfl]
      rfl
  rw [h3, Option.bind_some, applyAll_append]
  have h4 : applyAll (if f.hypC then [(AKind.known .hConf, confText hyp)] else [])
      (mk v (readWord o.caseSens f.refT f.refC ref) (readWord o.caseSens f.hypT false hyp)) =
      some (mk v (readWord o.caseSens f.refT f.refC ref) (readWord o.caseSens f.hypT f.hypC hyp)) := by
    cases f.hypC with
    | false => rfl
    | true =>
      show (apply1 _ _).bind _ = _
      rw [apply_hConf _ _ _ _ hh rfl]
      rfl
  rw [h4, Option.bind_some]
  cases o.spkOpt <;> rfl

theorem timesText_aux (k : Option Tok) : ∀ x ∈ timesText k, Sgml.AuxByte x := by
  cases k with
  | none => intro x hx; cases hx
  | some k =>
    intro x hx
    have hx : x ∈ (if timeReal k.start k.stop then secs k.start ++ 43 :: secs k.stop else []) := hx
    cases h : timeReal k.start k.stop with
    | false => rw [h] at hx; cases hx
    | true =>
      rw [h] at hx
      rcases List.mem_append.1 hx with hx | hx
      · exact Sgml.number_aux (secs_number _) x hx
      · rcases List.mem_cons.1 hx with rfl | hx
        · unfold Sgml.AuxByte; omega
        · exact Sgml.number_aux (secs_number _) x hx

theorem confText_aux (k : Option Tok) (h : ∀ x, k = some x → TokOk x) : ∀ x ∈ confText k, Sgml.AuxByte x := by
  cases k with
  | none => intro x hx; cases hx
  | some k =>
    intro x hx
    have hx : x ∈ k.conf.getD [] := hx
    cases hc : k.conf with
    | none => rw [hc] at hx; cases hx
    | some c =>
      rw [hc] at hx
      exact Sgml.number_aux ((h k rfl).conf c hc) x hx

theorem items_aux (o : Opts) (f : Flags) (v : Verdict) (ref hyp : Option Tok) (hr : ∀ x, ref = some x → TokOk x)
    (hh : ∀ x, hyp = some x → TokOk x) : ∀ x ∈ items o f v ref hyp, ∀ b ∈ x.2, Sgml.AuxByte b := by
  intro x hx
  unfold items at hx
  simp only [List.mem_append] at hx
  rcases hx with hx | hx | hx | hx | hx
  · cases hf : f.refT <;> rw [hf] at hx
    · cases hx
    · rw [if_pos rfl, List.mem_singleton] at hx; subst hx; exact timesText_aux ref
  · cases hf : f.hypT <;> rw [hf] at hx
    · cases hx
    · rw [if_pos rfl, List.mem_singleton] at hx; subst hx; exact timesText_aux hyp
  · cases hf : f.refC <;> rw [hf] at hx
    · cases hx
    · rw [if_pos rfl, List.mem_singleton] at hx; subst hx; exact confText_aux ref hr
  · cases hf : f.hypC <;> rw [hf] at hx
    · cases hx
    · rw [if_pos rfl, List.mem_singleton] at hx; subst hx; exact confText_aux hyp hh
  · cases hf : o.spkOpt <;> rw [hf] at hx
    · cases hx
    · rw [if_pos rfl] at hx
      rcases List.mem_cons.1 hx with rfl | hx
      · cases hyp with
        | none => intro b hb; cases hb
        | some k => intro b hb; exact (hh k rfl).spk b hb
      · rw [List.mem_singleton] at hx
        subst hx
        intro b hb
        have : b ∈ boolText true ∨ b ∈ boolText false := by
          cases hyp with
          | none => cases hb
          | some k =>
            have hb : b ∈ boolText (decide (v = Verdict.speakerSub)) := hb
            cases hd : decide (v = Verdict.speakerSub) with
            | true => rw [hd] at hb; exact Or.inl hb
            | false => rw [hd] at hb; exact Or.inr hb
        have hall : ∀ b ∈ boolText true ++ boolText false, 0 < b ∧ b < 128 ∧ b ≠ 34 ∧ b ≠ 44 ∧ b ≠ 58 ∧ b ≠ 10 := by decide
        exact hall b (List.mem_append.2 this)

/-! ## Entries -/

theorem shown_ok (cs : Bool) (k : Tok) (h : TokOk k) : ∀ x ∈ shown cs k, x ≠ 34 ∧ x ≠ 10 ∧ x ≠ 0 := by
  intro x hx
  unfold shown at hx
  simp only [List.mem_append] at hx
  rcases hx with (((hx | hx) | hx) | hx) | hx
  · split at hx <;> simp at hx; omega
  · split at hx <;> simp at hx; omega
  · exact h.text x (by
      cases cs with
      | true => exact List.mem_append_left _ hx
      | false => exact List.mem_append_right _ hx)
  · split at hx <;> simp at hx; omega
  · split at hx <;> simp at hx; omega

theorem loadQuoted_text (t : List Nat) (h : 34 ∉ t) (r : List Nat) : loadQuoted (44 :: (34 :: t ++ [34] ++ r)) = some (t, r) := by
  unfold loadQuoted
  simp only [List.cons_append, List.append_assoc, List.nil_append]
  exact cut_spec 34 _ _ h

/-- The head of an entry with words in quotes. -/
theorem side_quoted (cs : Bool) (v : Verdict) (k : Option Tok) (h : k.isSome ∨ v = .correct) :
    side cs v k = 34 :: (k.map (shown cs)).getD [] ++ [34] := by
  cases k with
  | some k => rfl
  | none =>
    rcases h with h | h
    · cases h
    · subst h; rfl

theorem noQuote (cs : Bool) (k : Option Tok) (h : ∀ x, k = some x → TokOk x) : 34 ∉ (k.map (shown cs)).getD [] := by
  cases k with
  | none => simp
  | some k => exact fun hm => (shown_ok cs k (h k rfl) 34 hm).1 rfl

theorem loadHead_spec (cs : Bool) (v : Verdict) (ref hyp : Option Tok) (hj : Judged v ref hyp) (hr : ∀ x, ref = some x → TokOk x)
    (hh : ∀ x, hyp = some x → TokOk x) (r : List Nat) (hrest : r = [] ∨ r.head? = some 44) :
    loadHead (letter v :: 44 :: side cs v ref ++ 44 :: side cs v hyp ++ r) =
      some (mk v (readWord cs false false ref) (readWord cs false false hyp), r) := by
  have q1 := noQuote cs ref hr
  have q2 := noQuote cs hyp hh
  have pair : ∀ (w : Verdict) (ev : Ev2) (c : Nat), c ≠ 73 → c ≠ 68 →
      (if c = 83 then some Ev2.sub else if c = 67 then some .corr else if c = 77 then some .mrg
        else if c = 84 then some .spl else none) = some ev → (ref.isSome ∨ w = .correct) → (hyp.isSome ∨ w = .correct) →
      loadHead (c :: 44 :: side cs w ref ++ 44 :: side cs w hyp ++ r) =
        some (.pair ev (readWord cs false false ref) (readWord cs false false hyp), r) := by
    intro w ev c c1 c2 hev s1 s2
    have e1 : c :: 44 :: side cs w ref ++ 44 :: side cs w hyp ++ r =
        c :: (44 :: (34 :: (ref.map (shown cs)).getD [] ++ [34] ++ (44 :: (34 :: (hyp.map (shown cs)).getD [] ++ [34] ++ r)))) := by
      rw [side_quoted cs w ref s1, side_quoted cs w hyp s2]
      simp
    rw [e1]
    have hu : ∀ p : List Nat, loadHead (c :: p) = (match loadQuoted p with
        | none => none
        | some (v, r) => (loadQuoted r).map fun x => (.pair ev (.new v) (.new x.1), x.2)) := by
      intro p
      unfold loadHead
      dsimp only
      rw [if_neg c1, if_neg c2, hev]
      rfl
    rw [hu, loadQuoted_text _ q1]
    dsimp only
    rw [loadQuoted_text _ q2]
    rfl
  cases v with
  | correct => exact pair .correct .corr 67 (by decide) (by decide) rfl (Or.inr rfl) (Or.inr rfl)
  | substitution => exact pair .substitution .sub 83 (by decide) (by decide) rfl (Or.inl hj.1) (Or.inl hj.2)
  | speakerSub => exact pair .speakerSub .sub 83 (by decide) (by decide) rfl (Or.inl hj.1) (Or.inl hj.2)
  | deletion =>
    obtain ⟨j1, j2⟩ := hj
    subst j2
    have e1 : letter .deletion :: 44 :: side cs .deletion ref ++ 44 :: side cs .deletion none ++ r =
        68 :: (44 :: (34 :: (ref.map (shown cs)).getD [] ++ [34] ++ (44 :: r))) := by
      rw [side_quoted cs .deletion ref (Or.inl j1)]
      simp [side, letter]
    rw [e1]
    show (match loadQuoted (44 :: (34 :: (ref.map (shown cs)).getD [] ++ [34] ++ (44 :: r))) with
      | some (v, _ :: r) => if r.head? = some 44 ∨ r = [] then some (Entry.del (LWord.new v), r) else none
      | _ => none) = _
    rw [loadQuoted_text _ q1]
    dsimp only
    rw [if_pos (by rcases hrest with h | h; exact Or.inr h; exact Or.inl h)]
    rfl
  | insertion =>
    obtain ⟨j1, j2⟩ := hj
    subst j1
    have e1 : letter .insertion :: 44 :: side cs .insertion none ++ 44 :: side cs .insertion hyp ++ r =
        73 :: 44 :: 44 :: (34 :: (hyp.map (shown cs)).getD [] ++ [34] ++ r) := by
      rw [side_quoted cs .insertion hyp (Or.inl j2)]
      simp [side, letter]
    rw [e1]
    show (loadQuoted (44 :: (34 :: (hyp.map (shown cs)).getD [] ++ [34] ++ r))).map (fun x => (Entry.ins (LWord.new x.1), x.2)) = _
    rw [loadQuoted_text _ q2]
    rfl

/-- The kinds known to the reader when it reads the values: those declared, or anything if none are declared. -/
def KindsFor (o : Opts) (f : Flags) (ks : List AKind) : Prop := ks = kinds o f ∨ kinds o f = []

/-- One element is read as it was written. -/
theorem loadEntry_spec (o : Opts) (f : Flags) (ks : List AKind) (hk : KindsFor o f ks) (v : Verdict) (ref hyp : Option Tok)
    (hj : Judged v ref hyp) (hr : ∀ x, ref = some x → TokOk x) (hh : ∀ x, hyp = some x → TokOk x) :
    loadEntry ks (letter v :: 44 :: side o.caseSens v ref ++ 44 :: side o.caseSens v hyp ++ auxText o f v ref hyp) =
      some (mk v (readWord o.caseSens f.refT f.refC ref) (readWord o.caseSens f.hypT f.hypC hyp)) := by
  have hall := applyAll_spec o f v ref hyp hr hh
  have hit := items_aux o f v ref hyp hr hh
  have hno : ∀ x ∈ items o f v ref hyp, 44 ∉ x.2 := fun x hx hm => (hit x hx 44 hm).2.2.2.1 rfl
  rw [← items_text]
  have hhead : itemsText (items o f v ref hyp) = [] ∨ (itemsText (items o f v ref hyp)).head? = some 44 := by
    cases items o f v ref hyp with
    | nil => exact Or.inl rfl
    | cons x xs => exact Or.inr rfl
  unfold loadEntry
  rw [loadHead_spec o.caseSens v ref hyp hj hr hh _ hhead]
  dsimp only
  have hkeq := items_kinds o f v ref hyp
  rcases hk with hk | hk
  · by_cases h0 : ks = []
    · rw [if_pos h0]
      have : items o f v ref hyp = [] := by
        rw [← hk, h0] at hkeq
        exact List.map_eq_nil_iff.1 hkeq
      rw [this] at hall
      exact hall
    · rw [if_neg h0, hk, ← hkeq, auxLoop_items _ hno _ _ (Nat.le_refl _)]
      exact hall
  · have h0 : items o f v ref hyp = [] := by
      rw [hk] at hkeq
      exact List.map_eq_nil_iff.1 hkeq
    rw [h0] at hall ⊢
    have hall : some (mk v (readWord o.caseSens false false ref) (readWord o.caseSens false false hyp)) = _ := hall
    rw [← hall]
    by_cases h0 : ks = []
    · rw [if_pos h0]
    · rw [if_neg h0]
      rfl

theorem hasUnits_quoted (e : Enc) (t : List Nat) (h : 34 ∉ t) : HasUnits e (34 :: t ++ [34]) := by
  refine ⟨[34 :: t ++ [34]], by simp, ?_⟩
  intro u hu
  rw [List.mem_singleton] at hu
  subst hu
  refine ⟨Or.inr ⟨_, rfl, h⟩, ?_, by simp⟩
  rintro ⟨b, hb, _⟩
  simp at hb

theorem hasUnits_side (e : Enc) (cs : Bool) (v : Verdict) (k : Option Tok) (h : ∀ x, k = some x → TokOk x) : HasUnits e (side cs v k) := by
  cases k with
  | some k => exact hasUnits_quoted e _ fun hm => (shown_ok cs k (h k rfl) 34 hm).1 rfl
  | none =>
    show HasUnits e (if v = .correct then [34, 34] else [])
    split
    · exact hasUnits_quoted e [] (by simp)
    · exact ⟨[], rfl, by simp⟩

theorem hasUnits_line (e : Enc) (o : Opts) (f : Flags) (v : Verdict) (ref hyp : Option Tok) (hr : ∀ x, ref = some x → TokOk x)
    (hh : ∀ x, hyp = some x → TokOk x) :
    HasUnits e (letter v :: 44 :: side o.caseSens v ref ++ 44 :: side o.caseSens v hyp ++ auxText o f v ref hyp) := by
  have e1 : letter v :: 44 :: side o.caseSens v ref ++ 44 :: side o.caseSens v hyp ++ auxText o f v ref hyp =
      ([letter v, 44] ++ side o.caseSens v ref) ++ ([44] ++ side o.caseSens v hyp) ++ auxText o f v ref hyp := by simp
  rw [e1]
  refine HasUnits.append (HasUnits.append (HasUnits.append (hasUnits_ascii e _ ?_) (hasUnits_side e _ v ref hr))
    (HasUnits.append (hasUnits_ascii e _ (by decide)) (hasUnits_side e _ v hyp hh))) (hasUnits_ascii e _ ?_)
  · cases v <;> decide
  · rw [← items_text]
    intro x hx
    unfold itemsText at hx
    obtain ⟨y, hy, hx⟩ := List.mem_flatMap.1 hx
    rcases List.mem_cons.1 hx with rfl | hx
    · omega
    · have := items_aux o f v ref hyp hr hh y hy x hx
      exact ⟨this.1, this.2.1, this.2.2.1, this.2.2.2.2.1, this.2.2.2.2.2⟩

/-! ## Lines -/

/-- Texts with colons between them and a newline at the end. -/
def joined : List (List Nat) → List Nat
  | [] => [10]
  | [t] => t ++ [10]
  | t :: ts => t ++ 58 :: joined ts

theorem joined_units (e : Enc) (ts : List (List Nat)) (h : ∀ t ∈ ts, HasUnits e t ∧ t ≠ []) :
    ∃ (us : List (List Nat)) (fs : List (List (List Nat))), us.flatten = joined ts ∧ (∀ u ∈ us, IsUnit e u ∧ u ≠ []) ∧
      Fields (IsSep [58, 10]) us fs ∧ fs.map List.flatten = ts := by
  have step : ∀ (t : List Nat) (b : Nat) (us : List (List Nat)) (fs : List (List (List Nat))), (HasUnits e t ∧ t ≠ []) →
      (b = 58 ∨ b = 10) → (∀ u ∈ us, IsUnit e u ∧ u ≠ []) → Fields (IsSep [58, 10]) us fs →
      ∃ vs g, vs.flatten = t ++ b :: us.flatten ∧ (∀ u ∈ vs, IsUnit e u ∧ u ≠ []) ∧
        Fields (IsSep [58, 10]) vs (g :: fs) ∧ g.flatten = t := by
    intro t b us fs ht hb hus hf
    obtain ⟨⟨g, h1, h2⟩, h0⟩ := ht
    have hsep := isUnit_sep e b hb
    refine ⟨g ++ [b] :: us, g, by simp [h1], ?_, .tok ?_ (fun x hx => (h2 x hx).2.1) hsep.2 hf, h1⟩
    · intro u hu
      rcases List.mem_append.1 hu with h | h
      · exact ⟨(h2 u h).1, (h2 u h).2.2⟩
      · rcases List.mem_cons.1 h with rfl | h
        · exact ⟨hsep.1, by simp⟩
        · exact hus u h
    · rintro rfl
      exact h0 h1.symm
  induction ts with
  | nil =>
    have hsep := isUnit_sep e 10 (Or.inr rfl)
    exact ⟨[[10]], [], rfl, by intro u hu; rw [List.mem_singleton] at hu; rw [hu]; exact ⟨hsep.1, by simp⟩, .skip hsep.2 .nil, rfl⟩
  | cons t ts ih =>
    cases ts with
    | nil =>
      obtain ⟨vs, g, h1, h2, h3, h4⟩ := step t 10 [] [] (h t List.mem_cons_self) (Or.inr rfl) (by simp) .nil
      exact ⟨vs, [g], h1, h2, h3, by simp [h4]⟩
    | cons t' ts =>
      obtain ⟨us, fs, g1, g2, g3, g4⟩ := ih (fun x hx => h x (List.mem_cons_of_mem _ hx))
      obtain ⟨vs, g, h1, h2, h3, h4⟩ := step t 58 us fs (h t List.mem_cons_self) (Or.inl rfl) g2 g3
      refine ⟨vs, g :: fs, ?_, h2, h3, by rw [List.map_cons, h4, g4]⟩
      rw [h1, g1]
      rfl

/-- The texts of a line are the tokens of the reader. -/
theorem tokens_joined (e : Enc) (ts : List (List Nat)) (h : ∀ t ∈ ts, HasUnits e t ∧ t ≠ []) :
    strqtokAll e [58, 10] ((joined ts).length + 1) none (some (joined ts)) = some ts := by
  obtain ⟨us, fs, h1, h2, h3, h4⟩ := joined_units e ts h
  rw [← h1]
  obtain ⟨ts', g1, g2⟩ := strqtokAll_spec e [58, 10] (by decide) (by decide) us (units_of fun u hu => (h2 u hu).1) none
    (some us.flatten) rfl (us.flatten.length + 1) (by have := units_length fun u hu => (h2 u hu).2; omega)
  rw [g1, g2.unique h3, h4]

/-- The scored parts of a token alignment. -/
def Ready (sys : List Nat) (t : TA) (ev : Eval) (v : Verdict) : Prop :=
  t.get sys = some ev ∧ ev.res = some v ∧ Judged v t.ref ev.tok ∧ (∀ k, t.ref = some k → TokOk k) ∧ ∀ k, ev.tok = some k → TokOk k

/-- What is read for a token alignment. -/
def readTA (o : Opts) (f : Flags) (sys : List Nat) (t : TA) : Entry LWord :=
  match t.get sys with
  | some ev =>
    match ev.res with
    | some v => mk v (readWord o.caseSens f.refT f.refC t.ref) (readWord o.caseSens f.hypT f.hypC ev.tok)
    | none => .ins (LWord.new [])
  | none => .ins (LWord.new [])

/-- The line of a path is read as it was written. -/
theorem loadLine_spec (e : Enc) (o : Opts) (f : Flags) (sys : List Nat) (ks : List AKind) (hk : KindsFor o f ks) (ts : List TA)
    (h : ∀ t ∈ ts, ∃ ev v, Ready sys t ev v) :
    ∃ l, tokLines o f sys ts = some l ∧ loadLine e ks (l ++ [10]) = some (ts.map (readTA o f sys)) ∧
      (∀ b ∈ l, b ≠ 10 ∧ b ≠ 0) ∧ l.head? ≠ some 60 := by
  have htok : ∀ t ∈ ts, ∃ l, tokLine o f sys t = some l ∧ HasUnits e l ∧ l ≠ [] ∧ loadEntry ks l = some (readTA o f sys t) ∧
      (∀ b ∈ l, b ≠ 10 ∧ b ≠ 0) ∧ l.head? ≠ some 60 := by
    intro t ht
    obtain ⟨ev, v, h1, h2, h3, h4, h5⟩ := h t ht
    refine ⟨_, by unfold tokLine; rw [h1]; dsimp only; rw [h2], hasUnits_line e o f v t.ref ev.tok h4 h5, by simp, ?_, ?_, ?_⟩
    · rw [loadEntry_spec o f ks hk v t.ref ev.tok h3 h4 h5]
      unfold readTA
      rw [h1]
      dsimp only
      rw [h2]
    · intro b hb
      simp only [List.mem_append, List.mem_cons] at hb
      have hside : ∀ k, (∀ x, k = some x → TokOk x) → b ∈ side o.caseSens v k → b ≠ 10 ∧ b ≠ 0 := by
        intro k hok hm
        cases k with
        | none =>
          have hm : b ∈ (if v = .correct then [34, 34] else []) := hm
          split at hm
          · simp at hm; omega
          · cases hm
        | some k =>
          have hm : b ∈ 34 :: shown o.caseSens k ++ [34] := hm
          rcases List.mem_append.1 hm with hm | hm
          · rcases List.mem_cons.1 hm with rfl | hm
            · omega
            · exact (shown_ok o.caseSens k (hok k rfl) b hm).2
          · rw [List.mem_singleton] at hm; omega
      rcases hb with ((rfl | rfl | hb) | rfl | hb) | hb
      · cases v <;> decide
      · omega
      · exact hside t.ref h4 hb
      · omega
      · exact hside ev.tok h5 hb
      · rw [← items_text] at hb
        obtain ⟨y, hy, hb⟩ := List.mem_flatMap.1 hb
        rcases List.mem_cons.1 hb with rfl | hb
        · omega
        · have := items_aux o f v t.ref ev.tok h4 h5 y hy b hb
          unfold Sgml.AuxByte at this
          omega
    · cases v <;> simp [letter]
  have hjoin : ∀ ts : List TA, (∀ t ∈ ts, ∃ l, tokLine o f sys t = some l ∧ HasUnits e l ∧ l ≠ [] ∧
        loadEntry ks l = some (readTA o f sys t) ∧ (∀ b ∈ l, b ≠ 10 ∧ b ≠ 0) ∧ l.head? ≠ some 60) →
      ∃ (l : List Nat) (xs : List (List Nat)), tokLines o f sys ts = some l ∧ l ++ [10] = joined xs ∧ (∀ x ∈ xs, HasUnits e x ∧ x ≠ []) ∧
        loadEntries ks xs = some (ts.map (readTA o f sys)) ∧ (∀ b ∈ l, b ≠ 10 ∧ b ≠ 0) ∧ l.head? ≠ some 60 ∧ xs.length = ts.length := by
    intro ts
    induction ts with
    | nil =>
      intro _
      exact ⟨[], [], rfl, rfl, by simp, rfl, by simp, by simp, rfl⟩
    | cons t ts ih =>
      intro hts
      obtain ⟨l, a1, a2, a3, a4, a5, a6⟩ := hts t List.mem_cons_self
      obtain ⟨l', xs, b1, b2, b3, b4, b5, b6, b7⟩ := ih fun x hx => hts x (List.mem_cons_of_mem _ hx)
      have hload : loadEntries ks (l :: xs) = some ((t :: ts).map (readTA o f sys)) := by
        show (match loadEntry ks l with
          | none => none
          | some en => (loadEntries ks xs).map (en :: ·)) = _
        rw [a4]
        dsimp only
        rw [b4]
        rfl
      have hmem : ∀ x ∈ l :: xs, HasUnits e x ∧ x ≠ [] := by
        intro x hx
        rcases List.mem_cons.1 hx with rfl | hx
        · exact ⟨a2, a3⟩
        · exact b3 x hx
      cases ts with
      | nil =>
        have : xs = [] := List.eq_nil_of_length_eq_zero b7
        subst this
        exact ⟨l, [l], a1, rfl, hmem, hload, a5, a6, rfl⟩
      | cons t' ts =>
        refine ⟨l ++ 58 :: l', l :: xs, ?_, ?_, hmem, hload, ?_, ?_, by simp [b7]⟩
        · show (match tokLine o f sys t, tokLines o f sys (t' :: ts) with
            | some a, some b => some (a ++ 58 :: b)
            | _, _ => none) = _
          rw [a1, b1]
        · cases xs with
          | nil => simp at b7
          | cons x xs =>
            show _ = l ++ 58 :: joined (x :: xs)
            rw [← b2]
            simp
        · intro b hb
          rcases List.mem_append.1 hb with hb | hb
          · exact a5 b hb
          · rcases List.mem_cons.1 hb with rfl | hb
            · omega
            · exact b5 b hb
        · cases l with
          | nil => exact absurd rfl a3
          | cons c l => exact a6
  obtain ⟨l, xs, b1, b2, b3, b4, b5, b6, _⟩ := hjoin ts htok
  refine ⟨l, b1, ?_, b5, b6⟩
  unfold loadLine
  rw [b2, tokens_joined e xs b3]
  exact b4

end Verif.AscSgml
