import Verif.RttmIn.Spec
import Verif.StmIn.Ids
import Verif.CtmIn.Run
/-!
# One word per segment
-/
set_option autoImplicit false
namespace Verif.RttmIn
open Verif.Lines (cstr cstr_eq)
open Verif.CtmIn (Fields Word Out wordsFrom wordsFrom_fields)
open Verif.StmIn (InCase Grouped inCase_iff lower insert count under insert_under insert_keys insert_sorted count_eq under_mem)

theorem scanN_line {n : Nat} {line : List Nat} {fs : List (List Nat)} (h : Line n line fs) : scanN n line = some (fs.take n) := by
  rw [scanN, cstr_eq (fun c hc e => h.2.1 (e ▸ hc)), wordsFrom_fields h.1]
  refine if_neg ?_
  rw [List.any_eq_true]
  rintro ⟨f, hf, hl⟩
  have := h.2.2 f hf
  simp only [decide_eq_true_eq] at hl
  omega

theorem names_iff {K : List (List Nat)} {N : List String} (hl : ∀ g ∈ N, ∀ b ∈ txt g, ¬ (65 ≤ b ∧ b ≤ 90)) (h1 : ∀ x ∈ K, ∃ g ∈ N, x = txt g)
    (h2 : ∀ g ∈ N, txt g ∈ K) (t : List Nat) : lower t ∈ K ↔ OneOf N t := by
  constructor
  · intro h
    obtain ⟨g, hg, he⟩ := h1 _ h
    exact ⟨g, hg, (inCase_iff (hl g hg)).2 he⟩
  · rintro ⟨g, hg, h⟩
    rw [(inCase_iff (hl g hg)).1 h]
    exact h2 g hg

theorem kind_iff (t : List Nat) : lower t ∈ kinds ↔ OneOf wordKinds t := names_iff (by decide) (by decide) (by decide) t

theorem opt_iff (t : List Nat) : lower t ∈ optKinds ↔ OneOf optionalKinds t := names_iff (by decide) (by decide) (by decide) t

theorem take_iff {m l : List Nat} {n : Nat} (hn : m.length = n) : l.take n = m ↔ m <+: l := by
  rw [List.prefix_iff_eq_take, hn]
  exact eq_comm

theorem lexeme_iff {l : List Nat} : l.take 6 = kwLexeme ↔ txt "LEXEME" <+: l := by
  rw [show txt "LEXEME" = kwLexeme from by decide]
  exact take_iff rfl

theorem speaker_iff {l : List Nat} : l.take 7 = kwSpeaker ↔ txt "SPEAKER" <+: l := by
  rw [show txt "SPEAKER" = kwSpeaker from by decide]
  exact take_iff rfl

theorem conf_eq {cf : List Nat} {c : Option (List Nat)} (h : Conf cf c) : c = if cf = noConf then none else some cf := by
  rw [show noConf = txt "<NA>" from by decide]
  rcases h with ⟨h1, h2⟩ | ⟨h1, h2⟩
  · rw [if_pos h1, h2]
  · rw [if_neg h1, h2]

theorem line_none {ms : List Nat → Int} {l : List Nat} (h : LexSays ms l none) : lexLine ms l = .ok none := by
  generalize hx : (none : Option (Lex × Option (List Nat))) = x at h
  cases h with
  | other h1 => rw [lexLine, if_pos (fun e => h1 (lexeme_iff.1 e))]
  | kind y f c s d w t more h1 h2 h3 =>
    rw [lexLine, if_neg (fun e => e (lexeme_iff.2 h1)), scanN_line h2]
    simp only [List.take_succ_cons]
    rw [if_neg (fun e => h3 ((kind_iff t).1 e))]
  | word => cases hx

theorem line_word {ms : List Nat → Int} {l : List Nat} {x : Lex} {c : Option (List Nat)} (h : LexSays ms l (some (x, c))) :
    ∃ cf, lexLine ms l = .ok (some (x, cf)) ∧ Conf cf c := by
  generalize hx : some (x, c) = z at h
  cases h with
  | other h1 => cases hx
  | kind y f c s d w t more h1 h2 h3 => cases hx
  | word y f c s d w t k cf more o conf h1 h2 h3 h4 h5 h6 =>
    cases hx
    refine ⟨cf, ?_, h5⟩
    rw [lexLine, if_neg (fun e => e (lexeme_iff.2 h1)), scanN_line h2]
    simp only [List.take_succ_cons]
    rw [if_pos ((kind_iff t).2 h3), if_neg h6]
    have : decide (lower t ∈ optKinds) = o := by
      rw [Bool.eq_iff_iff, decide_eq_true_eq, opt_iff, h4]
    rw [this]

/-- The entries with the confidences that are kept. -/
def given : Bool → List (Nat × Lex × Option (List Nat)) → List (Nat × Lex × Option (List Nat))
  | _, [] => []
  | b, (n, x, c) :: rs => (n, x, if b then c else none) :: given (b && c.isSome) rs

theorem given_append (b : Bool) (rs qs : List (Nat × Lex × Option (List Nat))) :
    given b (rs ++ qs) = given b rs ++ given (b && rs.all (fun x => x.2.2.isSome)) qs := by
  induction rs generalizing b with
  | nil => simp [given]
  | cons x rs ih =>
    obtain ⟨n, x, c⟩ := x
    rw [List.cons_append, given, ih, given, List.all_cons, Bool.and_assoc]
    rfl

theorem given_spkr (b : Bool) (rs : List (Nat × Lex × Option (List Nat))) :
    (given b rs).map (fun x => (x.1, x.2.1)) = rs.map (fun x => (x.1, x.2.1)) := by
  induction rs generalizing b with
  | nil => rfl
  | cons x rs ih =>
    obtain ⟨n, x, c⟩ := x
    rw [given, List.map_cons, List.map_cons, ih]

/-- The state after the lines that say `rs`. -/
structure LInv (n : Nat) (rs : List (Nat × Lex × Option (List Nat))) (st : LSt) : Prop where
  line : st.lineNum = n
  elemNum : st.elemNum = rs.length
  use : st.useConf = rs.all (fun x => x.2.2.isSome)
  sorted : (st.res.map Prod.fst).Pairwise (· < ·)
  keys : ∀ k, k ∈ st.res.map Prod.fst ↔ ∃ x ∈ rs, x.2.1.spkr = k
  segs : ∀ k, (under k st.res).map (fun s => (s.line, s.lex, s.conf)) = (given true rs).filter (fun x => x.2.1.spkr = k)
  nums : ∀ k, (under k st.res).map (·.num) = List.range (under k st.res).length
  elems : ∀ k s, s ∈ under k st.res → ∃ c, rs[s.elem]? = some (s.line, s.lex, c)

theorem linv_start : LInv 0 [] lst0 := by
  constructor <;> simp [lst0, under, given]

theorem linv_skip {n : Nat} {rs : List (Nat × Lex × Option (List Nat))} {st : LSt} (h : LInv n rs st) :
    LInv (n + 1) rs { st with lineNum := st.lineNum + 1 } :=
  ⟨by rw [h.line], h.elemNum, h.use, h.sorted, h.keys, h.segs, h.nums, h.elems⟩

theorem linv_word {n : Nat} {rs : List (Nat × Lex × Option (List Nat))} {st : LSt} (h : LInv n rs st) (x : Lex) (cf : List Nat)
    {c : Option (List Nat)} (hc : Conf cf c) : LInv (n + 1) (rs ++ [(n, x, c)]) (lexAdd st x cf) := by
  have hce := conf_eq hc
  have hg : given true (rs ++ [(n, x, c)]) = given true rs ++ [(n, x, if rs.all (fun x => x.2.2.isSome) then c else none)] := by
    rw [given_append]
    rfl
  have hadd : lexAdd st x cf = ⟨insert x.spkr ⟨x, if rs.all (fun x => x.2.2.isSome) then c else none, n, rs.length, count x.spkr st.res⟩ st.res,
      (rs ++ [(n, x, c)]).all (fun x => x.2.2.isSome), n + 1, rs.length + 1⟩ := by
    rw [List.all_append, ← h.use, ← h.line, ← h.elemNum, hce]
    by_cases e : cf = noConf
    · simp [lexAdd, e]
    · simp [lexAdd, e]
  rw [hadd]
  generalize (if rs.all (fun x => x.2.2.isSome) then c else none) = cc at hg ⊢
  have hU := insert_under x.spkr (⟨x, cc, n, rs.length, count x.spkr st.res⟩ : LSeg) st.res h.sorted
  constructor
  · rfl
  · show rs.length + 1 = _; rw [List.length_append]; rfl
  · rfl
  · exact insert_sorted _ _ _ h.sorted
  · intro k
    show k ∈ (insert _ _ _).map Prod.fst ↔ _
    rw [insert_keys, h.keys]
    constructor
    · rintro (e | ⟨y, hy, e⟩)
      · exact ⟨(n, x, c), by simp, e.symm⟩
      · exact ⟨y, by simp [hy], e⟩
    · rintro ⟨y, hy, e⟩
      rcases List.mem_append.1 hy with hy | hy
      · exact .inr ⟨y, hy, e⟩
      · rw [List.mem_singleton.1 hy] at e
        exact .inl e.symm
  · intro k
    show (under k (insert _ _ _)).map _ = _
    rw [hU, hg, List.filter_append]
    by_cases e : k = x.spkr
    · subst e
      rw [if_pos rfl, List.map_append, h.segs]
      simp
    · rw [if_neg e, h.segs]
      have e' : ¬ x.spkr = k := fun h => e h.symm
      simp [e']
  · intro k
    show (under k (insert _ _ _)).map _ = List.range (under k (insert _ _ _)).length
    rw [hU]
    by_cases e : k = x.spkr
    · subst e
      rw [if_pos rfl, List.map_append, h.nums, List.length_append]
      rw [show [(_ : LSeg)].length = 1 from rfl, List.range_succ]
      simp only [List.map_cons, List.map_nil]
      rw [count_eq]
    · rw [if_neg e, h.nums]
  · intro k s hs
    have hs' : s ∈ under k (insert x.spkr (⟨x, cc, n, rs.length, count x.spkr st.res⟩ : LSeg) st.res) := hs
    rw [hU] at hs'
    have old : ∀ k, s ∈ under k st.res → ∃ c', (rs ++ [(n, x, c)])[s.elem]? = some (s.line, s.lex, c') := by
      intro k hm
      obtain ⟨c', hc'⟩ := h.elems k s hm
      refine ⟨c', ?_⟩
      rw [List.getElem?_append_left (List.getElem?_eq_some_iff.1 hc').1]
      exact hc'
    by_cases e : k = x.spkr
    · subst e
      rw [if_pos rfl] at hs'
      rcases List.mem_append.1 hs' with hm | hm
      · exact old _ hm
      · rw [List.mem_singleton.1 hm]
        refine ⟨c, ?_⟩
        show (rs ++ [(n, x, c)])[rs.length]? = some (n, x, c)
        rw [List.getElem?_append_right (Nat.le_refl _), Nat.sub_self]
        rfl
    · rw [if_neg e] at hs'
      exact old _ hs'

theorem lexRun_inv {ms : List Nat → Int} {n : Nat} {lines : List (List Nat)} {rs qs : List (Nat × Lex × Option (List Nat))}
    (h : LexFile ms n lines rs) {st : LSt} (hi : LInv n qs st) :
    ∃ st', lexRun ms st lines = .ok st' ∧ LInv (n + lines.length) (qs ++ rs) st' := by
  induction h generalizing st qs with
  | nil n => exact ⟨st, rfl, by simpa using hi⟩
  | skip n l ls rs h1 h2 ih =>
    obtain ⟨st', e1, e2⟩ := ih (linv_skip hi)
    refine ⟨st', ?_, ?_⟩
    · rw [lexRun, lexStep, line_none h1]
      exact e1
    · rw [List.length_cons, show n + (ls.length + 1) = n + 1 + ls.length from by omega]
      exact e2
  | word n l x c ls rs h1 h2 ih =>
    obtain ⟨cf, f1, f2⟩ := line_word h1
    obtain ⟨st', e1, e2⟩ := ih (linv_word hi x cf f2)
    refine ⟨st', ?_, ?_⟩
    · rw [lexRun, lexStep, f1]
      exact e1
    · rw [List.length_cons, show n + (ls.length + 1) = n + 1 + ls.length from by omega]
      simpa using e2

theorem lexLoad_ok {ms : List Nat → Int} {lines : List (List Nat)} {rs : List (Nat × Lex × Option (List Nat))} (h : LexFile ms 0 lines rs)
    (hr : rs ≠ []) : ∃ st, lexLoad ms lines = .ok st.res ∧ LInv lines.length rs st := by
  obtain ⟨st, h1, h2⟩ := lexRun_inv h linv_start
  rw [Nat.zero_add] at h2
  refine ⟨st, ?_, h2⟩
  rw [lexLoad, h1]
  dsimp only
  rw [if_neg]
  intro e
  obtain ⟨x, l, rfl⟩ := List.exists_cons_of_ne_nil hr
  have := (h2.keys x.2.1.spkr).2 ⟨x, by simp, rfl⟩
  rw [e] at this
  cases this

theorem lexFile_lt {ms : List Nat → Int} {n : Nat} {lines : List (List Nat)} {rs : List (Nat × Lex × Option (List Nat))}
    (h : LexFile ms n lines rs) : (∀ x ∈ rs, n ≤ x.1) ∧ rs.Pairwise (fun a b => a.1 < b.1) := by
  induction h with
  | nil => simp
  | skip n l ls rs _ _ ih => exact ⟨fun x hx => Nat.le_of_succ_le (ih.1 x hx), ih.2⟩
  | word n l x c ls rs _ _ ih =>
    refine ⟨fun y hy => ?_, List.pairwise_cons.2 ⟨fun y hy => ih.1 y hy, ih.2⟩⟩
    rcases List.mem_cons.1 hy with e | e
    · rw [e]; exact Nat.le_refl _
    · exact Nat.le_of_succ_le (ih.1 y e)

end Verif.RttmIn
