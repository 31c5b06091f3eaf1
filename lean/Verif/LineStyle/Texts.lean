import Verif.LineStyle.Paths
/-!
# Splitting written alternatives and sequences
-/
set_option autoImplicit false
namespace Verif.LineStyle

theorem bump_lb (d : Int) : bump d lb = d + 1 := by unfold bump; rw [if_pos rfl]
theorem bump_rb (d : Int) : bump d rb = d - 1 := by unfold bump; rw [if_neg (by decide), if_pos rfl]
theorem bump_other (d : Int) (w : Word) (h1 : w ≠ lb) (h2 : w ≠ rb) : bump d w = d := by unfold bump; rw [if_neg h1, if_neg h2]
theorem bump_slash (d : Int) : bump d slash = d := bump_other d _ (by decide) (by decide)
theorem bump_at (d : Int) : bump d at' = d := bump_other d _ (by decide) (by decide)

theorem sep_word (d : Int) (cur : List Word) (w : Word) (rest : List Word) (h : w ≠ slash ∨ bump d w ≠ 0) :
    sepGo d cur (w :: rest) = sepGo (bump d w) (cur ++ [w]) rest := by
  rw [sepGo, if_neg]
  rintro ⟨h1, h2⟩
  rcases h with h | h
  · exact h h1
  · exact h h2

mutual
theorem sep_item : ∀ (i : Item) (d : Int) (cur rest : List Word), 0 ≤ d → i.Plain → sepGo d cur (i.text ++ rest) = sepGo d (cur ++ i.text) rest
  | .word w, d, cur, rest, hd, hp => by
    simp only [Item.text, List.cons_append, List.nil_append]
    obtain ⟨_, h1, h2, h3, _⟩ := hp
    rw [sep_word d cur w rest (Or.inl h3), bump_other d w h1 h2]
  | .eps, d, cur, rest, hd, hp => by
    simp only [Item.text, List.cons_append, List.nil_append]
    rw [sep_word d cur at' rest (Or.inl (by decide)), bump_at]
  | .alt a, d, cur, rest, hd, hp => by
    simp only [Item.text, List.cons_append, List.append_assoc, List.nil_append]
    rw [sep_word d cur lb _ (Or.inl (by decide)), bump_lb, sep_alts a (d + 1) _ _ (by omega) hp.2,
      sep_word (d + 1) _ rb rest (Or.inl (by decide)), bump_rb]
    congr 1
    · omega
    · simp
theorem sep_seq : ∀ (s : Seq) (d : Int) (cur rest : List Word), 0 ≤ d → s.Plain → sepGo d cur (s.text ++ rest) = sepGo d (cur ++ s.text) rest
  | .nil, d, cur, rest, hd, hp => by simp [Seq.text]
  | .cons i s, d, cur, rest, hd, hp => by
    simp only [Seq.text, List.append_assoc]
    rw [sep_item i d cur _ hd hp.1, sep_seq s d _ rest hd hp.2]
    congr 1
    simp
theorem sep_alts : ∀ (a : Alts) (d : Int) (cur rest : List Word), 0 < d → a.Plain → sepGo d cur (a.text ++ rest) = sepGo d (cur ++ a.text) rest
  | .one s, d, cur, rest, hd, hp => by
    simp only [Alts.text]
    exact sep_seq s d cur rest (by omega) hp
  | .or s a, d, cur, rest, hd, hp => by
    simp only [Alts.text, List.append_assoc, List.cons_append]
    rw [sep_seq s d cur _ (by omega) hp.1, sep_word d _ slash _ (Or.inr (by rw [bump_slash]; omega)), bump_slash,
      sep_alts a d _ rest hd hp.2]
    congr 1
    simp
end

/-- The alternatives as a list. -/
def Alts.list : Alts → List Seq
  | .one s => [s]
  | .or s a => s :: a.list

theorem sepSlash_text : ∀ (a : Alts), a.Plain → sepSlash a.text = a.list.map Seq.text
  | .one s, hp => by
    have := sep_seq s 0 [] [] (by omega) hp
    simp only [List.append_nil, List.nil_append] at this
    simp [sepSlash, Alts.text, Alts.list, this, sepGo]
  | .or s a, hp => by
    have ih := sepSlash_text a hp.2
    unfold sepSlash at ih ⊢
    simp only [Alts.text, Alts.list, List.map_cons]
    rw [sep_seq s 0 [] _ (by omega) hp.1, sepGo, if_pos ⟨rfl, by decide⟩, bump_slash, ih]
    simp

theorem tok_in (d : Int) (cur : List Word) (w : Word) (rest : List Word) (h1 : bump d w ≠ 0) (h2 : w = lb → bump d w ≠ 1) :
    tokGo d cur (w :: rest) = tokGo (bump d w) (cur ++ [w]) rest := by
  rw [tokGo, if_neg (fun h => h2 h.1 h.2), if_neg (fun h => h1 h.2), if_neg h1]

mutual
theorem tok_item : ∀ (i : Item) (d : Int) (cur rest : List Word), 0 < d → i.Plain → tokGo d cur (i.text ++ rest) = tokGo d (cur ++ i.text) rest
  | .word w, d, cur, rest, hd, hp => by
    simp only [Item.text, List.cons_append, List.nil_append]
    obtain ⟨_, h1, h2, h3, _⟩ := hp
    rw [tok_in d cur w rest (by rw [bump_other d w h1 h2]; omega) (fun h => absurd h h1), bump_other d w h1 h2]
  | .eps, d, cur, rest, hd, hp => by
    simp only [Item.text, List.cons_append, List.nil_append]
    rw [tok_in d cur at' rest (by rw [bump_at]; omega) (fun h => absurd h (by decide)), bump_at]
  | .alt a, d, cur, rest, hd, hp => by
    simp only [Item.text, List.cons_append, List.append_assoc, List.nil_append]
    rw [tok_in d cur lb _ (by rw [bump_lb]; omega) (fun _ => by rw [bump_lb]; omega), bump_lb, tok_alts a (d + 1) _ _ (by omega) hp.2,
      tok_in (d + 1) _ rb rest (by rw [bump_rb]; omega) (fun h => absurd h (by decide)), bump_rb]
    congr 1
    · omega
    · simp
theorem tok_seq : ∀ (s : Seq) (d : Int) (cur rest : List Word), 0 < d → s.Plain → tokGo d cur (s.text ++ rest) = tokGo d (cur ++ s.text) rest
  | .nil, d, cur, rest, hd, hp => by simp [Seq.text]
  | .cons i s, d, cur, rest, hd, hp => by
    simp only [Seq.text, List.append_assoc]
    rw [tok_item i d cur _ hd hp.1, tok_seq s d _ rest hd hp.2]
    congr 1
    simp
theorem tok_alts : ∀ (a : Alts) (d : Int) (cur rest : List Word), 0 < d → a.Plain → tokGo d cur (a.text ++ rest) = tokGo d (cur ++ a.text) rest
  | .one s, d, cur, rest, hd, hp => by
    simp only [Alts.text]
    exact tok_seq s d cur rest (by omega) hp
  | .or s a, d, cur, rest, hd, hp => by
    simp only [Alts.text, List.append_assoc, List.cons_append]
    rw [tok_seq s d cur _ (by omega) hp.1, tok_in d _ slash _ (by rw [bump_slash]; omega) (fun h => absurd h (by decide)), bump_slash,
      tok_alts a d _ rest hd hp.2]
    congr 1
    simp
end

/-- The string kept for an item. -/
def Item.content : Item → List Word
  | .word w => [w]
  | .eps => [at']
  | .alt a => a.text

/-- The strings kept for the items of a sequence. -/
def Seq.contents : Seq → List (List Word)
  | .nil => []
  | .cons i s => i.content :: s.contents

theorem contents_length : ∀ s : Seq, s.contents.length = s.length
  | .nil => rfl
  | .cons i s => by simp [Seq.contents, Seq.length, contents_length s]

theorem tokGo_seq : ∀ (s : Seq), s.Plain → tokGo 0 [] s.text = s.contents
  | .nil, _ => by simp [Seq.text, Seq.contents, tokGo]
  | .cons i s, hp => by
    have ih := tokGo_seq s hp.2
    cases i with
    | word w =>
      obtain ⟨_, h1, h2, h3, _⟩ := hp.1
      simp only [Seq.text, Item.text, List.cons_append, List.nil_append, Seq.contents, Item.content]
      rw [tokGo, if_neg (fun h => h1 h.1), if_neg (fun h => h2 h.1), if_pos (by rw [bump_other 0 w h1 h2]), bump_other 0 w h1 h2, ih]
      simp
    | eps =>
      simp only [Seq.text, Item.text, List.cons_append, List.nil_append, Seq.contents, Item.content]
      rw [tokGo, if_neg (fun h => by have := h.1; revert this; decide), if_neg (fun h => by have := h.1; revert this; decide), if_pos (by decide), bump_at, ih]
      simp
    | alt a =>
      simp only [Seq.text, Item.text, List.cons_append, List.append_assoc, List.nil_append, Seq.contents, Item.content]
      rw [tokGo, if_pos ⟨rfl, by decide⟩, bump_lb, tok_alts a (0 + 1) [] _ (by omega) hp.1.2, tokGo,
        if_neg (fun h => by have := h.1; revert this; decide), if_pos ⟨rfl, by decide⟩, bump_rb]
      simp only [List.nil_append]
      congr 1

theorem text_nil : ∀ s : Seq, s.text = [] → s = .nil
  | .nil, _ => rfl
  | .cons i s, h => by
    cases i <;> simp [Seq.text, Item.text] at h

theorem tokenise_text (s : Seq) (hp : s.Plain) : tokenise s.text = if s.length = 0 then [[]] else s.contents := by
  unfold tokenise
  cases s with
  | nil => simp [Seq.text, Seq.length]
  | cons i s =>
    rw [if_neg (fun h => by have := text_nil _ h; cases this), tokGo_seq _ hp]
    simp [Seq.length]

end Verif.LineStyle
