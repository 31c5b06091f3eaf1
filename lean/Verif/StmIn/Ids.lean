import Verif.StmIn.File
/-!
# Identifiers
-/
set_option autoImplicit false
namespace Verif.StmIn

theorem pad3_value (n : Nat) : Nat.ofDigitChars 10 (pad3 n) 0 = n := by
  rw [pad3, Nat.ofDigitChars_append, Nat.ofDigitChars_replicate_zero, Nat.mul_zero, Nat.ofDigitChars_ten_toDigits]

theorem pad3_inj {n m : Nat} (h : pad3 n = pad3 m) : n = m := by
  rw [← pad3_value n, ← pad3_value m, h]

theorem pad3_nodash (n : Nat) : 45 ∉ (pad3 n).map Char.toNat := by
  intro h
  obtain ⟨c, hc, he⟩ := List.mem_map.1 h
  have hd : c.isDigit = true := by
    rw [pad3] at hc
    rcases List.mem_append.1 hc with hc | hc
    · rw [List.mem_replicate] at hc
      rw [hc.2]
      decide
    · exact Nat.isDigit_of_mem_toDigits (by decide) (by decide) hc
  have hcc : c = Char.ofNat 45 := by
    rw [← he, Char.ofNat_toNat]
  rw [hcc] at hd
  exact absurd hd (by decide)

theorem split_last {a b x y : List Nat} {c : Nat} (hx : c ∉ x) (hy : c ∉ y) (h : a ++ (c :: x) = b ++ (c :: y)) : a = b ∧ x = y := by
  rcases List.append_eq_append_iff.1 h with ⟨z, h1, h2⟩ | ⟨z, h1, h2⟩
  · cases z with
    | nil =>
      simp only [List.append_nil] at h1
      simp only [List.nil_append, List.cons.injEq, true_and] at h2
      exact ⟨h1.symm, h2⟩
    | cons d z =>
      simp only [List.cons_append, List.cons.injEq] at h2
      exact absurd (by rw [h2.2]; simp) hx
  · cases z with
    | nil =>
      simp only [List.append_nil] at h1
      simp only [List.nil_append, List.cons.injEq, true_and] at h2
      exact ⟨h1, h2.symm⟩
    | cons d z =>
      simp only [List.cons_append, List.cons.injEq] at h2
      exact absurd (by rw [h2.2]; simp) hy

theorem toNat_map_inj {a b : List Char} (h : a.map Char.toNat = b.map Char.toNat) : a = b := by
  induction a generalizing b with
  | nil =>
    cases b with
    | nil => rfl
    | cons c b => cases h
  | cons c a ih =>
    cases b with
    | nil => cases h
    | cons d b =>
      simp only [List.map_cons, List.cons.injEq] at h
      have : c = d := by rw [← Char.ofNat_toNat c, h.1, Char.ofNat_toNat]
      rw [this, ih h.2]

theorem idText_inj {s t : Seg} (h : idText s = idText t) : s.raw.spkr = t.raw.spkr ∧ s.num = t.num := by
  unfold idText at h
  have h1 : [40] ++ s.raw.spkr ++ ([45] ++ (pad3 s.num).map Char.toNat) = [40] ++ t.raw.spkr ++ ([45] ++ (pad3 t.num).map Char.toNat) := by
    refine (List.append_inj' (t₁ := [41]) (t₂ := [41]) ?_ rfl).1
    simpa using h
  obtain ⟨h2, h3⟩ := split_last (pad3_nodash s.num) (pad3_nodash t.num) h1
  exact ⟨by simpa using h2, pad3_inj (toNat_map_inj h3)⟩

theorem scored_append (a b : List Seg) : scored (a ++ b) = scored a + scored b := List.countP_append

theorem scored_le (a : List Seg) : scored a ≤ a.length := List.countP_le_length

/-- The numbers of the scored segments of one speaker ascend. -/
theorem nums_ascend {w : Nat} {l : List Seg} (hl : l.length < 2 ^ w) (hn : ∀ a s b, l = a ++ (s :: b) → s.num = numOf w a s.raw) :
    (l.filter (fun s => s.raw.text.isSome)).Pairwise (fun s t => s.num < t.num) ∧
      ∀ s ∈ l.filter (fun s => s.raw.text.isSome), s.num < scored l := by
  have hsc : ∀ a (s : Seg) b, l = a ++ (s :: b) → s.raw.text.isSome = true → s.num = scored a := by
    intro a s b he hs
    rw [hn a s b he, numOf, if_neg (by intro h; rw [h] at hs; cases hs), Nat.sub_zero, Nat.add_mod_right]
    refine Nat.mod_eq_of_lt ?_
    have := scored_le a
    rw [he, List.length_append] at hl
    omega
  clear hn hl
  generalize hlen : l.length = n
  induction n generalizing l with
  | zero =>
    rw [List.length_eq_zero_iff.1 hlen]
    simp
  | succ n ih =>
    rcases List.eq_nil_or_concat l with rfl | ⟨l', x, rfl⟩
    · simp at hlen
    rw [List.concat_eq_append] at hlen hsc ⊢
    obtain ⟨h1, h2⟩ := ih (l := l') (fun a s b he hs => hsc a s (b ++ [x]) (by rw [he]; simp) hs)
      (by rw [List.length_append] at hlen; simpa using hlen)
    rw [List.filter_append, scored_append]
    cases hx : x.raw.text with
    | none =>
      rw [List.filter_cons, if_neg (by simp [hx]), List.filter_nil, List.append_nil]
      exact ⟨h1, fun s hs => Nat.lt_of_lt_of_le (h2 s hs) (Nat.le_add_right _ _)⟩
    | some t =>
      have hxn : x.num = scored l' := hsc l' x [] rfl (by rw [hx]; rfl)
      have h1x : scored [x] = 1 := by simp [scored, hx]
      rw [List.filter_cons, if_pos (by simp [hx]), List.filter_nil, h1x]
      refine ⟨List.pairwise_append.2 ⟨h1, by simp, fun s hs y hy => ?_⟩, fun s hs => ?_⟩
      · rw [List.mem_singleton.1 hy, hxn]
        exact h2 s hs
      · rcases List.mem_append.1 hs with hs | hs
        · exact Nat.lt_succ_of_lt (h2 s hs)
        · rw [List.mem_singleton.1 hs, hxn]
          exact Nat.lt_succ_self _

/-- The scored segments of all speakers. -/
theorem ids_nodup {speeches : List (List Nat × List Seg)} (hs : (speeches.map Prod.fst).Pairwise (· < ·))
    (hk : ∀ k xs, (k, xs) ∈ speeches → ∀ s ∈ xs, s.raw.spkr = k)
    (hn : ∀ k xs, (k, xs) ∈ speeches → (xs.filter (fun s => s.raw.text.isSome)).Pairwise (fun s t => s.num < t.num)) :
    (((speeches.flatMap Prod.snd).filter (fun s => s.raw.text.isSome)).map idText).Nodup := by
  induction speeches with
  | nil => simp
  | cons p m ih =>
    obtain ⟨k, xs⟩ := p
    rw [List.map_cons, List.pairwise_cons] at hs
    rw [List.flatMap_cons, List.filter_append, List.map_append, List.nodup_append]
    refine ⟨?_, ih hs.2 (fun k xs h => hk k xs (by simp [h])) (fun k xs h => hn k xs (by simp [h])), ?_⟩
    · have := hn k xs (by simp)
      rw [List.Nodup, List.pairwise_map]
      exact this.imp (fun {a b} hab he => by have := (idText_inj he).2; omega)
    · intro a ha b hb he
      obtain ⟨s, hs1, rfl⟩ := List.mem_map.1 ha
      obtain ⟨t, ht1, rfl⟩ := List.mem_map.1 hb
      have h1 := hk k xs (by simp) s (List.mem_filter.1 hs1).1
      obtain ⟨q, hq, hq'⟩ := List.mem_flatMap.1 (List.mem_filter.1 ht1).1
      obtain ⟨k2, ys⟩ := q
      have h2 := hk k2 ys (by simp [hq]) t hq'
      have := (idText_inj he).1
      have hlt : k < k2 := hs.1 k2 (List.mem_map.2 ⟨(k2, ys), hq, rfl⟩)
      rw [← h1, ← h2, this] at hlt
      exact List.lt_irrefl _ hlt

/-! ## The chain of segments -/

theorem attach_some {α : Type} (full : α → Bool) (p : α) (xs : List α) :
    attach full (some p) xs = (p :: xs.filter full).zip (xs.filter full) := by
  induction xs generalizing p with
  | nil => rfl
  | cons x xs ih =>
    rw [attach]
    by_cases h : full x = true
    · rw [if_pos h, ih, List.filter_cons, if_pos h]
      rfl
    · rw [if_neg h, ih, List.filter_cons, if_neg h]

theorem attach_none {α : Type} (full : α → Bool) (xs : List α) :
    attach full none xs = (xs.filter full).zip (xs.filter full).tail := by
  induction xs with
  | nil => rfl
  | cons x xs ih =>
    rw [attach]
    by_cases h : full x = true
    · rw [if_pos h, attach_some, List.filter_cons, if_pos h]
      rfl
    · rw [if_neg h, ih, List.filter_cons, if_neg h]

end Verif.StmIn
