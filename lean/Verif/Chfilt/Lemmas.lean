import Verif.Chfilt.Spec
/-!
# Lemmas on the segments chfilt writes
-/
set_option autoImplicit false
namespace Verif.Chfilt

theorem nodup_eraseDups {α : Type} [BEq α] [LawfulBEq α] : ∀ (n : Nat) (l : List α), l.length ≤ n → l.eraseDups.Nodup
  | _, [], _ => by simp
  | 0, a :: l, h => by simp at h
  | n + 1, a :: l, h => by
    rw [List.eraseDups_cons, List.nodup_cons]
    refine ⟨?_, nodup_eraseDups n _ ?_⟩
    · rw [List.mem_eraseDups, List.mem_filter]
      simp
    · have := List.length_filter_le (fun b => !b == a) l
      simp only [List.length_cons] at h
      omega

/-! ## Channels -/

theorem of_cons (c : String) (r : Rec) (rs : List Rec) : of c (r :: rs) = if r.chan = c then r :: of c rs else of c rs := by
  unfold of
  rw [List.filter_cons]
  by_cases h : r.chan = c <;> simp [h]

theorem of_reverse (c : String) (rs : List Rec) : of c rs.reverse = (of c rs).reverse := by
  simp [of]

theorem mem_of {c : String} {rs : List Rec} {r : Rec} : r ∈ of c rs ↔ r ∈ rs ∧ r.chan = c := by
  simp [of]

theorem of_of (c : String) (rs : List Rec) : of c (of c rs) = of c rs := by
  simp [of]

theorem change_of {f : Rec → Option Rec} {c : String} (hf : ∀ l x, l.chan = c → f l = some x → x.chan = c) (ls : List Rec) :
    change f c (of c ls) = (change f c ls).map (of c) := by
  induction ls with
  | nil => rfl
  | cons l ls ih =>
    rw [of_cons, change]
    by_cases h : l.chan = c
    · simp only [h, if_true, change]
      cases e : f l with
      | none => rfl
      | some x => simp [of_cons, hf l x h e]
    · simp only [h, if_false, ih]
      cases change f c ls with
      | none => rfl
      | some o => simp [of_cons, h]

theorem change_of_ne {f : Rec → Option Rec} {c c' : String} (hf : ∀ l x, l.chan = c → f l = some x → x.chan = c) (hc : c ≠ c')
    {ls o : List Rec} (h : change f c ls = some o) : of c' o = of c' ls := by
  induction ls generalizing o with
  | nil => cases h
  | cons l ls ih =>
    rw [change] at h
    by_cases hl : l.chan = c
    · simp only [hl, if_true] at h
      obtain ⟨x, h1, rfl⟩ := Option.map_eq_some_iff.1 h
      have := hf l x hl h1
      rw [of_cons, of_cons, this, hl, if_neg hc, if_neg hc]
    · simp only [hl, if_false] at h
      obtain ⟨x, h1, rfl⟩ := Option.map_eq_some_iff.1 h
      rw [of_cons, of_cons, ih h1]

/-- A change that keeps the channel. -/
def Keeps (f : Rec → Rec → Option Rec) : Prop := ∀ l r x, l.chan = r.chan → f l r = some x → x.chan = r.chan

theorem step_of {f : Rec → Rec → Option Rec} (hf : Keeps f) (c : String) (out : List Rec) (r : Rec) :
    of c (step f out r) = if r.chan = c then step f (of c out) r else of c out := by
  unfold step
  by_cases h : r.chan = c
  · subst h
    rw [if_pos rfl, change_of (fun l x hl hx => hf l r x hl hx)]
    cases change (fun l => f l r) r.chan out with
    | none => simp [of_cons]
    | some o => rfl
  · rw [if_neg h]
    cases e : change (fun l => f l r) r.chan out with
    | none => simp [of_cons, h]
    | some o => exact change_of_ne (fun l x hl hx => hf l r x hl hx) h e

theorem fold_of {g : List Rec → Rec → List Rec} {c : String}
    (hg : ∀ out r, of c (g out r) = if r.chan = c then g (of c out) r else of c out) (rs out : List Rec) :
    of c (rs.foldl g out) = (of c rs).foldl g (of c out) := by
  induction rs generalizing out with
  | nil => rfl
  | cons r rs ih =>
    rw [List.foldl_cons, ih, hg, of_cons]
    split <;> rfl

theorem pass_of {f : Rec → Rec → Option Rec} (hf : Keeps f) (c : String) (rs : List Rec) : of c (pass f rs) = pass f (of c rs) := by
  unfold pass
  rw [of_reverse, fold_of (step_of hf c)]
  rfl

theorem join_keeps (s : Int) : Keeps (join s) := by
  intro l r x h e
  unfold join at e
  split at e
  · split at e
    · cases e; exact h
    · cases e
  · cases e

theorem cover_keeps : Keeps cover := by
  intro l r x h e
  unfold cover at e
  split at e
  · cases e; rfl
  · cases e

/-- One turn of the loops if all records are of one channel. -/
def one (f : Rec → Rec → Option Rec) (r : Rec) : List Rec → List Rec
  | [] => [r]
  | l :: ls => match f l r with
    | some x => x :: ls
    | none => r :: l :: ls

theorem step_one {f : Rec → Rec → Option Rec} {out : List Rec} {r : Rec} (h : ∀ l ∈ out, l.chan = r.chan) : step f out r = one f r out := by
  cases out with
  | nil => rfl
  | cons l ls =>
    simp only [step, change, h l (by simp), if_true, one]
    cases f l r <;> rfl

theorem newest_of (c : String) (out : List Rec) : newest c (of c out) = newest c out ∧ newest c out = (of c out).head? := by
  constructor
  · unfold newest of
    rw [List.find?_filter]
    congr 1
    funext x
    by_cases h : x.chan = c <;> simp [h]
  · unfold newest of
    rw [List.head?_filter]

theorem lastEnd_of (B : Int) (c : String) (out : List Rec) : lastEnd B (of c out) c = lastEnd B out c := by
  unfold lastEnd
  rw [(newest_of c out).1]

/-! ## Padding -/

theorem padStep_of (B P : Int) (c : String) (out : List Rec) (r : Rec) :
    of c (padStep B P out r) = if r.chan = c then padStep B P (of c out) r else of c out := by
  unfold padStep
  by_cases h : r.chan = c
  · subst h
    rw [if_pos rfl, (newest_of r.chan out).1]
    cases newest r.chan out with
    | none =>
      dsimp only
      split <;> simp [of_cons, double]
    | some l =>
      dsimp only
      split
      · rw [of_cons, if_pos (show (double r).chan = r.chan from rfl), change_of (by intro l x hl hx; cases hx; exact hl)]
        congr 1
        cases change (fun l' => some { l' with et := l'.et + shift (r.bt - l.et / 2) P }) r.chan out <;> rfl
      · rw [of_cons, if_pos (show (double r).chan = r.chan from rfl)]
  · rw [if_neg h]
    have hd : ¬ (double r).chan = c := h
    cases newest r.chan out with
    | none =>
      dsimp only
      split <;> (rw [of_cons, if_neg hd])
    | some l =>
      dsimp only
      split
      · rw [of_cons, if_neg hd]
        cases e : change (fun l' => some { l' with et := l'.et + shift (r.bt - l.et / 2) P }) r.chan out with
        | none => rfl
        | some o => exact change_of_ne (by intro l x hl hx; cases hx; exact hl) h e
      · rw [of_cons, if_neg hd]

theorem padEnd_of (E P : Int) (c c' : String) (out : List Rec) :
    of c (padEnd E P out c') = if c' = c then padEnd E P (of c out) c else of c out := by
  unfold padEnd
  have hk : ∀ (l x : Rec), l.chan = c' →
      some (if l.et < 2 * E then { l with et := l.et + shift (E - l.et / 2) P } else l) = some x → x.chan = c' := by
    intro l x hl hx
    cases hx
    split <;> exact hl
  by_cases h : c' = c
  · subst h
    rw [if_pos rfl, change_of hk]
    cases change (fun l => some (if l.et < 2 * E then { l with et := l.et + shift (E - l.et / 2) P } else l)) c' out <;> rfl
  · rw [if_neg h]
    cases e : change (fun l => some (if l.et < 2 * E then { l with et := l.et + shift (E - l.et / 2) P } else l)) c' out with
    | none => rfl
    | some o => exact change_of_ne hk h e

theorem foldEnd_of {g : List Rec → String → List Rec} {c : String}
    (hg : ∀ out c', of c (g out c') = if c' = c then g (of c out) c else of c out) (cs : List String) (hn : cs.Nodup) (out : List Rec) :
    of c (cs.foldl g out) = if c ∈ cs then g (of c out) c else of c out := by
  induction cs generalizing out with
  | nil => rfl
  | cons a cs ih =>
    obtain ⟨h1, h2⟩ := List.nodup_cons.1 hn
    rw [List.foldl_cons, ih h2, hg]
    by_cases ha : a = c
    · subst ha
      simp [h1]
    · have : c ≠ a := fun e => ha e.symm
      simp [ha, this]

theorem shift_half {P a b : Int} (h : a < b) : shift (b - a) P = half P a b := by
  unfold shift half
  rw [if_pos h]
  split <;> omega

theorem half_none {P a b : Int} (h : ¬ a < b) : half P a b = 0 := if_neg h

theorem pad_fold (B E P : Int) (c : String) (rs : List Rec) (l : Rec) (ls : List Rec) (e : Int) (hl : l.chan = c) (he : l.et = 2 * e)
    (hr : ∀ r ∈ rs, r.chan = c) :
    padEnd E P (rs.foldl (padStep B P) (l :: ls)) c =
      (padded P E e rs).reverse ++ { l with et := l.et + half P e (nextBegin E rs) } :: ls := by
  induction rs generalizing l ls e with
  | nil =>
    simp only [List.foldl_nil, padEnd, change, hl, if_true, Option.map_some, Option.getD_some, padded, nextBegin, List.reverse_nil, List.nil_append]
    congr 1
    have e2 : l.et / 2 = e := by omega
    rw [e2, he]
    by_cases h : e < E
    · rw [if_pos (by omega), shift_half h]
    · rw [if_neg (by omega), half_none h]
      cases l
      simp at he hl ⊢
      exact ⟨hl, he⟩
  | cons r rs ih =>
    have hrc := hr r (by simp)
    have hn : newest r.chan (l :: ls) = some l := by simp [newest, hl, hrc]
    rw [List.foldl_cons]
    have hs : padStep B P (l :: ls) r =
        { r with bt := 2 * r.bt - half P e r.bt, et := 2 * r.et } :: { l with et := l.et + half P e r.bt } :: ls := by
      unfold padStep
      rw [hn]
      have e2 : l.et / 2 = e := by omega
      by_cases h : e < r.bt
      · simp only [show l.et < 2 * r.bt from by omega, if_true, e2, shift_half h]
        simp [change, hl, hrc, double]
      · simp only [show ¬ l.et < 2 * r.bt from by omega, if_false, half_none h]
        simp [double]
    rw [hs, ih ({ r with bt := 2 * r.bt - half P e r.bt, et := 2 * r.et }) _ r.et hrc rfl (fun x hx => hr x (by simp [hx]))]
    simp [padded, nextBegin]

theorem pad_of (B E P : Int) (c : String) (rs : List Rec) : of c (pad B E P rs) = padded P E B (of c rs) := by
  unfold pad
  rw [of_reverse, foldEnd_of (fun out c' => padEnd_of E P c c' out) _ (nodup_eraseDups _ _ (Nat.le_refl _)), fold_of (padStep_of B P c)]
  cases h : of c rs with
  | nil =>
    have : c ∉ (rs.map (·.chan)).eraseDups := by
      rw [List.mem_eraseDups, List.mem_map]
      rintro ⟨r, hr, e⟩
      have : r ∈ of c rs := mem_of.2 ⟨hr, e⟩
      rw [h] at this
      cases this
    rw [if_neg this]
    rfl
  | cons r rest =>
    have hm : ∀ x ∈ r :: rest, x.chan = c := fun x hx => (mem_of.1 (h ▸ hx)).2
    have : c ∈ (rs.map (·.chan)).eraseDups := by
      rw [List.mem_eraseDups, List.mem_map]
      have hr : r ∈ of c rs := by rw [h]; simp
      exact ⟨r, (mem_of.1 hr).1, (mem_of.1 hr).2⟩
    rw [if_pos this, List.foldl_cons]
    have hrc := hm r (by simp)
    have hs : padStep B P (of c []) r = [{ r with bt := 2 * r.bt - half P B r.bt, et := 2 * r.et }] := by
      unfold padStep
      rw [show newest r.chan (of c []) = none from rfl]
      by_cases hb : B < r.bt
      · simp only [hb, if_true, shift_half hb]; rfl
      · simp only [hb, if_false, half_none hb]; simp [double, of]
    rw [hs, pad_fold B E P c rest ({ r with bt := 2 * r.bt - half P B r.bt, et := 2 * r.et }) [] r.et hrc rfl (fun x hx => hm x (by simp [hx]))]
    simp [padded]

/-! ## Gaps -/

theorem gapStep_of (B d : Int) (c : String) (out : List Rec) (r : Rec) :
    of c (gapStep B d out r) = if r.chan = c then gapStep B d (of c out) r else of c out := by
  unfold gapStep
  by_cases h : r.chan = c
  · subst h
    rw [if_pos rfl, lastEnd_of]
    split <;> simp [of_cons]
  · rw [if_neg h]
    split <;> simp [of_cons, h]

theorem gapEnd_of (B E d : Int) (c c' : String) (out : List Rec) :
    of c (gapEnd B E d out c') = if c' = c then gapEnd B E d (of c out) c else of c out := by
  unfold gapEnd
  by_cases h : c' = c
  · subst h
    rw [if_pos rfl, lastEnd_of]
    split <;> simp [of_cons]
  · rw [if_neg h]
    split <;> simp [of_cons, h]

theorem gap_fold (B E d : Int) (c : String) (rs out : List Rec) (hr : ∀ r ∈ rs, r.chan = c) :
    gapEnd B E d (rs.foldl (gapStep B d) out) c = (filled c d E (lastEnd B out c) rs).reverse ++ out := by
  induction rs generalizing out with
  | nil =>
    rw [List.foldl_nil, gapEnd, filled]
    by_cases h : lastEnd B out c < E - d
    · rw [if_pos h, if_pos (by omega)]; rfl
    · rw [if_neg h, if_neg (by omega)]; rfl
  | cons r rs ih =>
    have hrc := hr r (by simp)
    rw [List.foldl_cons, ih _ (fun x hx => hr x (by simp [hx])), filled]
    have he : lastEnd B (gapStep B d out r) c = r.et := by
      unfold gapStep
      split <;> simp [lastEnd, newest, hrc]
    rw [he]
    unfold gapStep
    rw [hrc]
    by_cases h : lastEnd B out c < r.bt - d
    · rw [if_pos h, if_pos (by omega)]
      simp [gapRec]
    · rw [if_neg h, if_neg (by omega)]
      simp

theorem gaps_of (B E d : Int) (c : String) (rs : List Rec) :
    of c (gaps B E d rs) = if of c rs = [] then [] else filled c d E B (of c rs) := by
  unfold gaps
  rw [of_reverse, foldEnd_of (fun out c' => gapEnd_of B E d c c' out) _ (nodup_eraseDups _ _ (Nat.le_refl _)), fold_of (gapStep_of B d c)]
  have hm : ∀ x ∈ of c rs, x.chan = c := fun x hx => (mem_of.1 hx).2
  have hi : c ∈ (rs.map (·.chan)).eraseDups ↔ of c rs ≠ [] := by
    rw [List.mem_eraseDups, List.mem_map]
    constructor
    · rintro ⟨r, hr, e⟩ hn
      have : r ∈ of c rs := mem_of.2 ⟨hr, e⟩
      rw [hn] at this
      cases this
    · intro hn
      obtain ⟨r, rest, h⟩ := List.exists_cons_of_ne_nil hn
      have hr : r ∈ of c rs := by rw [h]; simp
      exact ⟨r, (mem_of.1 hr).1, (mem_of.1 hr).2⟩
  by_cases h : of c rs = []
  · rw [if_neg (fun e => hi.1 e h), if_pos h, h]
    rfl
  · rw [if_pos (hi.2 h), if_neg h, gap_fold B E d c _ _ hm]
    show List.reverse (_ ++ []) = _
    rw [List.append_nil, List.reverse_reverse]
    rfl

end Verif.Chfilt
