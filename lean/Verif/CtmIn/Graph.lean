import Verif.CtmIn.Spec
/-!
# Adding tokens to the graph
-/
set_option autoImplicit false
namespace Verif.CtmIn

/-- The links agree and lead forward. -/
structure NetOk (n : Net) : Prop where
  lt : ∀ t p, p ∈ n.prec t → p < t
  out : ∀ t, n.toks.length ≤ t → n.prec t = []
  mirror : ∀ t p, t ∈ n.next p ↔ p ∈ n.prec t

/-- The words of the ways that end at a token. -/
inductive Lang (n : Net) : Nat → List Word → Prop
  | start (t : Nat) (k : Tok) : n.toks[t]? = some k → n.prec t = [] → Lang n t [k.word]
  | step (p t : Nat) (k : Tok) (ws : List Word) : n.toks[t]? = some k → p ∈ n.prec t → Lang n p ws → Lang n t (ws ++ [k.word])

/-- A token with its links has been added. -/
structure Pushed (n n' : Net) (w : Word) (g : Nat) (ps : List Nat) : Prop where
  toks : n'.toks = n.toks ++ [⟨w, g⟩]
  precNew : n'.prec n.toks.length = ps
  precOld : ∀ u, u ≠ n.toks.length → n'.prec u = n.prec u
  next : ∀ u x, x ∈ n'.next u ↔ x ∈ n.next u ∨ (x = n.toks.length ∧ u ∈ ps)

theorem link_toks (n : Net) (p t : Nat) : (link n p t).toks = n.toks ∧ (link n p t).segs = n.segs := ⟨rfl, rfl⟩

theorem linkAll_toks (n : Net) (ps : List Nat) (t : Nat) : (linkAll n ps t).toks = n.toks ∧ (linkAll n ps t).segs = n.segs := by
  induction ps generalizing n with
  | nil => exact ⟨rfl, rfl⟩
  | cons p ps ih => exact ih (link n p t)

theorem linkAll_links (n : Net) (ps : List Nat) (t : Nat) :
    (linkAll n ps t).prec t = n.prec t ++ ps ∧ (∀ u, u ≠ t → (linkAll n ps t).prec u = n.prec u) ∧
    ∀ u x, x ∈ (linkAll n ps t).next u ↔ x ∈ n.next u ∨ (x = t ∧ u ∈ ps) := by
  induction ps generalizing n with
  | nil => simp [linkAll]
  | cons p ps ih =>
    obtain ⟨h1, h2, h3⟩ := ih (link n p t)
    refine ⟨?_, ?_, ?_⟩
    · rw [linkAll, h1]
      simp [link, upd]
    · intro u hu
      rw [linkAll, h2 u hu]
      simp [link, upd, hu]
    · intro u x
      rw [linkAll, h3 u x]
      by_cases hup : u = p
      · subst hup
        simp only [link, upd, if_true, List.mem_append, List.mem_cons, List.not_mem_nil, or_false]
        constructor
        · rintro ((h | h) | h)
          · exact .inl h
          · exact .inr ⟨h, .inl trivial⟩
          · exact .inr ⟨h.1, .inr h.2⟩
        · rintro (h | ⟨h, _⟩)
          · exact .inl (.inl h)
          · exact .inl (.inr h)
      · simp only [link, upd, if_neg hup, List.mem_cons]
        constructor
        · rintro (h | h)
          · exact .inl h
          · exact .inr ⟨h.1, .inr h.2⟩
        · rintro (h | ⟨h, h' | h'⟩)
          · exact .inl h
          · exact absurd h' hup
          · exact .inr ⟨h, h'⟩

/-- A net with the same tokens and links, and the links of the new token. -/
theorem pushed_linkAll {n m : Net} (hok : NetOk n) {w : Word} {g : Nat} (ht : m.toks = n.toks ++ [⟨w, g⟩]) (hn : m.next = n.next)
    (hp : m.prec = n.prec) (ps : List Nat) : Pushed n (linkAll m ps n.toks.length) w g ps := by
  obtain ⟨h1, h2, h3⟩ := linkAll_links m ps n.toks.length
  refine ⟨by rw [(linkAll_toks ..).1, ht], ?_, ?_, ?_⟩
  · rw [h1, hp, hok.out _ (Nat.le_refl _)]
    rfl
  · intro u hu
    rw [h2 u hu, hp]
  · intro u x
    rw [h3, hn]

theorem Pushed.ok {n n' : Net} {w : Word} {g : Nat} {ps : List Nat} (h : Pushed n n' w g ps) (hok : NetOk n)
    (hps : ∀ p ∈ ps, p < n.toks.length) : NetOk n' := by
  refine ⟨?_, ?_, ?_⟩
  · intro t p hp
    by_cases e : t = n.toks.length
    · subst e
      rw [h.precNew] at hp
      exact hps p hp
    · rw [h.precOld t e] at hp
      exact hok.lt t p hp
  · intro t ht
    rw [h.toks, List.length_append, List.length_singleton] at ht
    rw [h.precOld t (by omega)]
    exact hok.out t (by omega)
  · intro t p
    rw [h.next, hok.mirror]
    by_cases e : t = n.toks.length
    · subst e
      rw [h.precNew, hok.out _ (Nat.le_refl _)]
      simp
    · rw [h.precOld t e]
      simp [e]

theorem Pushed.get_old {n n' : Net} {w : Word} {g : Nat} {ps : List Nat} (h : Pushed n n' w g ps) {u : Nat} (hu : u < n.toks.length) :
    n'.toks[u]? = n.toks[u]? := by
  rw [h.toks, List.getElem?_append_left hu]

theorem Pushed.get_new {n n' : Net} {w : Word} {g : Nat} {ps : List Nat} (h : Pushed n n' w g ps) :
    n'.toks[n.toks.length]? = some ⟨w, g⟩ := by
  rw [h.toks]
  simp

theorem Pushed.lang_old {n n' : Net} {w : Word} {g : Nat} {ps : List Nat} (h : Pushed n n' w g ps) (hok : NetOk n) {u : Nat}
    (hu : u < n.toks.length) (ws : List Word) : Lang n' u ws ↔ Lang n u ws := by
  constructor
  · intro hl
    induction hl with
    | start t k hk hp =>
      rw [h.get_old hu] at hk
      rw [h.precOld t (by omega)] at hp
      exact .start t k hk hp
    | step p t k ws hk hp _ ih =>
      rw [h.get_old hu] at hk
      rw [h.precOld t (by omega)] at hp
      have := hok.lt t p hp
      exact .step p t k ws hk hp (ih (by omega))
  · intro hl
    induction hl with
    | start t k hk hp =>
      rw [← h.get_old hu] at hk
      rw [← h.precOld t (by omega)] at hp
      exact .start t k hk hp
    | step p t k ws hk hp _ ih =>
      have := hok.lt t p hp
      rw [← h.get_old hu] at hk
      rw [← h.precOld t (by omega)] at hp
      exact .step p t k ws hk hp (ih (by omega))

theorem Pushed.lang_new {n n' : Net} {w : Word} {g : Nat} {ps : List Nat} (h : Pushed n n' w g ps) (hok : NetOk n)
    (hps : ∀ p ∈ ps, p < n.toks.length) (ws : List Word) :
    Lang n' n.toks.length ws ↔ (ps = [] ∧ ws = [w]) ∨ ∃ p ∈ ps, ∃ ws', Lang n p ws' ∧ ws = ws' ++ [w] := by
  constructor
  · intro hl
    generalize ht : n.toks.length = t at hl
    cases hl with
    | start _ k hk hp =>
      left
      rw [← ht, h.get_new] at hk
      rw [← ht, h.precNew] at hp
      cases hk
      exact ⟨hp, rfl⟩
    | step p _ k ws' hk hp hl =>
      right
      rw [← ht, h.get_new] at hk
      rw [← ht, h.precNew] at hp
      cases hk
      exact ⟨p, hp, ws', (h.lang_old hok (hps p hp) ws').1 hl, rfl⟩
  · rintro (⟨h1, h2⟩ | ⟨p, hp, ws', hl, e⟩)
    · rw [h2]
      exact .start _ ⟨w, g⟩ h.get_new (by rw [h.precNew, h1])
    · rw [e]
      exact .step p _ ⟨w, g⟩ ws' h.get_new (by rw [h.precNew]; exact hp) ((h.lang_old hok (hps p hp) ws').2 hl)

theorem Pushed.ends {n n' : Net} {w : Word} {g : Nat} {ps : List Nat} (h : Pushed n n' w g ps) (u : Nat) :
    n'.next u = [] ↔ n.next u = [] ∧ u ∉ ps := by
  rw [List.eq_nil_iff_forall_not_mem, List.eq_nil_iff_forall_not_mem]
  constructor
  · intro hn
    refine ⟨fun x hx => hn x ((h.next u x).2 (.inl hx)), fun hu => hn n.toks.length ((h.next u _).2 (.inr ⟨rfl, hu⟩))⟩
  · rintro ⟨h1, h2⟩ x hx
    rcases (h.next u x).1 hx with hx | ⟨_, hx⟩
    · exact h1 x hx
    · exact h2 hx

theorem Pushed.ends_new {n n' : Net} {w : Word} {g : Nat} {ps : List Nat} (h : Pushed n n' w g ps) (hok : NetOk n)
    (hps : ∀ p ∈ ps, p < n.toks.length) : n'.next n.toks.length = [] := by
  rw [h.ends]
  refine ⟨?_, fun hm => Nat.lt_irrefl _ (hps _ hm)⟩
  rw [List.eq_nil_iff_forall_not_mem]
  intro x hx
  have hx' := (hok.mirror x _).1 hx
  have h1 := hok.lt _ _ hx'
  rw [hok.out x (by omega)] at hx'
  cases hx'

/-- Ways forward and backward. -/
theorem from_lang {n : Net} (hm : ∀ t p, t ∈ n.next p ↔ p ∈ n.prec t) (ws : List Word) :
    Spells n ws ↔ ∃ t, n.next t = [] ∧ Lang n t ws := by
  constructor
  · rintro ⟨t, hp, hf⟩
    have key : ∀ (t : Nat) (ws : List Word), From n t ws → ∀ pre, (pre = [] ∧ n.prec t = []) ∨ (∃ p ∈ n.prec t, Lang n p pre) →
        ∃ u, n.next u = [] ∧ Lang n u (pre ++ ws) := by
      intro t ws hf
      induction hf with
      | stop t k hk hn =>
        rintro pre (⟨rfl, hp⟩ | ⟨p, hp, hl⟩)
        · exact ⟨t, hn, .start t k hk hp⟩
        · exact ⟨t, hn, .step p t k pre hk hp hl⟩
      | step t u k ws hk hu _ ih =>
        intro pre hpre
        have hl : Lang n t (pre ++ [k.word]) := by
          rcases hpre with ⟨rfl, hp⟩ | ⟨p, hp, hl⟩
          · exact .start t k hk hp
          · exact .step p t k pre hk hp hl
        obtain ⟨v, h1, h2⟩ := ih (pre ++ [k.word]) (.inr ⟨t, (hm u t).1 hu, hl⟩)
        exact ⟨v, h1, by simpa using h2⟩
    simpa using key t ws hf [] (.inl ⟨rfl, hp⟩)
  · rintro ⟨t, hn, hl⟩
    have key : ∀ (t : Nat) (ws : List Word), Lang n t ws → ∀ suf, (suf = [] ∧ n.next t = []) ∨ (∃ u ∈ n.next t, From n u suf) →
        Spells n (ws ++ suf) := by
      intro t ws hl
      induction hl with
      | start t k hk hp =>
        rintro suf (⟨rfl, hs⟩ | ⟨u, hu, hf⟩)
        · exact ⟨t, hp, .stop t k hk hs⟩
        · exact ⟨t, hp, .step t u k suf hk hu hf⟩
      | step p t k ws hk hp _ ih =>
        intro suf hsuf
        have hf : From n t (k.word :: suf) := by
          rcases hsuf with ⟨rfl, hs⟩ | ⟨u, hu, hf⟩
          · exact .stop t k hk hs
          · exact .step t u k suf hk hu hf
        have := ih (k.word :: suf) (.inr ⟨t, (hm t p).2 hp, hf⟩)
        simpa using this
    simpa using key t ws hl [] (.inl ⟨rfl, hn⟩)

/-! ## Readings -/

theorem reading_snoc_word (items : List Item) (e : Entry) (ws : List Word) :
    Reading (items ++ [.word e]) ws ↔ ∃ r, Reading items r ∧ ws = r ++ [e.word] := by
  induction items generalizing ws with
  | nil =>
    constructor
    · intro h
      cases h with
      | word _ _ ws' h =>
        cases h
        exact ⟨[], .nil, rfl⟩
    · rintro ⟨r, hr, rfl⟩
      cases hr
      exact .word e [] [] .nil
  | cons i items ih =>
    constructor
    · intro h
      rw [List.cons_append] at h
      cases h with
      | word e' _ ws' h =>
        obtain ⟨r, hr, rfl⟩ := (ih ws').1 h
        exact ⟨e'.word :: r, .word _ _ _ hr, rfl⟩
      | group alts alt _ ws' ha h =>
        obtain ⟨r, hr, rfl⟩ := (ih ws').1 h
        exact ⟨alt.map Entry.word ++ r, .group _ _ _ _ ha hr, by simp⟩
    · rintro ⟨r, hr, rfl⟩
      cases hr with
      | word e' _ ws' h => exact .word _ _ _ ((ih _).2 ⟨ws', h, rfl⟩)
      | group alts alt _ ws' ha h =>
        rw [List.append_assoc]
        exact .group _ _ _ _ ha ((ih _).2 ⟨ws', h, rfl⟩)

theorem reading_snoc_group (items : List Item) (alts : List (List Entry)) (ws : List Word) :
    Reading (items ++ [.group alts]) ws ↔ ∃ r, Reading items r ∧ ∃ alt ∈ alts, ws = r ++ alt.map Entry.word := by
  induction items generalizing ws with
  | nil =>
    constructor
    · intro h
      cases h with
      | group _ alt _ ws' ha h =>
        cases h
        exact ⟨[], .nil, alt, ha, by simp⟩
    · rintro ⟨r, hr, alt, ha, rfl⟩
      cases hr
      have := Reading.group alts alt [] [] ha .nil
      simpa using this
  | cons i items ih =>
    constructor
    · intro h
      rw [List.cons_append] at h
      cases h with
      | word e' _ ws' h =>
        obtain ⟨r, hr, alt, ha, rfl⟩ := (ih ws').1 h
        exact ⟨e'.word :: r, .word _ _ _ hr, alt, ha, rfl⟩
      | group alts' alt' _ ws' ha' h =>
        obtain ⟨r, hr, alt, ha, rfl⟩ := (ih ws').1 h
        exact ⟨alt'.map Entry.word ++ r, .group _ _ _ _ ha' hr, alt, ha, by simp⟩
    · rintro ⟨r, hr, alt, ha, rfl⟩
      cases hr with
      | word e' _ ws' h => exact .word _ _ _ ((ih _).2 ⟨ws', h, alt, ha, rfl⟩)
      | group alts' alt' _ ws' ha' h =>
        rw [List.append_assoc]
        exact .group _ _ _ _ ha' ((ih _).2 ⟨ws', h, alt, ha, rfl⟩)

theorem reading_ne_nil {items : List Item} (h : items ≠ []) (hg : ∀ alts, .group alts ∈ items → ∀ alt ∈ alts, alt ≠ []) {ws : List Word}
    (hr : Reading items ws) : ws ≠ [] := by
  cases hr with
  | nil => exact absurd rfl h
  | word e items ws _ => simp
  | group alts alt items ws ha _ =>
    have := hg alts (List.mem_cons_self ..) alt ha
    cases alt with
    | nil => exact absurd rfl this
    | cons x y => simp

theorem Pushed.used {n n' : Net} {w : Word} {g : Nat} {ps : List Nat} (h : Pushed n n' w g ps) {u : Nat} (hu : u ∈ ps) : n'.next u ≠ [] :=
  fun hn => ((h.ends u).1 hn).2 hu

theorem Pushed.used_old {n n' : Net} {w : Word} {g : Nat} {ps : List Nat} (h : Pushed n n' w g ps) {u : Nat} (hu : n.next u ≠ []) :
    n'.next u ≠ [] := fun hn => hu ((h.ends u).1 hn).1

end Verif.CtmIn
