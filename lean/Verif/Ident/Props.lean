import Verif.Ident.Model
/-!
# C50: identifiers
-/
set_option autoImplicit false
namespace Verif.Ident

theorem make_eq (w : Nat) (k : Kind) (id : Nat) : make w k id = ((k, (id + 1) % 2 ^ w), (id + 1) % 2 ^ w) := by
  cases k <;> rfl

theorem run_get (w : Nat) : ∀ (ks : List Kind) (id i : Nat), id < 2 ^ w → (run w ks id)[i]? = ks[i]?.map (fun k => (k, (id + i + 1) % 2 ^ w))
  | [], id, i, _ => by simp [run]
  | k :: ks, id, 0, _ => by simp [run, make_eq]
  | k :: ks, id, i + 1, h => by
    unfold run
    rw [make_eq]
    simp only [List.getElem?_cons_succ]
    rw [run_get w ks _ i (Nat.mod_lt _ (by omega))]
    congr 1
    funext k'
    congr 1
    by_cases he : id + 1 = 2 ^ w
    · rw [he, Nat.mod_self, show id + (i + 1) + 1 = 2 ^ w + (0 + i + 1) from by omega, Nat.add_mod_left]
    · rw [Nat.mod_eq_of_lt (show id + 1 < 2 ^ w by omega)]
      congr 1; omega

/-- C50: the `i`-th object made gets the identifier `i + 1`, as long as fewer than `2 ^ w` objects have been made. -/
theorem nth_identifier (w : Nat) (ks : List Kind) (h : ks.length < 2 ^ w) (i : Nat) (k : Kind) (x : Nat)
    (hi : (run w ks start)[i]? = some (k, x)) : x = i + 1 ∧ ks[i]? = some k := by
  rw [run_get w ks start i (by unfold start; omega)] at hi
  cases hk : ks[i]? with
  | none => rw [hk] at hi; simp at hi
  | some k' =>
    rw [hk] at hi
    have hlt := (List.getElem?_eq_some_iff.mp hk).1
    simp only [Option.map_some, Option.some.injEq, Prod.mk.injEq] at hi
    rw [Nat.mod_eq_of_lt (by unfold start; omega)] at hi
    unfold start at hi
    exact ⟨by omega, by rw [hi.1]⟩

example : run 64 [.segment, .token, .token, .group] start = [(.segment, 1), (.token, 2), (.token, 3), (.group, 4)] := by decide

/-- C50: in a run that makes fewer than `2 ^ w` objects, every object asked for is made, no two objects (of one kind or of different kinds)
have the same identifier, identifiers increase in the order of making, and none is zero. -/
theorem identifiers_unique_partial (w : Nat) (ks : List Kind) (h : ks.length < 2 ^ w) :
    (run w ks start).map Prod.fst = ks ∧ Unique (run w ks start) ∧
    ((run w ks start).map Prod.snd).Pairwise (· < ·) ∧ ∀ o ∈ run w ks start, 0 < o.2 := by
  refine ⟨?_, ?_, ?_, ?_⟩
  · apply List.ext_getElem?
    intro i
    rw [List.getElem?_map, run_get w ks start i (by unfold start; omega)]
    cases ks[i]? <;> simp
  · intro i j k x hi hj
    have h1 := (nth_identifier w ks h i k x hi).1
    have h2 := (nth_identifier w ks h j k x hj).1
    omega
  · rw [List.pairwise_iff_getElem]
    intro i j hi hj hij
    simp only [List.getElem_map]
    simp only [List.length_map] at hi hj
    have h1 := (nth_identifier w ks h i ((run w ks start)[i]).1 ((run w ks start)[i]).2 (List.getElem?_eq_getElem hi)).1
    have h2 := (nth_identifier w ks h j ((run w ks start)[j]).1 ((run w ks start)[j]).2 (List.getElem?_eq_getElem hj)).1
    rw [h1, h2]
    omega
  · intro o ho
    obtain ⟨i, hi⟩ := List.mem_iff_getElem?.mp ho
    have := (nth_identifier w ks h i o.1 o.2 hi).1
    omega

example : [Kind.segment, .token, .token, .group].length < 2 ^ 64 := by decide

/-- C50 fails beyond that: objects made `2 ^ w` apart share an identifier (`unsigned long` has 32 bits on some platforms). -/
theorem identifiers_repeat (w : Nat) (k : Kind) (ks : List Kind) (i : Nat) (h1 : ks[i]? = some k) (h2 : ks[i + 2 ^ w]? = some k) :
    ¬ Unique (run w ks start) := by
  have hw : 0 < 2 ^ w := Nat.two_pow_pos w
  intro hu
  have := hu i (i + 2 ^ w) k ((start + i + 1) % 2 ^ w)
    (by rw [run_get w ks start i hw, h1]; rfl)
    (by
      rw [run_get w ks start _ hw, h2, show start + (i + 2 ^ w) + 1 = start + i + 1 + 2 ^ w from by omega, Nat.add_mod_right]; rfl)
  omega

example : (List.replicate 5 Kind.token)[0]? = some .token ∧ (List.replicate 5 Kind.token)[0 + 2 ^ 2]? = some .token := by decide

end Verif.Ident
