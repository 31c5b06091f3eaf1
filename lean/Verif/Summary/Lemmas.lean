import Verif.Summary.Model
import Verif.Summary.Spec
import Verif.Det.Lemmas
import Verif.Range.Props
/-!
# Lemmas for the summaries
-/
set_option autoImplicit false
namespace Verif.Summary
open Verif.Range Verif.Det Verif.Anovar

theorem pow_pos10 (p : Nat) : (0 : Rat) < (10 : Rat) ^ p := Rat.pow_pos (by decide)

theorem fRound_shows {x : Rat} (p : Nat) (h : 0 ≤ x) : Shows p (fRound x p) x := by
  have hp := pow_pos10 p
  unfold Shows fRound
  by_cases h0 : 0 < x
  · rw [if_pos h0]
    have hx : 0 ≤ x * (10 : Rat) ^ p := Rat.mul_nonneg h (Rat.le_of_lt hp)
    have hn : 0 ≤ x * (10 : Rat) ^ p + 1 / 2 := by grind
    rw [trunc_nonneg hn]
    have := (floor_eq_iff (x * (10 : Rat) ^ p + 1 / 2) _).1 rfl
    grind
  · have hx : x = 0 := by grind
    subst hx
    rw [if_neg (by decide), Rat.zero_mul]
    have : trunc (0 + -1 / 2) = 0 := by decide +kernel
    rw [this]
    constructor <;> decide +kernel

theorem shows_unique {p : Nat} {c d : Int} {x : Rat} (h : Shows p c x) (h' : Shows p d x) : c = d := by
  unfold Shows at h h'
  have h1 : (c : Rat) < (d : Rat) + 1 := by grind
  have h2 : (d : Rat) < (c : Rat) + 1 := by grind
  have h3 : c < d + 1 := by exact_mod_cast h1
  have h4 : d < c + 1 := by exact_mod_cast h2
  omega

theorem fRound_nat (n : Nat) : fRound (n : Rat) 0 = (n : Int) := by
  have h := fRound_shows (x := (n : Rat)) 0 (by exact_mod_cast Nat.zero_le n)
  refine shows_unique h ?_
  unfold Shows
  rw [Rat.pow_zero]
  constructor
  · have : (((n : Nat) : Int) : Rat) = (n : Rat) := by norm_cast
    grind
  · have : (((n : Nat) : Int) : Rat) = (n : Rat) := by norm_cast
    grind

theorem fRound_nat10 (n : Nat) : fRound (n : Rat) 1 = 10 * (n : Int) := by
  have h := fRound_shows (x := (n : Rat)) 1 (by exact_mod_cast Nat.zero_le n)
  refine shows_unique h ?_
  unfold Shows
  have e : ((10 * (n : Int) : Int) : Rat) = 10 * (n : Rat) := by norm_cast
  have e1 : (10 : Rat) ^ 1 = 10 := by decide +kernel
  rw [e, e1]
  constructor <;> grind

theorem pctR_eq {a b : Rat} (h : b ≠ 0) : pctR a b = percent a b := by
  unfold pctR percent
  rw [if_neg h, Rat.div_def, Rat.div_def]
  grind

theorem percent_nonneg {a b : Rat} (ha : 0 ≤ a) (hb : 0 < b) : 0 ≤ percent a b := by
  unfold percent
  rw [Rat.div_def]
  exact Rat.mul_nonneg (by grind) (Rat.le_of_lt (Rat.inv_pos.2 hb))

theorem pctR_nonneg {a b : Rat} (ha : 0 ≤ a) (hb : 0 ≤ b) : 0 ≤ pctR a b := by
  by_cases h : b = 0
  · unfold pctR; rw [if_pos h]; exact Rat.le_refl
  · rw [pctR_eq h]; exact percent_nonneg ha (by grind)

theorem percent_add (a b n : Rat) : percent (a + b) n = percent a n + percent b n := by
  unfold percent
  rw [Rat.div_def, Rat.div_def, Rat.div_def]
  grind

theorem percent_self {n : Rat} (h : n ≠ 0) : percent n n = 100 := by
  unfold percent
  rw [Rat.div_def, Rat.mul_assoc, Rat.mul_inv_cancel _ h]
  decide +kernel

/-- Three rounded shares of a whole. -/
theorem three_shares {c s d : Int} {x y z : Rat} (h1 : Shows 1 c x) (h2 : Shows 1 s y) (h3 : Shows 1 d z) (h : x + y + z = 100) :
    999 ≤ c + s + d ∧ c + s + d ≤ 1001 := by
  unfold Shows at h1 h2 h3
  have e1 : (10 : Rat) ^ 1 = 10 := by decide +kernel
  rw [e1] at h1 h2 h3
  have a : ((c + s + d : Int) : Rat) < ((1002 : Int) : Rat) := by
    have : ((1002 : Int) : Rat) = 1002 := by decide +kernel
    rw [Rat.intCast_add, Rat.intCast_add]; grind
  have b : ((998 : Int) : Rat) < ((c + s + d : Int) : Rat) := by
    have : ((998 : Int) : Rat) = 998 := by decide +kernel
    rw [Rat.intCast_add, Rat.intCast_add]; grind
  have a' : c + s + d < 1002 := Rat.intCast_lt_intCast.1 a
  have b' : 998 < c + s + d := Rat.intCast_lt_intCast.1 b
  omega

theorem three_parts {e s d i : Int} {w x y z : Rat} (h0 : Shows 1 e w) (h1 : Shows 1 s x) (h2 : Shows 1 d y) (h3 : Shows 1 i z) (h : w = x + y + z) :
    e - (s + d + i) ≤ 1 ∧ s + d + i - e ≤ 1 := by
  unfold Shows at h0 h1 h2 h3
  have e1 : (10 : Rat) ^ 1 = 10 := by decide +kernel
  rw [e1] at h0 h1 h2 h3
  have a : ((e : Int) : Rat) < ((s + d + i + 2 : Int) : Rat) := by
    rw [Rat.intCast_add, Rat.intCast_add, Rat.intCast_add]
    have : ((2 : Int) : Rat) = 2 := by decide +kernel
    grind
  have b : ((s + d + i : Int) : Rat) < ((e + 2 : Int) : Rat) := by
    rw [Rat.intCast_add, Rat.intCast_add, Rat.intCast_add]
    have : ((2 : Int) : Rat) = 2 := by decide +kernel
    grind
  have a' : e < s + d + i + 2 := by exact_mod_cast a
  have b' : s + d + i < e + 2 := by exact_mod_cast b
  omega

/-! ## Totals -/

theorem trunc_int (i : Int) : trunc (i : Rat) = i := by
  unfold trunc
  split
  · rw [← Rat.intCast_neg, Rat.floor_intCast]; omega
  · exact Rat.floor_intCast i

theorem addInt_int (t i : Int) : addInt t (i : Rat) = t + i := by
  unfold addInt
  rw [← Rat.intCast_add, trunc_int]

theorem addInt_nat (t : Int) (n : Nat) : addInt t (n : Rat) = t + (n : Int) := by
  have : (n : Rat) = ((n : Int) : Rat) := by norm_cast
  rw [this, addInt_int]

/-- Totals of the words counted. -/
theorem totals_nat (m : Mode) (hm : m ≠ .weighted) (gs : List Grp) (t : Totals) :
    gs.foldl (Totals.add m) t = ⟨t.corr + (((gs.map Grp.corr).sum : Nat) : Int), t.sub + (((gs.map Grp.sub).sum : Nat) : Int),
      t.del + (((gs.map Grp.del).sum : Nat) : Int), t.ins + (((gs.map Grp.ins).sum : Nat) : Int),
      t.ref + (((gs.map Grp.corr).sum + (gs.map Grp.sub).sum + (gs.map Grp.del).sum : Nat) : Int),
      t.st + (gs.map Grp.nsent).sum, t.ser + (gs.map Grp.serr).sum,
      t.word + ((gs.map Grp.corr).sum + (gs.map Grp.sub).sum + (gs.map Grp.del).sum)⟩ := by
  induction gs generalizing t with
  | nil => simp
  | cons g gs ih =>
    rw [List.foldl_cons, ih]
    unfold Totals.add trefs
    simp only [if_neg hm, addInt_nat, List.map_cons, List.sum_cons, Totals.mk.injEq, wordNum]
    refine ⟨?_, ?_, ?_, ?_, ?_, ?_, ?_, ?_⟩ <;> omega

theorem foldl_nat {A : Type} (f : A → Nat) (l : List A) (a : Nat) : l.foldl (fun t g => t + f g) a = a + (l.map f).sum := by
  induction l generalizing a with
  | nil => simp
  | cons x l ih => rw [List.foldl_cons, ih, List.map_cons, List.sum_cons]; omega

/-- A weighted total of type `int`. -/
def tot (w : Grp → Rat) (gs : List Grp) (t : Int) : Int := gs.foldl (fun t g => addInt t (w g)) t

theorem totals_weighted (gs : List Grp) (t : Totals) :
    gs.foldl (Totals.add .weighted) t = ⟨tot Grp.wCorr gs t.corr, tot Grp.wSub gs t.sub, tot Grp.wDel gs t.del, tot Grp.wIns gs t.ins,
      tot Grp.wRef gs t.ref, t.st + (gs.map Grp.nsent).sum, t.ser + (gs.map Grp.serr).sum, t.word + (gs.map wordNum).sum⟩ := by
  induction gs generalizing t with
  | nil => rfl
  | cons g gs ih =>
    rw [List.foldl_cons, ih]
    unfold Totals.add trefs tot
    simp only [if_pos, List.foldl_cons, List.map_cons, List.sum_cons, Totals.mk.injEq, true_and]
    refine ⟨?_, ?_, ?_⟩ <;> omega

theorem tot_int (w : Grp → Rat) (k : Grp → Int) (gs : List Grp) (h : ∀ g ∈ gs, w g = (k g : Rat)) (t : Int) : tot w gs t = t + (gs.map k).sum := by
  induction gs generalizing t with
  | nil => simp [tot]
  | cons g gs ih =>
    unfold tot at ih ⊢
    rw [List.foldl_cons, h g (by simp), addInt_int, ih (fun g' hg => h g' (by simp [hg])), List.map_cons, List.sum_cons]
    omega

theorem trunc_bounds {x : Rat} (h : 0 ≤ x) : 0 ≤ trunc x ∧ (trunc x : Rat) ≤ x ∧ x < (trunc x : Rat) + 1 := by
  rw [trunc_nonneg h]
  have := (floor_eq_iff x _).1 rfl
  refine ⟨?_, this⟩
  have hn : ¬ x.floor < 0 := by rw [Rat.floor_lt_iff]; exact Rat.not_lt.2 h
  omega

theorem tot_bounds (w : Grp → Rat) (gs : List Grp) (h : ∀ g ∈ gs, 0 ≤ w g) (t : Int) (ht : 0 ≤ t) :
    0 ≤ tot w gs t ∧ (tot w gs t : Rat) ≤ (t : Rat) + (gs.map w).sum ∧ (t : Rat) + (gs.map w).sum ≤ (tot w gs t : Rat) + (gs.length : Rat) := by
  induction gs generalizing t with
  | nil =>
    have e : (((([] : List Grp).length : Nat)) : Rat) = 0 := by decide +kernel
    have : tot w [] t = t := rfl
    rw [this, e]
    simp only [List.map_nil, List.sum_nil]
    refine ⟨ht, ?_, ?_⟩ <;> grind
  | cons g gs ih =>
    have htq : (0 : Rat) ≤ (t : Rat) := by exact_mod_cast ht
    have hg := h g (by simp)
    have hb := trunc_bounds (x := (t : Rat) + w g) (by grind)
    have hi := ih (fun g' hg => h g' (by simp [hg])) (addInt t (w g)) hb.1
    have e : tot w (g :: gs) t = tot w gs (addInt t (w g)) := rfl
    rw [e]
    have el : (((g :: gs).length : Nat) : Rat) = (gs.length : Rat) + 1 := by rw [List.length_cons]; norm_cast
    rw [el, List.map_cons, List.sum_cons]
    unfold addInt at hi ⊢
    grind

theorem tot_small (w : Grp → Rat) (gs : List Grp) (h : ∀ g ∈ gs, 0 ≤ w g ∧ w g < 1) : tot w gs 0 = 0 := by
  induction gs with
  | nil => rfl
  | cons g gs ih =>
    have e : tot w (g :: gs) 0 = tot w gs (addInt 0 (w g)) := rfl
    have hg := h g (by simp)
    have : addInt 0 (w g) = 0 := by
      unfold addInt
      have e0 : ((0 : Int) : Rat) + w g = w g := by grind
      rw [e0, trunc_nonneg hg.1, floor_eq_iff]
      grind
    rw [e, this]
    exact ih (fun g' hg' => h g' (by simp [hg']))

/-! ## Speakers without words -/

/-- Taking out, along the list of speakers: `k` is the number of the first one. -/
def run : Nat → List Grp → List Rat → List Rat
  | _, [], l => l
  | k, g :: r, l => run (k + 1) r (if wordNum g = 0 then shiftUp l k else l)

theorem run_cons (k : Nat) (g : Grp) (r : List Grp) (l : List Rat) : run k (g :: r) l = run (k + 1) r (if wordNum g = 0 then shiftUp l k else l) := rfl

theorem run_append (a b : List Grp) (k : Nat) (l : List Rat) : run k (a ++ b) l = run (k + a.length) b (run k a l) := by
  induction a generalizing k l with
  | nil => rfl
  | cons g a ih =>
    rw [List.cons_append, run, ih, List.length_cons, run]
    congr 1
    omega

theorem run_words (a : List Grp) (h : ∀ g ∈ a, 0 < wordNum g) (k : Nat) (l : List Rat) : run k a l = l := by
  induction a generalizing k l with
  | nil => rfl
  | cons g a ih =>
    have := h g (by simp)
    rw [run, if_neg (by omega)]
    exact ih (fun g' hg => h g' (by simp [hg])) _ _

theorem run_eq (rest pre : List Grp) (l : List Rat) :
    ((List.range rest.length).map (pre.length + ·)).foldl (fun l i => if ((pre ++ rest).map wordNum).getD i 1 = 0 then shiftUp l i else l) l = run pre.length rest l := by
  induction rest generalizing pre l with
  | nil => rfl
  | cons g r ih =>
    rw [List.length_cons, List.range_succ_eq_map, List.map_cons, List.foldl_cons, List.map_map, run]
    have e0 : ((pre ++ g :: r).map wordNum).getD (pre.length + 0) 1 = wordNum g := by
      rw [Nat.add_zero, List.getD_eq_getElem?_getD, List.getElem?_map, List.getElem?_append_right (by omega), Nat.sub_self]
      rfl
    rw [e0, Nat.add_zero]
    have := ih (pre ++ [g]) (if wordNum g = 0 then shiftUp l pre.length else l)
    rw [List.append_assoc, List.singleton_append, List.length_append, List.length_singleton] at this
    rw [← this]
    congr 1
    refine List.map_congr_left ?_
    intro j _
    show pre.length + (j + 1) = pre.length + 1 + j
    omega

theorem eraseIdx_mid {A : Type} (a b : List A) (x : A) : (a ++ x :: b).eraseIdx a.length = a ++ b := by
  rw [List.eraseIdx_append_of_length_le (by omega), Nat.sub_self]
  rfl

theorem shiftUp_mid (a b : List Rat) (x : Rat) (k : Nat) (h : k = a.length) : shiftUp (a ++ x :: b) k = a ++ b ++ [-1000] := by
  rw [shiftUp, h, eraseIdx_mid]

theorem shiftUp_take (l : List Rat) (k i : Nat) (hk : k ≤ l.length) (hi : k ≤ i) : (shiftUp l i).take k = l.take k ∧ k ≤ (shiftUp l i).length := by
  rw [shiftUp]
  by_cases hil : i < l.length
  · have : k ≤ (l.eraseIdx i).length := by rw [List.length_eraseIdx_of_lt hil]; omega
    refine ⟨?_, by rw [List.length_append]; omega⟩
    rw [List.take_append_of_le_length this, List.eraseIdx_eq_take_drop_succ, List.take_append_of_le_length (by rw [List.length_take]; omega),
      List.take_take, Nat.min_eq_left hi]
  · rw [List.eraseIdx_of_length_le (by omega), List.take_append_of_le_length hk, List.length_append]
    exact ⟨rfl, by omega⟩

/-- Taking out at positions behind what is kept. -/
theorem run_tail (a : List Grp) (n k : Nat) (hi : n ≤ k) (l : List Rat) (hk : n ≤ l.length) : (run k a l).take n = l.take n := by
  induction a generalizing k l with
  | nil => rfl
  | cons g a ih =>
    rw [run]
    split
    · rw [ih (k + 1) (by omega) _ (shiftUp_take l n k hk hi).2, (shiftUp_take l n k hk hi).1]
    · exact ih (k + 1) (by omega) l hk

theorem run_length (a : List Grp) (k : Nat) (x y : List Rat) (h : x.length = y.length) : (run k a x).length = (run k a y).length := by
  induction a generalizing k x y with
  | nil => exact h
  | cons g a ih =>
    rw [run, run]
    refine ih _ _ _ ?_
    split
    · rw [shiftUp, shiftUp, List.length_append, List.length_append, List.length_eraseIdx, List.length_eraseIdx, h]
    · exact h

theorem filter_words (l : List Grp) (h : ∀ g ∈ l, 0 < wordNum g) : l.filter (fun g => decide (0 < wordNum g)) = l :=
  List.filter_eq_self.2 fun g hg => decide_eq_true (h g hg)

theorem filter_zero (l : List Grp) (h : ∀ g ∈ l, wordNum g = 0) : l.filter (fun g => decide (0 < wordNum g)) = [] :=
  List.filter_eq_nil_iff.2 fun g hg => by rw [h g hg]; decide

theorem zeroSpk_words (m : Mode) (hm : m ≠ .raw) (l : List Grp) : zeroSpk m l = l.length - (l.filter fun g => decide (0 < wordNum g)).length := by
  unfold zeroSpk
  induction l with
  | nil => rfl
  | cons g l ih =>
    have hle := List.length_filter_le (fun g => decide (0 < wordNum g)) l
    by_cases h : wordNum g = 0
    · rw [List.filter_cons_of_pos (by simp [hm, h]), List.filter_cons_of_neg (by simp [h]), List.length_cons, List.length_cons, ih]
      omega
    · rw [List.filter_cons_of_neg (by simp [h]), List.filter_cons_of_pos (by simp; omega), List.length_cons, List.length_cons, ih]
      omega

theorem takeOut_eq (m : Mode) (gs : List Grp) (l : List Rat) (h : 0 < zeroSpk m gs) : takeOut m gs l = run 0 gs l := by
  unfold takeOut
  rw [if_pos h]
  have := run_eq gs [] l
  simp only [List.length_nil, Nat.zero_add, List.map_id', List.nil_append] at this
  exact this

/-! ## Entropy -/

theorem foldl_add {A : Type} (f : A → Rat) (l : List A) (a : Rat) : l.foldl (fun s x => s + f x) a = a + (l.map f).sum := by
  induction l generalizing a with
  | nil => rw [List.foldl_nil, List.map_nil, List.sum_nil, Rat.add_zero]
  | cons x l ih => rw [List.foldl_cons, ih, List.map_cons, List.sum_cons]; grind

/-- The contribution of a word. -/
def share (lg : Rat → Rat) (w : HWord) : Rat := if w.correct then lg (clamp w.conf) else lg (1 - clamp w.conf)

theorem logSum_eq (lg : Rat → Rat) (ws : List HWord) : logSum lg ws = (ws.map (share lg)).sum := by
  unfold logSum
  rw [show (fun (s : Rat) (w : HWord) => s + (if w.correct then lg (clamp w.conf) else lg (1 - clamp w.conf))) = fun s w => s + share lg w from rfl,
    foldl_add, Rat.zero_add]

theorem clamp_range (c : Rat) : 0 < clamp c ∧ clamp c < 1 := by
  unfold clamp
  dsimp only
  have h1 : (0 : Rat) < 1 / 10000000 := by decide +kernel
  have h2 : (0 : Rat) < 1 - 1 / 10000000 := by decide +kernel
  split <;> split <;> grind

theorem clamp_id {c : Rat} (h1 : 1 / 10000000 ≤ c) (h2 : c ≤ 1 - 1 / 10000000) : clamp c = c := by
  unfold clamp
  dsimp only
  rw [if_neg (Rat.not_lt.2 h1), if_neg (Rat.not_lt.2 h2)]

theorem clamp_mono {c d : Rat} (h : c ≤ d) : clamp c ≤ clamp d := by
  unfold clamp
  dsimp only
  have h2 : (1 / 10000000 : Rat) < 1 - 1 / 10000000 := by decide +kernel
  repeat' split
  all_goals grind

theorem share_neg {lg : Rat → Rat} (h : LogLike lg) (w : HWord) : share lg w < 0 := by
  unfold share
  have := clamp_range w.conf
  split
  · exact h.neg _ this.1 this.2
  · exact h.neg _ (by grind) (by grind)

theorem sum_neg {A : Type} (f : A → Rat) (l : List A) (hf : ∀ x, f x < 0) : (l.map f).sum ≤ 0 ∧ (l ≠ [] → (l.map f).sum < 0) := by
  induction l with
  | nil => exact ⟨by rw [List.map_nil, List.sum_nil]; exact Rat.le_refl, fun h => absurd rfl h⟩
  | cons x l ih =>
    rw [List.map_cons, List.sum_cons]
    have := hf x
    exact ⟨by grind, fun _ => by grind⟩

theorem entropy_eq (lg : Rat → Rat) {n k : Nat} (hn : 0 < n) (hk : 0 < k) : entropy lg n k = some (uncertainty lg n k) := by
  unfold entropy uncertainty
  rw [if_neg (by omega)]
  dsimp only
  have hN : ((n + k : Nat) : Rat) ≠ 0 := by
    have : (0 : Rat) < ((n + k : Nat) : Rat) := by exact_mod_cast (by omega : 0 < n + k)
    grind
  have : 1 - (n : Rat) / ((n + k : Nat) : Rat) = (k : Rat) / ((n + k : Nat) : Rat) := by
    have e : ((n + k : Nat) : Rat) * ((n + k : Nat) : Rat)⁻¹ = 1 := Rat.mul_inv_cancel _ hN
    have e2 : ((n + k : Nat) : Rat) = (n : Rat) + (k : Rat) := by norm_cast
    rw [Rat.div_def, Rat.div_def]
    generalize ((n + k : Nat) : Rat)⁻¹ = i at e ⊢
    rw [e2] at e
    grind
  rw [this]

theorem ratio_range {n k : Nat} (hn : 0 < n) (hk : 0 < k) : (0 : Rat) < (n : Rat) / ((n + k : Nat) : Rat) ∧ (n : Rat) / ((n + k : Nat) : Rat) < 1 := by
  have hnq : (0 : Rat) < (n : Rat) := by exact_mod_cast hn
  have hN : (0 : Rat) < ((n + k : Nat) : Rat) := by exact_mod_cast (by omega : 0 < n + k)
  constructor
  · rw [Rat.div_def]; exact Rat.mul_pos hnq (Rat.inv_pos.2 hN)
  · rw [Rat.div_lt_iff hN]
    have : (n : Rat) < ((n + k : Nat) : Rat) := by exact_mod_cast (by omega : n < n + k)
    grind

theorem uncertainty_pos {lg : Rat → Rat} (h : LogLike lg) {n k : Nat} (hn : 0 < n) (hk : 0 < k) : 0 < uncertainty lg n k := by
  have r1 := ratio_range hn hk
  have r2 := ratio_range hk hn
  rw [Nat.add_comm k n] at r2
  have a := h.neg _ r1.1 r1.2
  have b := h.neg _ r2.1 r2.2
  have hnq : (0 : Rat) < (n : Rat) := by exact_mod_cast hn
  have hkq : (0 : Rat) < (k : Rat) := by exact_mod_cast hk
  unfold uncertainty
  have a' : 0 < (n : Rat) * (-lg ((n : Rat) / ((n + k : Nat) : Rat))) := Rat.mul_pos hnq (by grind)
  have b' : 0 < (k : Rat) * (-lg ((k : Rat) / ((n + k : Nat) : Rat))) := Rat.mul_pos hkq (by grind)
  grind

theorem sum_share_const (lg : Rat → Rat) (p : Rat) (ws : List HWord) (h : ∀ w ∈ ws, clamp w.conf = p) :
    (ws.map (share lg)).sum = (ws.countP HWord.correct : Rat) * lg p + (ws.countP (fun w => !w.correct) : Rat) * lg (1 - p) := by
  induction ws with
  | nil =>
    rw [List.map_nil, List.sum_nil, List.countP_nil, List.countP_nil]
    have : ((0 : Nat) : Rat) = 0 := by decide +kernel
    rw [this]; grind
  | cons w ws ih =>
    rw [List.map_cons, List.sum_cons, ih (fun w' hw => h w' (by simp [hw]))]
    have hw := h w (by simp)
    unfold share
    rw [hw]
    cases hc : w.correct
    · rw [List.countP_cons_of_neg (by simp [hc]), List.countP_cons_of_pos (by simp [hc])]
      have : ((List.countP (fun w => !w.correct) ws + 1 : Nat) : Rat) = (List.countP (fun w => !w.correct) ws : Rat) + 1 := by norm_cast
      rw [this]
      simp only [Bool.false_eq_true, if_false]
      grind
    · rw [List.countP_cons_of_pos (by simp [hc]), List.countP_cons_of_neg (by simp [hc])]
      have : ((List.countP HWord.correct ws + 1 : Nat) : Rat) = (List.countP HWord.correct ws : Rat) + 1 := by norm_cast
      rw [this]
      simp only [if_true]
      grind

theorem counted_flat (gs : List Grp) (lg : Rat → Rat) (a : Rat) :
    gs.foldl (fun s g => if counted g ≠ [] then s + logSum lg (counted g) else s) a = a + ((gs.flatMap counted).map (share lg)).sum := by
  induction gs generalizing a with
  | nil => rw [List.foldl_nil, List.flatMap_nil, List.map_nil, List.sum_nil, Rat.add_zero]
  | cons g gs ih =>
    rw [List.foldl_cons, ih, List.flatMap_cons, List.map_append, List.sum_append]
    by_cases h : counted g = []
    · rw [if_neg (by simp [h]), h, List.map_nil, List.sum_nil]; grind
    · rw [if_pos h, logSum_eq]; grind

end Verif.Summary
