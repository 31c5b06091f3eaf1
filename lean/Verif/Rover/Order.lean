import Verif.Rover.Final
import Verif.Rover.Vote
/-!
# The vote, slot by slot
-/
set_option autoImplicit false
namespace Verif.Rover
open Verif.Net
variable {W V : Type}

theorem push_again {cur : Bool} {v : Nat} : ∀ (l : List Nat) (s : TState), (∀ x ∈ l, x = v) → s.fl.flag2 v ≠ cur →
    l.foldl (pushNode false cur) s = s := by
  intro l
  induction l with
  | nil => intro s _ _; rfl
  | cons x l ih =>
    intro s hl hv
    have hx := hl x (by simp)
    subst hx
    have e : pushNode false cur s x = s := by
      unfold pushNode
      simp [hv]
    rw [List.foldl_cons, e]
    exact ih s (fun y hy => hl y (by simp [hy])) hv

theorem push_bundle {cur : Bool} {v : Nat} (l : List Nat) (hne : l ≠ []) (s : TState) (hl : ∀ x ∈ l, x = v)
    (hv : s.fl.flag2 v = cur) : l.foldl (pushNode false cur) s =
      ⟨{ s.fl with flag2 := upd s.fl.flag2 v (!cur) }, v :: s.fringe, s.nodes, s.arcs⟩ := by
  cases l with
  | nil => exact absurd rfl hne
  | cons x l =>
    have hx := hl x (by simp)
    subst hx
    have e : pushNode false cur s x =
        ⟨{ s.fl with flag2 := upd s.fl.flag2 x (!cur) }, x :: s.fringe, s.nodes, s.arcs⟩ := by
      unfold pushNode
      simp [hv]
    rw [List.foldl_cons, e]
    apply push_again l _ fun y hy => hl y (by simp [hy])
    show upd s.fl.flag2 x (!cur) x ≠ cur
    rw [upd_self]
    cases cur <;> simp

theorem trav_seg {n : Net W} {cur : Bool} : ∀ (ps : List (Nat × List Nat)) (u : Nat) (fl : Flags) (done arcs : List Nat)
    (fuel : Nat), Seg n u ps → (nodes u ps).Nodup → n.out (last u ps) = [] → (∀ v ∈ ps.map Prod.fst, fl.flag2 v = cur) →
    ps.length < fuel → ∃ st, travLoop n false cur (fun f _ => f) fuel ⟨fl, [u], done, arcs⟩ = some st ∧
      st.nodes = done ++ nodes u ps := by
  intro ps
  induction ps with
  | nil =>
    intro u fl done arcs fuel _ _ hout _ hf
    cases fuel with
    | zero => omega
    | succ fuel =>
      have ho : n.out u = [] := hout
      refine ⟨⟨fl, [], done ++ [u], arcs ++ n.out u⟩, ?_, rfl⟩
      unfold travLoop
      simp only [ho]
      show travLoop n false cur _ fuel ⟨fl, [], done ++ [u], arcs ++ []⟩ = _
      cases fuel <;> simp [travLoop]
  | cons p ps ih =>
    intro u fl done arcs fuel hseg hnd hout hfl hf
    obtain ⟨v, A⟩ := p
    obtain ⟨⟨h1, h2, h3, h4, h5⟩, h6⟩ := hseg
    cases fuel with
    | zero => omega
    | succ fuel =>
      have hnd' : (nodes v ps).Nodup := (List.nodup_cons.1 hnd).2
      have hb := push_bundle (cur := cur) (v := v) ((n.out u).map n.dst) (by rw [h1]; simpa using h3)
        ⟨fl, [], done ++ [u], arcs⟩ (by
          intro x hx
          obtain ⟨a, ha, e⟩ := List.mem_map.1 hx
          rw [h1] at ha
          rw [← e]; exact (h5 a ha).2.1) (hfl v (by simp))
      obtain ⟨st, e1, e2⟩ := ih v { fl with flag2 := upd fl.flag2 v (!cur) } (done ++ [u]) (arcs ++ n.out u) fuel h6 hnd' hout (by
        intro w hw
        have hne : w ≠ v := by
          intro e
          rw [e] at hw
          exact (List.nodup_cons.1 hnd').1 hw
        show upd fl.flag2 v _ w = _
        rw [upd_ne _ _ _ _ hne]
        exact hfl w (by simp at hw ⊢; right; exact hw)) (by simp at hf; omega)
      refine ⟨st, ?_, ?_⟩
      · unfold travLoop
        simp only
        rw [hb]
        exact e1
      · rw [e2]
        simp [nodes]

/-- The nodes are visited from left to right. -/
theorem trav_lin {r : FNet W} {ps : List (Nat × List Nat)} (h : Lin r.net ps) (he : Even r) :
    ∃ st, depthTraverse r.net r.fl = some st ∧ st.nodes = nodes r.net.start ps := by
  have hlen : ps.length < r.net.nNodes := by
    have := nodup_bound h.nodup h.lt
    simp [nodes] at this
    omega
  obtain ⟨st, e1, e2⟩ := trav_seg (cur := r.fl.flag2 r.net.start) ps r.net.start
    { r.fl with flag2 := upd r.fl.flag2 r.net.start (!r.fl.flag2 r.net.start) } [] [] r.net.nNodes h.seg h.nodup h.fin (by
      intro v hv
      have hne : v ≠ r.net.start := by
        intro e
        rw [e] at hv
        exact (List.nodup_cons.1 h.nodup).1 hv
      show upd r.fl.flag2 _ _ v = _
      rw [upd_ne _ _ _ _ hne]
      apply he
      obtain ⟨pre, A, post, e⟩ := pair_split hv
      have hs := h.seg
      rw [e, seg_append] at hs
      rw [hs.2.1.2.1]
      exact hs.2.1.2.2.1) hlen
  exact ⟨st, e1, by simpa using e2⟩

theorem mapM_some {α β : Type} (f : α → Option β) (l : List α) (l' : List β) (h : l.map f = l'.map some) :
    l.mapM f = some l' := by
  induction l generalizing l' with
  | nil =>
    cases l' with
    | nil => rfl
    | cons => simp at h
  | cons a l ih =>
    cases l' with
    | nil => simp at h
    | cons b l' =>
      simp only [List.map_cons, List.cons.injEq] at h
      rw [List.mapM_cons, h.1, ih l' h.2]
      rfl

theorem lines_seg (eq : V → V → Bool) (null : V) (m : Meth) (alpha : Rat) {n : Net (Tok V)} :
    ∀ (ps : List (Nat × List Nat)) (u : Nat) (slots : List (List (Tok V))), Seg n u ps → (nodes u ps).Nodup →
    n.stop = some (last u ps) → wordsOf n.data (ps.map Prod.snd) = slots.map (List.map some) →
    ((nodes u ps).mapM (nodeLines eq null m alpha n)).map List.flatten =
      (slots.mapM (vote eq null m alpha)).map List.flatten := by
  intro ps
  induction ps with
  | nil =>
    intro u slots _ _ hs hw
    have : slots = [] := by
      cases slots with
      | nil => rfl
      | cons => simp [wordsOf] at hw
    subst this
    have e : nodeLines eq null m alpha n u = some [] := by
      unfold nodeLines
      rw [if_pos (by rw [hs]; rfl)]
    show Option.map List.flatten (([u] : List Nat).mapM (nodeLines eq null m alpha n)) = _
    simp [e]
  | cons p ps ih =>
    intro u slots hseg hnd hs hw
    obtain ⟨v, A⟩ := p
    obtain ⟨⟨h1, h2, h3, h4, h5⟩, h6⟩ := hseg
    cases slots with
    | nil => simp [wordsOf] at hw
    | cons slot slots =>
      simp only [wordsOf, List.map_cons, List.cons.injEq] at hw
      have hnd' : (nodes v ps).Nodup := (List.nodup_cons.1 hnd).2
      have hi := ih v slots h6 hnd' hs hw.2
      have e : nodeLines eq null m alpha n u = vote eq null m alpha slot := by
        unfold nodeLines
        rw [if_neg]
        · rw [h1]
          cases A with
          | nil => exact absurd rfl h3
          | cons a as =>
            simp only
            rw [if_pos, mapM_some n.data (a :: as) slot hw.1]
            rw [List.all_eq_true]
            intro x hx
            have e1 := (h5 x (by simp [hx])).2.1
            have e2 := (h5 a (by simp)).2.1
            simp [e1, e2]
        · intro e
          rw [hs] at e
          injection e with e
          have hl : last u ((v, A) :: ps) ∈ nodes v ps := last_mem v ps
          rw [e] at hl
          exact (List.nodup_cons.1 hnd).1 hl
      show Option.map List.flatten ((u :: nodes v ps).mapM (nodeLines eq null m alpha n)) = _
      rw [List.mapM_cons, List.mapM_cons, e]
      cases hv : vote eq null m alpha slot with
      | none => rfl
      | some L =>
        simp only [Option.bind_eq_bind, Option.bind_some, Option.pure_def]
        cases h7 : (nodes v ps).mapM (nodeLines eq null m alpha n) with
        | none =>
          rw [h7] at hi
          cases h8 : slots.mapM (vote eq null m alpha) with
          | none => rfl
          | some M => rw [h8] at hi; cases hi
        | some M =>
          rw [h7] at hi
          cases h8 : slots.mapM (vote eq null m alpha) with
          | none => rw [h8] at hi; cases hi
          | some M' =>
            rw [h8] at hi
            have hi : M.flatten = M'.flatten := by simpa using hi
            simp [hi]

theorem chunk_ok (F : Funcs (Tok V)) (null : Tok V) (t0 : Nat → Table) (eq : V → V → Bool) (mt : Meth) (alpha : Rat) (m : Int)
    (systems : List (List (Tok V))) (hne : systems ≠ []) (hsize : total systems * systems.length < 65534)
    (hm : F.Below m (total systems * systems.length + total systems)) :
    ∃ slots table, Placed null systems slots table ∧ chunk F null t0 eq mt alpha (systems.map sysNet) =
      if slots = [] then vote eq null.val mt alpha [] else (slots.mapM (vote eq null.val mt alpha)).map List.flatten := by
  obtain ⟨r, slots, table, h1, h2, h3, hn, h4⟩ := dpalignN_ok F null t0 m systems hne hsize hm
  refine ⟨slots, table, h3, ?_⟩
  unfold chunk
  rw [h1]
  simp only
  by_cases hs : slots = []
  · rw [if_pos hs]
    subst hs
    obtain ⟨g1, g2⟩ : r.net.stop = none ∧ r.net.out r.net.start = [] := h2
    have : depthTraverse r.net r.fl = some
        ⟨{ r.fl with flag2 := upd r.fl.flag2 r.net.start (!r.fl.flag2 r.net.start) }, [], [r.net.start], []⟩ := by
      unfold depthTraverse travRun
      cases hk : r.net.nNodes with
      | zero => omega
      | succ k =>
        simp only
        unfold travLoop
        simp only [g2]
        show travLoop r.net false _ _ k ⟨_, [], _, _⟩ = _
        cases k <;> simp [travLoop]
    rw [this]
    simp [nodeLines, g1, g2]
    cases vote eq null.val mt alpha [] <;> simp
  · rw [if_neg hs]
    obtain ⟨qs, k1, k2, k3⟩ := h4 hs
    obtain ⟨st, e1, e2⟩ := trav_lin k1 k3
    rw [e1]
    simp only
    rw [e2]
    exact lines_seg eq null.val mt alpha qs r.net.start slots k1.seg k1.nodup k1.stop k2

end Verif.Rover
