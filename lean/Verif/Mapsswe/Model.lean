import Verif.Mapsswe.Spec
/-!
# Model of the matched-pairs test (sclite `mtchprs.c`)

`none` stands for undefined behaviour (reading outside of an array, `strcmp` of a null pointer).
-/
set_option autoImplicit false
namespace Verif.Mapsswe

/-- The states of the segmentation (mtchprs.c:427, 503-557). -/
inductive St where
  | b
  | e
  | g
deriving DecidableEq

/-- Local variables of `test_comp_sents` (mtchprs.c:424-427) and the list of segments. -/
structure S where
  ind1 : Nat
  ind2 : Nat
  eog1 : Nat
  eog2 : Nat
  st : St
  good : Nat
  segs : List Seg

section
variable {W : Type} [DecidableEq W]

/-- `ind < snt->num && snt->pset[ind].eval == P_CORR` (mtchprs.c:507-508 and the like). -/
def isCorr (p : List (Entry W)) (i : Nat) : Bool := (p[i]?.map (·.ev)) == some Ev.corr

/-- The loops over insertions (mtchprs.c:439-442). -/
def skipIns (p : List (Entry W)) : Nat → Nat → Nat
  | 0, i => i
  | f + 1, i => if (p[i]?.map (·.ev)) == some Ev.ins then skipIns p f (i + 1) else i

/-- `strcmp(snt1->pset[i].a_ptr,snt2->pset[j].a_ptr) != 0`; undefined for null pointers (mtchprs.c:450, 471). -/
def refsDiffer (p q : List (Entry W)) (i j : Nat) : Option Bool :=
  match p[i]?, q[j]? with
  | some a, some c =>
    match a.ref, c.ref with
    | some x, some y => some (decide (x ≠ y))
    | _, _ => none
  | _, _ => none

/-- The test for lost synchrony (mtchprs.c:447-451). -/
def outOfSync (p q : List (Entry W)) (i j : Nat) : Option Bool :=
  let null1 := match p[i]? with | some a => a.ref.isNone | none => false
  let null2 := match q[j]? with | some a => a.ref.isNone | none => false
  if (null1 ^^ null2) = true then some true
  else match p[i]?, q[j]? with
    | some a, some c => (refsDiffer p q i j).map (fun d => d && decide (a.ev ≠ c.ev))
    | _, _ => some false

/-- The inner search loop (mtchprs.c:467-478): `i2` and whether the sentences are in synchrony. -/
def syncInner (p q : List (Entry W)) (i1 lim : Nat) : Nat → Nat → Option (Nat × Bool)
  | 0, i2 => some (i2, false)
  | f + 1, i2 =>
    if i2 < q.length ∧ i2 ≤ lim then
      match refsDiffer p q i1 i2 with
      | none => none
      | some true => some (i2, true)
      | some false => syncInner p q i1 lim f (i2 + 1)
    else some (i2, false)

/-- The outer search loop (mtchprs.c:465-481). -/
def syncOuter (p q : List (Entry W)) (ind1 ind2 : Nat) : Nat → Nat → Nat → Option (Option (Nat × Nat))
  | 0, _, _ => some none
  | f + 1, i1, i2 =>
    if i1 < p.length then
      match syncInner p q i1 (ind2 + 1 + (i1 - ind1)) (q.length + 1) i2 with
      | none => none
      | some (j, true) => some (some (i1, j))
      | some (j, false) => syncOuter p q ind1 ind2 f (i1 + 1) j
    else some none

/-- Some entry from `i` to `j` is not correct (mtchprs.c:487-490). -/
def anyError (p : List (Entry W)) (i j : Nat) : Bool := ((p.take (j + 1)).drop i).any (fun e => e.ev ≠ Ev.corr)

/-- The resynchronisation (mtchprs.c:447-498). -/
def resync (p q : List (Entry W)) (s : S) : Option S :=
  match outOfSync p q s.ind1 s.ind2 with
  | none => none
  | some false => some s
  | some true =>
    match syncOuter p q s.ind1 s.ind2 (p.length + 1) s.ind1 s.ind2 with
    | none => none
    | some none => some s
    | some (some (i1, i2)) =>
      some { s with
        st := if anyError p s.ind1 i1 || anyError q s.ind2 i2 then St.e else s.st
        ind1 := i1
        ind2 := i2 }

/-- `seg_count`, errors, for the entries from `from` to before `to` (mtchprs.c:619-630). -/
def segErr (p : List (Entry W)) (beg fin : Nat) : Nat := ((p.take fin).drop beg).countP (fun e => e.ev ≠ Ev.corr)

/-- `seg_count`, reference words (mtchprs.c:619-630). -/
def segRef (p : List (Entry W)) (beg fin : Nat) : Nat := ((p.take fin).drop beg).countP (fun e => e.ev ≠ Ev.ins)

/-- `count_seg` (mtchprs.c:568-614); the ends are exclusive; the list grows as needed. -/
def countSeg (p q : List (Entry W)) (beg1 beg2 : Int) (fin1 fin2 : Nat) (segs : List Seg) : List Seg :=
  let b1 := (if beg1 < 0 then 0 else beg1).toNat
  let b2 := (if beg2 < 0 then 0 else beg2).toNat
  let e1 := segErr p b1 fin1
  let e2 := segErr q b2 fin2
  let r := (segRef p b1 fin1 + segRef q b2 fin2) / 2
  if e1 = 0 ∧ e2 = 0 then segs else segs ++ [⟨r, e1, e2⟩]

/-- A segment ends at the current words (mtchprs.c:524-528, 545-548). -/
def endSeg (p q : List (Entry W)) (mg : Nat) (s : S) : S :=
  { s with
    segs := countSeg p q ((s.eog1 : Int) - ((mg : Int) - 1)) ((s.eog2 : Int) - ((mg : Int) - 1)) (s.ind1 + 1) (s.ind2 + 1) s.segs
    eog1 := s.ind1
    eog2 := s.ind2
    st := St.b }

/-- The switch (mtchprs.c:502-558). -/
def switch (p q : List (Entry W)) (mg : Nat) (s : S) : S :=
  let both := isCorr p s.ind1 && isCorr q s.ind2
  match s.st with
  | St.b => if both then { s with eog1 := s.ind1, eog2 := s.ind2 } else { s with st := St.e }
  | St.e =>
    if both then
      if 1 = mg then endSeg p q mg { s with good := 1 } else { s with good := 1, st := St.g }
    else s
  | St.g =>
    if both then
      if s.good + 1 = mg then endSeg p q mg { s with good := s.good + 1 } else { s with good := s.good + 1, st := St.g }
    else { s with st := St.e }

/-- Skipping the insertions of both (mtchprs.c:438-442). -/
def skipBoth (p q : List (Entry W)) (s : S) : S :=
  let i1 := skipIns p p.length s.ind1
  let i2 := skipIns q q.length s.ind2
  { s with ind1 := i1, ind2 := i2, st := if i1 ≠ s.ind1 ∨ i2 ≠ s.ind2 then St.e else s.st }

/-- Body of the loop (mtchprs.c:434-563). -/
def body (p q : List (Entry W)) (mg : Nat) (s : S) : Option S :=
  match resync p q (skipBoth p q s) with
  | none => none
  | some s2 =>
    let s3 := switch p q mg s2
    some { s3 with
      ind1 := if s3.ind1 < p.length then s3.ind1 + 1 else s3.ind1
      ind2 := if s3.ind2 < q.length then s3.ind2 + 1 else s3.ind2 }

/-- The loop (mtchprs.c:434).  Running out of steps counts as undefined and is shown not to happen. -/
def loop (p q : List (Entry W)) (mg : Nat) : Nat → S → Option S
  | 0, s => if s.ind1 < p.length then none else some s
  | f + 1, s =>
    if s.ind1 < p.length then
      match body p q mg s with
      | none => none
      | some s' => loop p q mg f s'
    else some s

/-- The last segment (mtchprs.c:565-574). -/
def finish (p q : List (Entry W)) (mg : Nat) (s : S) : List Seg :=
  if s.st ≠ St.b ∨ (s.st = St.b ∧ q.length > s.ind2) then
    countSeg p q ((s.eog1 : Int) - ((mg : Int) - 1)) ((s.eog2 : Int) - ((mg : Int) - 1)) p.length q.length s.segs
  else s.segs

/-- `test_comp_sents` (mtchprs.c:422-575). -/
def compSents (p q : List (Entry W)) (mg : Nat) (segs : List Seg) : Option (List Seg) :=
  (loop p q mg p.length ⟨0, 0, 0, 0, St.b, 0, segs⟩).map (finish p q mg)

end

section
variable {N I P : Type} [DecidableEq N] [DecidableEq I]

/-- The search for a speaker of that name, or a sentence with that id (mtchprs.c:229-231, 237-246). -/
def lookup {K X : Type} [DecidableEq K] (k : K) : List (K × X) → Option X
  | [] => none
  | g :: gs => if k = g.1 then some g.2 else lookup k gs

/-- The pairs of sentences compared, in order (mtchprs.c:227-253). -/
def pairs (x y : System N I P) : List (P × P) :=
  x.flatMap (fun g => match lookup g.1 y with
    | none => []
    | some ss => g.2.filterMap (fun s => (lookup s.1 ss).map (fun q => (s.2, q))))

/-- Segmenting all pairs into one list (mtchprs.c:241-243). -/
def allSegs {W : Type} [DecidableEq W] (mg : Nat) : List (List (Entry W) × List (Entry W)) → List Seg → Option (List Seg)
  | [], segs => some segs
  | c :: cs, segs =>
    match compSents c.1 c.2 mg segs with
    | none => none
    | some segs' => allSegs mg cs segs'

/-- `calc_mean_var_std_dev_Zstat` and `analyze_Z_score` with `Z_pass` (statdist.c:594-628, 720-726; mtchprs.c:365-389):
without numbers the median is read from `Z_list[ptr[-1]]`.  The square of the statistic is compared with that of the
threshold 1.96. -/
def zVerdict (d : List Int) : Option Int :=
  if d.length = 0 then none
  else
    let n : Rat := (d.length : Rat)
    let mean : Rat := (d.sum : Rat) / n
    let tmp : Rat := (d.map (fun (x : Int) => ((x : Rat) - mean) * ((x : Rat) - mean))).sum
    let zz : Rat := if tmp ≠ 0 then mean * mean * n / (tmp / (n - 1)) else 0
    let eval : Int := if zz > (1960 / 1000) * (1960 / 1000) then 1 else 0
    some (if mean < 0 then eval * (-1) else eval)

/-- `do_mtch_pairs_on_sys` (mtchprs.c:214-284): the verdict, −1 the first system is better, 1 the second. -/
def mapsswe {W : Type} [DecidableEq W] (x y : System N I (List (Entry W))) (mg : Nat) : Option Int :=
  match allSegs mg (pairs x y) [] with
  | none => none
  | some segs => zVerdict (segs.map (fun s => (s.err1 : Int) - (s.err2 : Int)))

end

end Verif.Mapsswe
