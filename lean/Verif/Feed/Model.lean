import Verif.Feed.Spec
/-!
# Model of sclite's buffered reading of time-marked files

The table of words of a time-marked file and the table of reference segments are filled piece by piece while the alignment runs
(fillmrks.c, stm.c).  A file is the list of its lines still to be read, and `feof` the flag of the C library: it is set when reading
meets the end of the file, which happens with a last line that no newline ends, or on the attempt to read after the last line.
-/
set_option autoImplicit false
namespace Verif.Feed

/-- Outcomes: a value, a reported error that ends the program, undefined behaviour, a loop that has not ended within the steps given
to it by the model. -/
inductive Res (A : Type) where
  | ok (a : A)
  | fail
  | undef
  | hang
deriving DecidableEq

/-- Sequencing (errors end the program: fillmrks.c:23-27, stm.c:274-278). -/
def Res.bind {A B : Type} : Res A → (A → Res B) → Res B
  | .ok a, f => f a
  | .fail, _ => .fail
  | .undef, _ => .undef
  | .hang, _ => .hang

/-! ## Time-marked words -/

/-- `WTOKE_STR1` (wtokstr1.h:24-36) with the open file: `words` are the entries 1 to `n`, `s` is the first that is still to be used, `max`
the size of the array. -/
structure Tab (L Y : Type) where
  words : List Y
  s : Nat
  max : Nat
  rest : List L
  feof : Bool
deriving DecidableEq

/-- `WTOKE_STR1_init` (wtokeini.c:6-16), for a file with these lines; the size is 5000 in the code. -/
def Tab.init {L Y : Type} (max : Nat) (lines : List L) : Tab L Y := ⟨[], 1, max, lines, false⟩

section
variable {L X Y F : Type} [DecidableEq F] (ends : L → Bool) (read : L → Line X) (tag : Option Y → X → Y) (key : Y → F)

/-- The array is enlarged by `expand_singarr` with the factor 1.3 (memory.h:159-167); the product is taken to be exact. -/
def grow (max : Nat) : Nat := max * 13 / 10

/-- Whether the last word read is of the file of the first one (fillmrks.c:232). -/
def sameEnds (ws : List Y) : Bool :=
  match ws.head?, ws.getLast? with
  | some a, some b => decide (key b = key a)
  | _, _ => false

/-- The loop of `fill_mark_struct` (fillmrks.c:119-236); the last component says that the last thing read (`gets_rtn`) is NULL, as it also
is before the first step.  A word is written to the entry after the last, which has to be within the array. -/
def fillLoop : List L → List Y → Nat → Bool → Bool → Res (Tab L Y × Bool)
  | [], ws, max, feof, null =>
    if ws.length < max - 1 then .ok (⟨ws, 1, max, [], true⟩, true) else .ok (⟨ws, 1, max, [], feof⟩, null)
  | l :: ls, ws, max, feof, null =>
    if ws.length < max - 1 then
      match read l with
      | .comment => fillLoop ls ws max (feof || !ends l) false
      | .fail => .fail
      | .undef => .undef
      | .data x =>
        if ws.length + 1 < max then
          fillLoop ls (ws ++ [tag ws.getLast? x])
            (if max - 1 ≤ ws.length + 1 ∧ sameEnds key (ws ++ [tag ws.getLast? x]) = true then grow max else max)
            (feof || !ends l) false
        else .undef
    else .ok (⟨ws, 1, max, l :: ls, feof⟩, null)

/-- `fill_mark_struct` (fillmrks.c:59-261): words already used are dropped, then the table is filled.  The result tells whether the end
of the file is reported.  The marks for overlapping speech (fillmrks.c:240-248), which nothing uses, are left out. -/
def fill (t : Tab L Y) : Res (Tab L Y × Bool) :=
  if 1 < t.s then
    if t.s ≤ t.words.length + 1 then fillLoop ends read tag key t.rest (t.words.drop (t.s - 1)) t.max t.feof true else .undef
  else fillLoop ends read tag key t.rest t.words t.max t.feof true

/-- `locate_WTOKE_boundary` (fillmrks.c:263-283; `locate_boundary`, fillmrks.c:347-368, is the same): the last word that agrees with the
word `s` without a different one in between; the last word of the table if `s` is beyond it. -/
def bound {G : Type} [DecidableEq G] (k : Y → G) (ws : List Y) (s : Nat) : Nat :=
  match ws.drop (s - 1) with
  | [] => ws.length
  | w :: vs => s + (vs.takeWhile (fun v => decide (k v = k w))).length

/-- The loop of `fill_WTOKE_structure` (fillmrks.c:17-30). -/
def refill : Nat → Bool → Tab L Y → Res (Tab L Y)
  | 0, _, _ => .hang
  | f + 1, eof, t =>
    if bound key t.words t.s = t.words.length ∧ eof = false then
      (fill ends read tag key t).bind fun r => refill f (eof || r.2) r.1
    else .ok t

/-- `fill_WTOKE_structure` (fillmrks.c:11-31); the first argument bounds the number of rounds. -/
def fillWords (f : Nat) (t : Tab L Y) : Res (Tab L Y) := refill ends read tag key f t.feof t

/-- How a file is used by the programs that align time-marked files: the table is filled, the words from `s` to the end of the file named
in the word `s` are used, `s` is moved after them, until the table is used up (ctm2ctm.c:64-65, 86-87, 279-282; mfa.c:151-153 likewise,
channel by channel).  The words of each round. -/
def drain (fillFuel : Nat) : Nat → Tab L Y → Res (List (List Y))
  | 0, _ => .hang
  | f + 1, t =>
    (fillWords ends read tag key fillFuel t).bind fun t' =>
      if t'.s ≤ t'.words.length then
        (drain fillFuel f { t' with s := bound key t'.words t'.s + 1 }).bind fun gs =>
          .ok ((t'.words.drop (t'.s - 1)).take (bound key t'.words t'.s + 1 - t'.s) :: gs)
      else .ok []

end

/-! ## Reference segments -/

/-- `STM` with the open file and the static flag for its end (stm.c:3-11, 255): `segs` are the entries 0 to `num - 1`, `s` is the first that is
still to be used. -/
structure Stm (L Y : Type) where
  segs : List Y
  s : Nat
  max : Nat
  rest : List L
  feof : Bool
  eof : Bool
deriving DecidableEq

/-- `alloc_STM` (stm.c:3-11), with the flag as reset at the end of an alignment (stm.c:258-262); the size is 200 in the code. -/
def Stm.init {L Y : Type} (max : Nat) (lines : List L) : Stm L Y := ⟨[], 0, max, lines, false, false⟩

section
variable {L Y F : Type} [DecidableEq F] (ends skip : L → Bool) (parse : L → Option Y) (key : Y → F)

/-- The reading loop of `fill_STM` with `read_stm_line` (stm.c:36-44, 131-140): comments and empty lines are skipped unless reading them
has met the end of the file.  `parse` is `none` where parsing is undefined. -/
def segLoop : List L → List Y → Nat → Bool → Res (Stm L Y)
  | [], ss, max, feof =>
    if feof = false ∧ ss.length + 1 < max then .ok ⟨ss, 0, max, [], true, true⟩ else .ok ⟨ss, 0, max, [], feof, feof⟩
  | l :: ls, ss, max, feof =>
    if feof = false ∧ ss.length + 1 < max then
      if skip l && ends l then segLoop ls ss max feof
      else
        match parse l with
        | none => .undef
        | some y => segLoop ls (ss ++ [y]) max (!ends l)
    else .ok ⟨ss, 0, max, l :: ls, feof, feof⟩

/-- `fill_STM` (stm.c:100-144): segments already used are dropped if there are two or more of them.  The first unused one has to be within
the table then, or one past it. -/
def fillStm (m : Stm L Y) : Res (Stm L Y) :=
  if 1 < m.s then
    if m.s ≤ m.segs.length then segLoop ends skip parse m.rest (m.segs.drop m.s) m.max m.feof else .undef
  else
    (segLoop ends skip parse m.rest m.segs m.max m.feof).bind fun m' => .ok { m' with s := m.s }

/-- `locate_STM_boundary` (stm.c:147-168): the last segment that agrees with the segment `s` without a different one in between; the number
of segments if that is the last segment of the table. -/
def boundStm {G : Type} [DecidableEq G] (k : Y → G) (ss : List Y) (s : Nat) : Nat :=
  match ss.drop s with
  | [] => ss.length
  | w :: vs =>
    if vs.all (fun v => decide (k v = k w)) then ss.length
    else s + (vs.takeWhile (fun v => decide (k v = k w))).length

/-- The loop of `fill_STM_structure` (stm.c:264-285): `just` says that the table has just been filled, it is then doubled
(stm.c:13-15). -/
def refillStm : Nat → Bool → Stm L Y → Res (Stm L Y)
  | 0, _, _ => .hang
  | f + 1, just, m =>
    if boundStm key m.segs m.s = m.segs.length ∧ m.eof = false then
      (fillStm ends skip parse (if just then { m with max := m.max * 2 } else m)).bind fun m' => refillStm f true m'
    else .ok m

/-- `fill_STM_structure` (stm.c:254-286); the first argument bounds the number of rounds. -/
def fillSegs (f : Nat) (m : Stm L Y) : Res (Stm L Y) := refillStm ends skip parse key f false m

end

/-! ## The loop over files and channels -/

section
variable {L M F C : Type} [DecidableEq F] [DecidableEq C]

/-- The flag `alternate` of a word (fillmrks.c:216-225) in terms of the word before it in the table. -/
def tagTok {K : Type} (prev : Option (Chan.Tok K)) (w : Chan.Word K) : Chan.Tok K :=
  let inAlt := (match prev with
    | some p => p.alternate && decide (p.w.sp ≠ Chan.Sp.altEnd)
    | none => false)
  let starts := (match w.sp with
    | Chan.Sp.word _ => false
    | _ => true)
  ⟨w, inAlt || starts⟩

/-- The part of the outcome of a channel (undefined if an alternation is not closed, see `Chan`). -/
def ofChannel {A : Type} : Option A → Res A
  | none => .undef
  | some a => .ok a

variable (ends : L → Bool) (read : L → Line (Chan.Word (F × C)))
  (ends' skip : M → Bool) (parse : M → Option (Chan.Utt (F × C))) (reduce : Bool)

/-- What one round of the loop in `align_ctm_to_stm_dp` (stm2ctm.c:395-447) does after the tables have been filled: the words of each
utterance, the entries of the tables to continue with.  Messages and comparisons read the segment `s`, which has to be in the table. -/
def round (ss : List (Chan.Utt (F × C))) (s : Nat) (ws : List (Chan.Tok (F × C))) (w : Nat) :
    Res (List (Chan.Utt (F × C) × List (Chan.Tok (F × C))) × Nat × Nat) :=
  let hend := bound (fun t : Chan.Tok (F × C) => t.w.key) ws w
  let rend := boundStm (fun u : Chan.Utt (F × C) => u.key) ss s
  let go := fun hend : Nat =>
    (ofChannel (Chan.alignChannel reduce ((ss.drop s).take (rend + 1 - s)) ((ws.drop (w - 1)).take (hend + 1 - w)))).bind
      fun a => .ok (a, rend + 1, hend + 1)
  if ws.length < w then
    match ss[s]? with
    | none => .undef
    | some _ => go hend
  else if ss.length < s then .fail
  else
    match ss[s]?, ws[w - 1]? with
    | some u, some t => if t.w.key = u.key then go hend else go (w - 1)
    | _, _ => .undef

/-- The loop of `align_ctm_to_stm_dp` (stm2ctm.c:395-447). -/
def loop (fillFuel : Nat) : Nat → Stm M (Chan.Utt (F × C)) → Tab L (Chan.Tok (F × C)) →
    Res (List (Chan.Utt (F × C) × List (Chan.Tok (F × C))))
  | 0, _, _ => .hang
  | f + 1, m, t =>
    (fillSegs ends' skip parse (fun u : Chan.Utt (F × C) => u.key.1) fillFuel m).bind fun m' =>
    (fillWords ends read tagTok (fun t : Chan.Tok (F × C) => t.w.key.1) fillFuel t).bind fun t' =>
    (round reduce m'.segs m'.s t'.words t'.s).bind fun r =>
      if r.2.2 ≤ t'.words.length ∨ r.2.1 < m'.segs.length then
        (loop fillFuel f { m' with s := r.2.1 } { t' with s := r.2.2 }).bind fun x => .ok (r.1 ++ x)
      else .ok r.1

/-- `align_ctm_to_stm_dp` (stm2ctm.c:344-463) up to the alignments, with tables of the given initial sizes (200 and 5000 in the code). -/
def alignBuffered (maxS maxW fuel : Nat) (ref : List M) (hyp : List L) :
    Res (List (Chan.Utt (F × C) × List (Chan.Tok (F × C)))) :=
  loop ends read ends' skip parse reduce fuel fuel (Stm.init maxS ref) (Tab.init maxW hyp)

end

/-! ## Lines -/

/-- A line of a time-marked file as stored (fillmrks.c:184-214): file, channel, begin, whether the times are marked as bad, duration,
word, confidence, correctness. -/
structure Word (N : Type) where
  conv : List Nat
  turn : List Nat
  t1 : N
  bad : Bool
  dur : N
  sp : List Nat
  conf : Option N
  corr : Option N
deriving DecidableEq

/-- The separators of fields: space, tab, newline. -/
def seps : List Nat := [32, 9, 10]

/-- `TEXT_strcasecmp(xconf,"NA")` of fillmrks.c:195. -/
def isNA (f : List Nat) : Bool := f == [78, 65] || f == [110, 97] || f == [78, 97] || f == [110, 65]

/-- Parsing of a line by `fill_mark_struct` (fillmrks.c:121-214).  `fold` is the conversion of case, `num` is `atof`.  A line without a
fifth field makes the code copy from NULL; a copied field of 500 bytes or more overruns its buffer (`LINE_LENGTH`, sctk.h:222, text.c:891-898).
The conversion of broken text that ends the program is `undef` here. -/
def ctmLine {N : Type} (e : Text.Enc) (fold : List Nat → List Nat) (num : List Nat → N) (line : List Nat) : Line (Word N) :=
  if line.head? = some 59 then .comment
  else
    let buf := (fold line)
    let buf := if buf.getLast? = some 10 then buf.dropLast else buf
    if buf = [] then .fail
    else
      match Lines.strtokAll e seps (buf.length + 1) none (some buf) with
      | none => .undef
      | some fs =>
        if (fs.take 7).all (fun f => decide (f.length < 500)) then
          match fs with
          | conv :: turn :: s2 :: s3 :: sp :: more =>
            .data { conv := conv, turn := turn,
                    t1 := (if s2.take 2 = [38, 38] then num (s2.drop 2) else num s2), bad := decide (s2.take 2 = [38, 38]),
                    dur := num s3, sp := sp,
                    conf := (match more.head? with
                      | none => none
                      | some c => if isNA c then none else some (num c)),
                    corr := (more[1]?).map num }
          | _ => .undef
        else .undef

/-- A reference segment as stored (stm.c:60-97): file, channel, speaker, times, labels, text. -/
structure Seg (N : Type) where
  file : List Nat
  chan : List Nat
  spkr : List Nat
  t1 : N
  t2 : N
  labels : Option (List Nat)
  text : List Nat
deriving DecidableEq

/-- Whether the line ends with a separator, i.e. whether a token that leaves nothing to be read is followed by one (stm.c:80). -/
def endsWithSep (line : List Nat) : Bool :=
  match line.getLast? with
  | some c => decide (c ∈ seps)
  | none => false

/-- The line from a token on (stm.c:78-83): the separator after the token is made a space again, if there is one. -/
def restFrom (line tok : List Nat) (base : Option (List Nat)) : List Nat :=
  match base with
  | some [] => if endsWithSep line then tok ++ [32] else tok
  | some r => tok ++ 32 :: r
  | none => tok

/-- The newline at the end of the text is removed (stm.c:95-97), unless it is all of it. -/
def chopText (t : List Nat) : List Nat := if 1 < t.length ∧ t.getLast? = some 10 then t.dropLast else t

/-- One call of `TEXT_strtok` that has to find a field. -/
def field (e : Text.Enc) (base arg : Option (List Nat)) : Option (List Nat × Option (List Nat)) :=
  match Lines.strtok e seps base arg with
  | some (some t, b) => some (t, b)
  | _ => none

/-- The labels and the text after the fifth field (stm.c:66-86). -/
def labelsText (e : Text.Enc) (line : List Nat) (base : Option (List Nat)) : Option (Option (List Nat) × List Nat) :=
  match Lines.strtok e seps base none with
  | none => none
  | some (none, _) => some (none, [])
  | some (some t, b) =>
    if t.head? = some 60 then
      match Lines.strtok e seps b none with
      | none => none
      | some (none, _) => some (some t, [])
      | some (some t', b') => some (some t, restFrom line t' b')
    else some (none, restFrom line t b)

/-- `parse_stm_line` (stm.c:47-98); `none` is undefined behaviour, as with a missing field, whose text is copied from NULL. -/
def stmLine {N : Type} (e : Text.Enc) (fold : List Nat → List Nat) (num : List Nat → N) (line0 : List Nat) : Option (Seg N) :=
  let line := fold line0
  match field e none (some line) with
  | none => none
  | some (file, b) =>
  match field e b none with
  | none => none
  | some (chan, b) =>
  match field e b none with
  | none => none
  | some (spkr, b) =>
  match field e b none with
  | none => none
  | some (t1, b) =>
  match field e b none with
  | none => none
  | some (t2, b) =>
  match labelsText e line b with
  | none => none
  | some (ls, txt) => some ⟨file, chan, spkr, num t1, num t2, ls, chopText txt⟩

/-- The lines skipped by `read_stm_line` (stm.c:38-40): comments of both kinds, empty lines. -/
def stmSkip (l : List Nat) : Bool := (l.take 2 == [59, 59]) || (l.take 2 == [42, 42]) || l.all Lines.isSpace

end Verif.Feed
