/-!
# Model of the validator of RTTM files

src/rttmValidator/rttmValidator.pl.  Times are whole nanoseconds, with the arithmetic of the integers instead of floating point; names
of files and speakers are numbers, two of which are equal when the names are the same text.  Types are taken to be written in capitals,
as in the table of lines 50-63.  Of the checks of syntax only those of the times and of the speaker are modelled: the forms of the
fields, the orthography and the confidence are not.  Messages are not modelled, only whether the check passes.
-/
set_option autoImplicit false
namespace Verif.Valid

/-- The types of objects, src/rttmValidator/rttmValidator.pl:50-63. -/
inductive Ty where
  | segment | noscore | noRtMetadata | lexeme | nonLex | nonSpeech | filler | edit | su | ip | cb | ap | speaker | spkrInfo
  deriving Repr, DecidableEq

/-- The subtypes of an interruption point, src/rttmValidator/rttmValidator.pl:345; of other types the subtype is not looked at here. -/
inductive Sub where
  | edit | filler | editFiller | other
  deriving Repr, DecidableEq

/-- A line, src/rttmValidator/rttmValidator.pl:148-161.  A time of `<NA>` counts as `0`, as it does in Perl's arithmetic. -/
structure Obj where
  ty : Ty
  src : Nat
  chnl : Nat
  beg : Int
  dur : Int
  sub : Sub
  spkr : Nat
  deriving Repr, DecidableEq

/-- `TBEG + TDUR`. -/
def Obj.fin (o : Obj) : Int := o.beg + o.dur

/-- The speaker `<NA>`, src/rttmValidator/rttmValidator.pl:548. -/
def naSpk : Nat := 0

/-- `$ROUNDING_THRESHOLD`, src/rttmValidator/rttmValidator.pl:46: `0.000999999` seconds. -/
def thr : Int := 999999

/-- `less_than`, src/rttmValidator/rttmValidator.pl:879-887. -/
def lessThan (a b : Int) : Bool := decide (a + thr < b)

/-- `greater_than`, src/rttmValidator/rttmValidator.pl:889-897. -/
def greaterThan (a b : Int) : Bool := decide (a > b + thr)

/-- `equal_to`, src/rttmValidator/rttmValidator.pl:899-907. -/
def equalTo (a b : Int) : Bool := decide (a - b < thr ∧ b - a < thr)

/-- The objects of a type and a speaker in a channel of a file, sorted by begin: the entry of the hash,
src/rttmValidator/rttmValidator.pl:162, 402-413. -/
def group (sort : List Obj → List Obj) (data : List Obj) (src chnl spkr : Nat) (ty : Ty) : List Obj :=
  sort (data.filter (fun o => o.src == src && o.chnl == chnl && o.spkr == spkr && o.ty == ty))

/-- The loop over the objects of one type and speaker, src/rttmValidator/rttmValidator.pl:450-461. -/
def overlapLoop (point : Bool) (prev : Int) : List Obj → Bool
  | [] => true
  | o :: l => !decide (prev - o.beg > thr) && overlapLoop point (if point then o.beg else o.beg + o.dur) l

/-- Types without a duration, src/rttmValidator/rttmValidator.pl:456. -/
def Ty.point : Ty → Bool
  | .ip | .cb => true
  | _ => false

/-- `check_metadata_overlap`, src/rttmValidator/rttmValidator.pl:437-471.  The loops over the keys of the hash are a loop over the lines
that have the keys. -/
def checkOverlap (sort : List Obj → List Obj) (data : List Obj) : Bool :=
  data.all (fun o => o.ty == .spkrInfo || overlapLoop o.ty.point 0 (group sort data o.src o.chnl o.spkr o.ty))

/-- `find_word`, src/rttmValidator/rttmValidator.pl:783-796. -/
def findWord (data : List Obj) (b e : Int) : Bool :=
  data.any (fun t => decide (t.beg + thr ≥ b) && decide (t.beg + t.dur - thr ≤ e))

/-- `find_type`, src/rttmValidator/rttmValidator.pl:768-781. -/
def findType (data : List Obj) (b e : Int) : Bool :=
  data.any (fun m => decide (b + thr ≥ m.beg) && decide (e - thr ≤ m.beg + m.dur))

/-- `find_partial_coverage`, src/rttmValidator/rttmValidator.pl:727-766. -/
def findPartial : List Obj → Int → Int → Bool
  | [], _, _ => false
  | o :: l, b, e =>
    if lessThan e o.beg || equalTo e o.beg then findPartial l b e
    else if greaterThan b (o.beg + o.dur) || equalTo b (o.beg + o.dur) then findPartial l b e
    else if (greaterThan b o.beg || equalTo b o.beg) && (lessThan e (o.beg + o.dur) || equalTo e (o.beg + o.dur)) then findPartial l b e
    else true

/-- The types that must contain words, src/rttmValidator/rttmValidator.pl:485, 518. -/
def Ty.holds : Ty → Bool
  | .su | .edit | .filler => true
  | _ => false

/-- `check_metadata_content`, src/rttmValidator/rttmValidator.pl:473-501. -/
def checkContent (sort : List Obj → List Obj) (data : List Obj) : Bool :=
  data.all (fun o => !o.ty.holds || findWord (group sort data o.src o.chnl o.spkr .lexeme) o.beg (o.beg + o.dur))

/-- `check_partial_word_coverage`, src/rttmValidator/rttmValidator.pl:503-535. -/
def checkPartial (sort : List Obj → List Obj) (data : List Obj) : Bool :=
  data.all (fun o => o.ty != .lexeme || [Ty.su, .edit, .filler].all (fun ty =>
    !findPartial (group sort data o.src o.chnl o.spkr ty) o.beg (o.beg + o.dur)))

/-- The types that are compared with the regions not scored, src/rttmValidator/rttmValidator.pl:551. -/
def Ty.scored : Ty → Bool
  | .su | .edit | .filler | .speaker | .lexeme | .nonLex | .nonSpeech => true
  | _ => false

/-- `check_noscore_overlap`, src/rttmValidator/rttmValidator.pl:537-567. -/
def checkNoscore (sort : List Obj → List Obj) (data : List Obj) : Bool :=
  data.all (fun o => !o.ty.scored || !findPartial (group sort data o.src o.chnl naSpk .noscore) o.beg (o.beg + o.dur))

/-- `ensure_word_covered_by_metadata_of_type`, src/rttmValidator/rttmValidator.pl:569-596. -/
def checkCovered (sort : List Obj → List Obj) (data : List Obj) (ty : Ty) : Bool :=
  data.all (fun o => o.ty != .lexeme || findType (group sort data o.src o.chnl o.spkr ty) o.beg (o.beg + o.dur))

/-! ## Interruption points -/

/-- What `extract_mde_of_type` keeps of an object, src/rttmValidator/rttmValidator.pl:845: the time at which an interruption point is
due or stands, the subtype of the point, and whether a partner has been found.  The texts for the message are left out. -/
structure Mark where
  time : Int
  sub : Sub
  done : Bool
  deriving Repr, DecidableEq

/-- The test of lines 843-844 and 850-851 of src/rttmValidator/rttmValidator.pl: the object lies in the sentence unit. -/
def inSu (b e : Int) (o : Obj) : Bool :=
  (greaterThan o.beg b || equalTo o.beg b) && (lessThan (o.beg + o.dur) e || equalTo (o.beg + o.dur) e)

/-- `extract_mde_of_type` for EDIT, src/rttmValidator/rttmValidator.pl:841-847. -/
def editsIn (b e : Int) (l : List Obj) : List Mark := (l.filter (inSu b e)).map (fun o => ⟨o.beg + o.dur, .edit, false⟩)

/-- `extract_mde_of_type` for FILLER, src/rttmValidator/rttmValidator.pl:848-854. -/
def fillersIn (b e : Int) (l : List Obj) : List Mark := (l.filter (inSu b e)).map (fun o => ⟨o.beg, .filler, false⟩)

/-- First test for an interruption point, src/rttmValidator/rttmValidator.pl:857-858. -/
def ipInside (b e : Int) (o : Obj) : Bool := (greaterThan o.beg b && lessThan o.beg e) || equalTo o.beg b

/-- Test for an interruption point at the end of the unit, src/rttmValidator/rttmValidator.pl:860-863, where `next` is the begin of the
element of the array after the unit. -/
def ipAtEnd (e : Int) (next : Option Int) (o : Obj) : Bool :=
  equalTo o.beg e && (match next with
    | none => false
    | some nb => equalTo e nb && (o.sub == .edit || o.sub == .other))

/-- `extract_mde_of_type` for IP, src/rttmValidator/rttmValidator.pl:855-869. -/
def ipsIn (b e : Int) (next : Option Int) (l : List Obj) : List Mark :=
  (l.filter (fun o => ipInside b e o || ipAtEnd e next o)).map (fun o => ⟨o.beg, o.sub, false⟩)

/-- The array `@sus` as the loop sees it, src/rttmValidator/rttmValidator.pl:610-611 and 861-862.  `scalar($sus)` is the scalar of a
reference, so the test of line 861 always holds, and looking at the element after the last one makes an empty element there, which the
loop then takes for a unit from `0` to `0`.  Looking at the element after that one cannot happen, because a point at its end is at its
begin. -/
def units (sus ips : List Obj) : List (Int × Int) :=
  sus.map (fun o => (o.beg, o.beg + o.dur)) ++
    (match sus.getLast? with
     | none => []
     | some s => if ips.any (fun o => !ipInside s.beg (s.beg + s.dur) o && equalTo o.beg (s.beg + s.dur)) then [((0 : Int), (0 : Int))] else [])

/-- `find_object`, src/rttmValidator/rttmValidator.pl:712-725.  The type given is not looked at. -/
def findObject (t : Int) (l : List Mark) : Option Nat :=
  l.findIdx? (fun m => decide (m.time - t < thr ∧ t - m.time < thr) && !m.done)

/-- Setting the mark of an element, src/rttmValidator/rttmValidator.pl:653-654. -/
def setDone (i : Nat) (l : List Mark) : List Mark := l.modify i (fun m => { m with done := true })

/-- The loop over the fillers for an edit at `t`, src/rttmValidator/rttmValidator.pl:656-665; it runs once for each filler.  The result
has the fillers and whether one was found. -/
def fillerLoop (t : Int) : Nat → List Mark → Bool → List Mark × Bool
  | 0, fs, found => (fs, found)
  | n + 1, fs, found =>
    match findObject t fs with
    | some k => fillerLoop t n (setDone k fs) true
    | none => fillerLoop t n fs found

/-- The first loop, over the edits, src/rttmValidator/rttmValidator.pl:647-668: edits handled, points, fillers. -/
def editLoop : List Mark → List Mark → List Mark → List Mark × List Mark × List Mark
  | [], ips, fs => ([], ips, fs)
  | e :: es, ips, fs =>
    let r := match findObject e.time ips with
      | none => (e, ips, fs)
      | some i => match (ips[i]?).map Mark.sub with
        | some .edit => ({ e with done := true }, setDone i ips, fs)
        | some .editFiller =>
          let p := fillerLoop e.time fs.length fs false
          if p.2 then ({ e with done := true }, setDone i ips, p.1) else (e, ips, p.1)
        | _ => (e, ips, fs)
    let q := editLoop es r.2.1 r.2.2
    (r.1 :: q.1, q.2.1, q.2.2)

/-- The second loop, over the fillers, src/rttmValidator/rttmValidator.pl:670-681: fillers handled, points. -/
def fillLoop : List Mark → List Mark → List Mark × List Mark
  | [], ips => ([], ips)
  | f :: fs, ips =>
    let r := match findObject f.time ips with
      | none => (f, ips)
      | some i => match (ips[i]?).map Mark.sub with
        | some .filler => ({ f with done := true }, setDone i ips)
        | _ => (f, ips)
    let q := fillLoop fs r.2
    (r.1 :: q.1, q.2)

/-- The check of one unit, src/rttmValidator/rttmValidator.pl:612-700. -/
def checkUnit (edits fillers ips : List Obj) (u : Int × Int) (next : Option Int) : Bool :=
  let q := editLoop (editsIn u.1 u.2 edits) (ipsIn u.1 u.2 next ips) (fillersIn u.1 u.2 fillers)
  let r := fillLoop q.2.2 q.2.1
  q.1.all Mark.done && r.1.all Mark.done && r.2.all Mark.done

/-- The loop over the units, src/rttmValidator/rttmValidator.pl:611-701. -/
def checkUnits (edits fillers ips : List Obj) : List (Int × Int) → Bool
  | [] => true
  | u :: us => checkUnit edits fillers ips u (us.head?.map Prod.fst) && checkUnits edits fillers ips us

/-- `ensure_ip_existed_for_edit_and_filler`, src/rttmValidator/rttmValidator.pl:598-710. -/
def checkIps (sort : List Obj → List Obj) (data : List Obj) : Bool :=
  data.all (fun o => o.ty != .su || (
    let g := group sort data o.src o.chnl o.spkr
    checkUnits (g .edit) (g .filler) (g .ip) (units (g .su) (g .ip))))

/-! ## The whole -/

/-- The options `-u`, `-s`, `-e` and `-p`, src/rttmValidator/rttmValidator.pl:73-82, 376. -/
structure Opts where
  noSu : Bool
  noSpeaker : Bool
  noEdit : Bool
  noSpkrInfo : Bool
  deriving Repr, DecidableEq

/-- `find_speaker`, src/rttmValidator/rttmValidator.pl:814-833: over all files and channels. -/
def findSpeaker (data : List Obj) (spkr : Nat) : Bool := data.any (fun o => o.ty == .spkrInfo && o.spkr == spkr)

/-- The types of which no speaker is asked, src/rttmValidator/rttmValidator.pl:378.  The name `NONSPEECH` of the pattern matches no type. -/
def Ty.noSpeakerAsked : Ty → Bool
  | .spkrInfo | .noscore => true
  | _ => false

/-- The checks of the times and of the speaker in `check_syntax_errors`, src/rttmValidator/rttmValidator.pl:228-267, 376-382. -/
def checkSyntax (op : Opts) (data : List Obj) : Bool :=
  data.all (fun o => (o.ty == .spkrInfo || decide (0 ≤ o.beg)) && (o.ty == .spkrInfo || o.ty.point || decide (0 ≤ o.dur)) &&
    (op.noSpkrInfo || o.ty.noSpeakerAsked || findSpeaker data o.spkr))

/-- `check_logic_errors`, src/rttmValidator/rttmValidator.pl:395-435; the types given are those of lines 77-80. -/
def checkLogic (sort : List Obj → List Obj) (op : Opts) (data : List Obj) : Bool :=
  checkOverlap sort data && checkContent sort data && checkPartial sort data && checkNoscore sort data &&
    (op.noSu || checkCovered sort data .su) && (op.noSpeaker || checkCovered sort data .speaker) && (op.noEdit || checkIps sort data)

/-- Whether the program exits with `0`, src/rttmValidator/rttmValidator.pl:113-117. -/
def valid (sort : List Obj → List Obj) (op : Opts) (data : List Obj) : Bool := checkSyntax op data && checkLogic sort op data

end Verif.Valid
