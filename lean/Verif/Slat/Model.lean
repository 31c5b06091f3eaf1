import Verif.Rttm.Model
/-!
# Model of the report on latencies

src/slatreport/slatreport.pl.  Times are integers in some unit; names and the texts of times are numbers, equal when the texts are.  To
stay in the integers, latencies are counted in half units, a mean is a sum and a number, the limits of the ranges of a histogram are
multiplied by the number of ranges.  The pictures and the printed text are not modelled.
-/
set_option autoImplicit false
namespace Verif.Slat

/-- The keys of the hash, src/slatreport/slatreport.pl:302: type, file, channel, subtype, name, and the begin as it is written. -/
structure Key where
  ty : Nat
  file : Nat
  chan : Nat
  sub : Nat
  name : Nat
  text : Nat
  deriving Repr, DecidableEq

/-- A line that is neither empty nor a comment, src/slatreport/slatreport.pl:289-300: number of fields, key, begin, duration (`none` for
`<NA>`) and latency (`none` for `<NA>`). -/
structure Line where
  nf : Nat
  key : Key
  beg : Int
  dur : Option Int
  slat : Option Int
  deriving Repr, DecidableEq

/-- What the hash has for a key, src/slatreport/slatreport.pl:302-304. -/
structure Entry where
  key : Key
  beg : Int
  dur : Int
  slat : Int
  deriving Repr, DecidableEq

/-- Writing to the hash, src/slatreport/slatreport.pl:302-304; a second entry with the same keys takes the place of the first. -/
def put (e : Entry) : List Entry → List Entry
  | [] => [e]
  | a :: l => if a.key = e.key then e :: l else a :: put e l

/-- The loop over the lines, src/slatreport/slatreport.pl:287-305; `none` when the program dies. -/
def loadFrom : List Entry → List Line → Option (List Entry)
  | h, [] => some h
  | h, l :: ls =>
    if l.nf ≠ 10 then none
    else match l.slat with
      | none => loadFrom h ls
      | some s => loadFrom (put ⟨l.key, l.beg, l.dur.getD 0, s⟩ h) ls

/-- `LoadRTTM`, src/slatreport/slatreport.pl:278-310.  The order of the keys of a hash is not defined; here it is that of the lines. -/
def load (ls : List Line) : Option (List Entry) := loadFrom [] ls

/-- `IsElement`, src/slatreport/slatreport.pl:262-276. -/
def isElement (e : Nat) (l : List Nat) : Bool := l.isEmpty || l.any (fun x => x == e)

/-- The conditions given with options, src/slatreport/slatreport.pl:53-57. -/
structure Cond where
  files : List Nat
  chans : List Nat
  names : List Nat
  types : List Nat
  subs : List Nat
  deriving Repr, DecidableEq

/-- The tests of src/slatreport/slatreport.pl:204-222. -/
def Cond.sat (c : Cond) (k : Key) : Bool :=
  isElement k.ty c.types && isElement k.file c.files && isElement k.chan c.chans && isElement k.sub c.subs && isElement k.name c.names

/-- Latency from the begin, in half units, src/slatreport/slatreport.pl:230. -/
def Entry.latBeg (e : Entry) : Int := 2 * (e.slat - e.beg)

/-- Latency from the middle, in half units, src/slatreport/slatreport.pl:231, 302. -/
def Entry.latMid (e : Entry) : Int := 2 * e.slat - (2 * e.beg + e.dur)

/-- Latency from the end, in half units, src/slatreport/slatreport.pl:232, 303. -/
def Entry.latEnd (e : Entry) : Int := 2 * (e.slat - (e.beg + e.dur))

/-- The sum in `mean`, src/slatreport/slatreport.pl:312-324. -/
def total (l : List Int) : Int := l.foldl (fun s x => s + x) 0

/-- The sum in `stddev`, src/slatreport/slatreport.pl:326-339, times the square of the number of values: the program divides by the number
and takes the root. -/
def deviation (l : List Int) : Int := l.foldl (fun s x => s + (l.length * x - total l) * (l.length * x - total l)) 0

/-- A range of the histogram, with its limits as printed, times the number of ranges, src/slatreport/slatreport.pl:372-374. -/
structure Bin where
  idx : Nat
  lo : Int
  hi : Int
  count : Nat
  deriving Repr, DecidableEq

/-- The test of src/slatreport/slatreport.pl:356-370 for range `i` of `n`, all times `n`. -/
def inBin (n : Nat) (mn mx : Int) (i : Nat) (x : Int) : Bool :=
  decide (n * x ≥ n * mn + i * (mx - mn)) &&
    decide (n * x < n * mn + i * (mx - mn) + (mx - mn) + (if i + 1 = n then mx - mn else 0))

/-- `frequency_distribution`, src/slatreport/slatreport.pl:341-380.  A range without values gets no entry. -/
def freq (n : Nat) (l : List Int) : List Bin :=
  let s := Rttm.ksort (fun a b => decide (a ≤ b)) l
  let mn := s.head?.getD 0
  let mx := s.getLast?.getD 0
  (List.range n).filterMap (fun i =>
    let c := s.countP (inBin n mn mx i)
    if c = 0 then none else some ⟨i, n * mn + i * (mx - mn), n * mn + i * (mx - mn) + (mx - mn), c⟩)

/-- Mean, deviation and histogram of one of the three latencies. -/
structure Stat where
  sum : Int
  num : Nat
  dev : Option Int
  dist : Option (List Bin)
  deriving Repr, DecidableEq

/-- The three values for one list, src/slatreport/slatreport.pl:246-259. -/
def stat (n : Nat) (l : List Int) : Stat :=
  if l.length = 1 then ⟨total l, l.length, none, none⟩ else ⟨total l, l.length, some (deviation l), some (freq n l)⟩

/-- `Compute`, src/slatreport/slatreport.pl:196-260; `none` when there are no data. -/
def compute (c : Cond) (n : Nat) (data : List Entry) : Option (Stat × Stat × Stat) :=
  let d := data.filter (fun e => c.sat e.key)
  if d.length = 0 then none
  else some (stat n (d.map Entry.latBeg), stat n (d.map Entry.latMid), stat n (d.map Entry.latEnd))

end Verif.Slat
