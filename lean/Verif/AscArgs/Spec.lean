/-!
# The command line of asclite: vocabulary for the properties
-/
set_option autoImplicit false
namespace Verif.AscArgs

/-- An argument of the command line. -/
abbrev Str := List Char

/-- Whether an argument begins with a hyphen. -/
def dash (s : Str) : Bool := s.head? = some '-'

/-- A hypothesis file with its format and title. -/
structure Hyp where
  file : Str
  fmt : Str
  title : Str
deriving DecidableEq

/-- The options that the help text describes. -/
inductive Item
  | ref (f : Str) (fmt : Option Str)
  | hyp (f : Str) (fmt title : Option Str)
  | uem (f : Str) (side : Option Str)
  | overlap (side : Option Str)
  | flag (name : Str)
  | value (name v : Str)
  | optional (side : Option Str)
  | outDir (v : Str)
  | feedback (v : Str)
  | width (v : Str)
  | threads (v : Str)
  | reports (l : List Str)

/-- How an option is written. -/
def Item.render : Item → List Str
  | .ref f fmt => ["-r".toList, f] ++ fmt.toList
  | .hyp f fmt title => ["-h".toList, f] ++ fmt.toList ++ title.toList
  | .uem f side => ["-uem".toList, f] ++ side.toList
  | .overlap side => ["-spkrautooverlap".toList] ++ side.toList
  | .flag n => [n]
  | .value n v => [n, v]
  | .optional side => ["-D".toList] ++ side.toList
  | .outDir v => ["-O".toList, v]
  | .feedback v => ["-f".toList, v]
  | .width v => ["-l".toList, v]
  | .threads v => ["-threads".toList, v]
  | .reports l => "-o".toList :: l

/-- The options without a value. -/
def docFlags : List Str := ["-noisg".toList, "-spkrmap".toList, "-s".toList, "-F".toList, "-time-base-cost".toList,
  "-adaptive-cost".toList, "-wordalign-cost".toList, "-force-memory-compression".toList, "-generic-cost".toList]

/-- The options with a value that is kept as it is. -/
def docValues : List Str := ["-i".toList, "-time-prune".toList, "-word-time-align".toList, "-spkr-align".toList,
  "-overlap-limit".toList, "-overlap-min".toList, "-only-SG".toList, "-memory-compression".toList, "-memory-limit".toList,
  "-difficulty-limit".toList, "-min-difficulty-limit".toList]

/-- The sides an option may be restricted to. -/
def sides : List Str := ["ref".toList, "hyp".toList, "both".toList]

/-- The reports. -/
def docReports : List Str := ["sum".toList, "rsum".toList, "sgml".toList, "stdout".toList]

/-- The options as the help text has them; `atoi` is C's. -/
def Item.Doc (atoi : Str → Int) : Item → Prop
  | .ref _ fmt => ∀ x ∈ fmt, x ∈ ["stm".toList, "rttm".toList, "trn".toList]
  | .hyp _ fmt title => (∀ x ∈ fmt, x ∈ ["ctm".toList, "rttm".toList, "trn".toList]) ∧
      (∀ x ∈ title, dash x = false ∧ x ∉ ["ctm".toList, "rttm".toList, "trn".toList])
  | .uem _ side => ∀ x ∈ side, x ∈ sides
  | .overlap side => ∀ x ∈ side, x ∈ sides
  | .flag n => n ∈ docFlags
  | .value n v => n ∈ docValues ∧ dash v = false
  | .optional side => ∀ x ∈ side, x ∈ sides
  | .outDir v => dash v = false
  | .feedback v => dash v = false
  | .width v => dash v = false
  | .threads v => dash v = false ∧ 1 ≤ atoi v
  | .reports l => l ≠ [] ∧ (∀ x ∈ l, x ∈ docReports) ∧ l.length ≤ 4

/-- The value an option was last given. -/
def lastOf {X : Type} (f : Item → Option X) (items : List Item) : Option X := (items.filterMap f).getLast?

/-- The value last given to the option `n`. -/
def lastValue (n : Str) (items : List Item) : Option Str :=
  lastOf (fun i => match i with | .value m v => if m = n then some v else none | _ => none) items

/-- Whether the option `n` without a value is given. -/
def given (n : Str) (items : List Item) : Prop := ∃ i ∈ items, ∃ m, i = .flag m ∧ m = n

/-- The reference last given and its format. -/
def refGiven (items : List Item) : Option (Str × Str) :=
  lastOf (fun i => match i with | .ref f fmt => some (f, fmt.getD "trn".toList) | _ => none) items

/-- The hypotheses given, in order, with their formats and titles. -/
def hypsGiven (items : List Item) : List Hyp :=
  items.filterMap (fun i => match i with | .hyp f fmt title => some ⟨f, fmt.getD "trn".toList, title.getD []⟩ | _ => none)

/-- The reports named. -/
def reportsGiven (items : List Item) : List Str := items.flatMap (fun i => match i with | .reports l => l | _ => [])

/-- The combinations of the formats of a hypothesis and the reference that can be scored. -/
def Scorable (hyp ref : Str) : Prop := (hyp, ref) ∈ [("trn".toList, "trn".toList), ("ctm".toList, "stm".toList),
  ("rttm".toList, "stm".toList), ("rttm".toList, "rttm".toList)]

/-- Options without a value and the properties they set. -/
def flagTable : List (Str × Str) := [("-s".toList, "align.case_sensitive".toList), ("-F".toList, "align.fragment_are_correct".toList),
  ("-adaptive-cost".toList, "align.adaptivecost".toList), ("-wordalign-cost".toList, "align.wordaligncost".toList),
  ("-force-memory-compression".toList, "align.forcememorycompression".toList), ("-generic-cost".toList, "align.genericmethod".toList)]

/-- Options with a value, the properties the value is for, and the defaults of the help text or of the properties. -/
def valueTable : List (Str × Str × Str) := [("-i".toList, "inputparser.trn.uid".toList, "spu_id".toList),
  ("-time-prune".toList, "align.timepruneoptimizationthreshold".toList, "0".toList),
  ("-word-time-align".toList, "align.timewordoptimizationthreshold".toList, "0".toList),
  ("-overlap-limit".toList, "recording.maxspeakeroverlaping".toList, "4".toList),
  ("-overlap-min".toList, "recording.minspeakeroverlaping".toList, "0".toList),
  ("-only-SG".toList, "recording.onlysg".toList, []),
  ("-memory-compression".toList, "align.memorycompressionblock".toList, "256".toList),
  ("-difficulty-limit".toList, "recording.nbrdifficultygb".toList, "16".toList),
  ("-min-difficulty-limit".toList, "recording.minnbrdifficultygb".toList, "0".toList)]

/-- Options with a value and the properties they turn on. -/
def switchTable : List (Str × Str) := [("-time-prune".toList, "align.timepruneoptimization".toList),
  ("-word-time-align".toList, "align.timewordoptimization".toList), ("-spkr-align".toList, "align.speakeroptimization".toList),
  ("-only-SG".toList, "recording.bonlysg".toList), ("-difficulty-limit".toList, "recording.difficultygb".toList),
  ("-min-difficulty-limit".toList, "recording.mindifficultygb".toList)]

/-- What the help text asks of a command line without the generic cost model: a reference, a hypothesis, formats that can be scored
together, and times in both files for the cost model that is based on them. -/
def Accept (items : List Item) : Prop :=
  ∃ ref, refGiven items = some ref ∧ hypsGiven items ≠ [] ∧ (∀ h ∈ hypsGiven items, Scorable h.fmt ref.2) ∧
    (given "-time-base-cost".toList items → ref.2 = "rttm".toList)

end Verif.AscArgs
