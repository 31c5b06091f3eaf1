/-!
# The options of `sc_stats` and its report on all tests: vocabulary for the properties
-/
set_option autoImplicit false
namespace Verif.Unified

/-- An argument of the command line. -/
abbrev Str := List Char

/-- Whether an argument begins with a hyphen. -/
def dash (s : Str) : Bool := s.head? = some '-'

/-- The options of `sc_stats` that its usage message describes. -/
inductive Item
  | pipe
  | verbose
  | unified
  | outDir (s : Str)
  | outName (s : Str)
  | desc (s : Str)
  | width (s : Str)
  | formula (s : Str)
  | tests (l : List Str)
  | reports (l : List Str)
  | graphs (l : List Str)

/-- How an option is written. -/
def Item.render : Item → List Str
  | .pipe => ["-p".toList]
  | .verbose => ["-v".toList]
  | .unified => ["-u".toList]
  | .outDir s => ["-O".toList, s]
  | .outName s => ["-n".toList, s]
  | .desc s => ["-e".toList, s]
  | .width s => ["-l".toList, s]
  | .formula s => ["-f".toList, s]
  | .tests l => "-t".toList :: l
  | .reports l => "-r".toList :: l
  | .graphs l => "-g".toList :: l

/-- Names of tests, reports and graphs are given and do not begin with a hyphen. -/
def Item.Good : Item → Prop
  | .tests l => l ≠ [] ∧ ∀ s ∈ l, dash s = false
  | .reports l => l ≠ [] ∧ ∀ s ∈ l, dash s = false
  | .graphs l => l ≠ [] ∧ ∀ s ∈ l, dash s = false
  | _ => True

/-- The value an option was last given. -/
def lastOf {X : Type} (f : Item → Option X) (d : X) (items : List Item) : X := (items.filterMap f).getLast?.getD d

/-- The names of tests given. -/
def testsNamed (items : List Item) : List Str := items.flatMap (fun i => match i with | .tests l => l | _ => [])

/-- The names of reports given. -/
def reportsNamed (items : List Item) : List Str := items.flatMap (fun i => match i with | .reports l => l | _ => [])

/-- The names of graphs given. -/
def graphsNamed (items : List Item) : List Str := items.flatMap (fun i => match i with | .graphs l => l | _ => [])

/-- The tests of the usage message, without `std4`. -/
def testNames : List Str := ["mcn".toList, "mapsswe".toList, "sign".toList, "wilc".toList, "anovar".toList]

/-- The reports of the usage message, without `none`. -/
def reportNames : List Str := ["lur".toList, "sum".toList, "rsum".toList, "es".toList, "res".toList, "prn".toList, "npr".toList]

/-- The graphs of the usage message. -/
def graphNames : List Str := ["range".toList, "grange".toList, "grange2".toList, "det".toList]

end Verif.Unified
