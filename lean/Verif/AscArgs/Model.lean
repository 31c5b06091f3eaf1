import Verif.AscArgs.Spec
/-!
# Model of the command line of asclite (`main.cpp`)
-/
set_option autoImplicit false
namespace Verif.AscArgs

/-- The variables of `main` (main.cpp:126-184).  The options that only set a Boolean are kept in `flags`, the options with a Boolean
and a string in `vals`, the last one first. -/
structure St where
  ref : Option (Str × Str)
  hyps : List Hyp
  uem : Option (Str × Str)
  overlap : Option Str
  flags : List Str
  vals : List (Str × Str)
  optional : Str
  outDir : Str
  feedback : Int
  width : Int
  threads : Str
  output : List Str
  props : List (Str × Str)
deriving DecidableEq

/-- Initial values (main.cpp:126-184). -/
def start : St where
  ref := none
  hyps := []
  uem := none
  overlap := none
  flags := []
  vals := []
  optional := "none".toList
  outDir := []
  feedback := 4
  width := 27
  threads := "1".toList
  output := []
  props := []

/-- The options that set a Boolean (main.cpp:361-372, 622-664).  `-spkrmap` sets its variable to the value it has (368-372). -/
def flagNames : List Str := ["-noisg".toList, "-s".toList, "-adaptive-cost".toList, "-generic-cost".toList, "-time-base-cost".toList,
  "-wordalign-cost".toList, "-force-memory-compression".toList, "-F".toList]

/-- The options with a value (main.cpp:374-587). -/
def valueNames : List Str := ["-i".toList, "-time-prune".toList, "-word-time-align".toList, "-spkr-align".toList,
  "-memory-limit".toList, "-difficulty-limit".toList, "-min-difficulty-limit".toList, "-memory-compression".toList,
  "-overlap-limit".toList, "-overlap-min".toList, "-only-SG".toList]

/-- The Boolean of an option with a value is set (main.cpp:388, 407 and the like; `-force-memory-compression` sets the one of
`-memory-compression`, 656-657). -/
def isSet (s : St) (n : Str) : Bool :=
  (s.vals.lookup n).isSome || (decide (n = "-memory-compression".toList) && decide ("-force-memory-compression".toList ∈ s.flags))

/-- The loop over the reports (main.cpp:748-784). -/
def takeReports : Nat → List Str → List Str → Bool × List Str × List Str
  | 0, out, rest => (true, out, rest)
  | _ + 1, out, [] => (true, out, [])
  | k + 1, out, a :: rest =>
    if dash a = true then (true, out, a :: rest)
    else if a ∈ ["sum".toList, "rsum".toList, "sgml".toList, "stdout".toList] then takeReports k (out ++ [a]) rest
    else (false, out, a :: rest)

/-- One option (main.cpp:190-818), given what follows it: whether `arg_ok` stays true, the variables, and the arguments that are left.
`atoi` is a parameter. -/
def step (atoi : Str → Int) (s : St) (a : Str) (rest : List Str) : Bool × St × List Str :=
  if a = "-h".toList then
    (match rest with
    | [] => (false, s, [])
    | [f] => (true, { s with hyps := s.hyps ++ [⟨f, "trn".toList, []⟩] }, [])
    | f :: b :: r =>
      if b ∈ ["ctm".toList, "rttm".toList, "trn".toList] then
        (match r with
        | [] => (true, { s with hyps := s.hyps ++ [⟨f, b, []⟩] }, [])
        | c :: r' =>
          if dash c = false then (true, { s with hyps := s.hyps ++ [⟨f, b, c⟩] }, r')
          else (true, { s with hyps := s.hyps ++ [⟨f, b, []⟩] }, r))
      else if dash b = false then (true, { s with hyps := s.hyps ++ [⟨f, "trn".toList, f⟩] }, b :: r)
      else (true, { s with hyps := s.hyps ++ [⟨f, "trn".toList, []⟩] }, b :: r))
  else if a = "-r".toList then
    (match rest with
    | [] => (false, s, [])
    | [f] => (true, { s with ref := some (f, "trn".toList) }, [])
    | f :: b :: r =>
      if b ∈ ["stm".toList, "rttm".toList, "trn".toList] then (true, { s with ref := some (f, b) }, r)
      else (true, { s with ref := some (f, "trn".toList) }, b :: r))
  else if a = "-uem".toList then
    (match rest with
    | [] => (false, s, [])
    | [f] => (true, { s with uem := some (f, "both".toList) }, [])
    | f :: b :: r =>
      if b ∈ ["ref".toList, "hyp".toList, "both".toList] then (true, { s with uem := some (f, b) }, r)
      else (true, { s with uem := some (f, "both".toList) }, b :: r))
  else if a = "-spkrautooverlap".toList then
    (match rest with
    | [] => (true, { s with overlap := some "both".toList }, [])
    | b :: r =>
      if b ∈ ["ref".toList, "hyp".toList, "both".toList] then (true, { s with overlap := some b }, r)
      else (true, { s with overlap := some "both".toList }, b :: r))
  else if a = "-spkrmap".toList then (true, s, rest)
  else if a ∈ flagNames then (true, { s with flags := a :: s.flags }, rest)
  else if a ∈ valueNames then
    (match rest with
    | [] => (isSet s a, s, [])
    | v :: r =>
      if dash v = false then (true, { s with vals := (a, v) :: s.vals }, r)
      else (isSet s a, s, v :: r))
  else if a = "--set-property".toList then
    (match rest with
    | [] => (!s.props.isEmpty, s, [])
    | [n] => (!s.props.isEmpty, s, if dash n = false then [] else [n])
    | n :: v :: r =>
      if dash n = true then (!s.props.isEmpty, s, n :: v :: r)
      else if dash v = true then (!s.props.isEmpty, s, v :: r)
      else (true, { s with props := (n, v) :: s.props }, r))
  else if a = "-D".toList then
    (match rest with
    | [] => (true, { s with optional := "both".toList }, [])
    | v :: r =>
      if dash v = false ∧ (v ≠ "ref".toList ∨ v ≠ "hyp".toList ∨ v ≠ "both".toList) then (true, { s with optional := v }, r)
      else (true, { s with optional := "both".toList }, v :: r))
  else if a = "-O".toList then
    (match rest with
    | [] => (false, s, [])
    | v :: r => if dash v = false then (true, { s with outDir := v }, r) else (true, s, v :: r))
  else if a = "-f".toList then
    (match rest with
    | [] => (false, s, [])
    | v :: r => if dash v = false then (true, { s with feedback := atoi v }, r) else (true, s, v :: r))
  else if a = "-l".toList then
    (match rest with
    | [] => (false, s, [])
    | v :: r => if dash v = false then (true, { s with width := atoi v }, r) else (true, s, v :: r))
  else if a = "-o".toList then
    let x := takeReports 4 s.output rest
    (x.1 && !x.2.1.isEmpty, { s with output := x.2.1 }, x.2.2)
  else if a = "-threads".toList then
    (match rest with
    | [] => (false, s, [])
    | v :: r =>
      if dash v = false then (decide (¬ atoi v < 1), { s with threads := v }, r)
      else (decide (¬ atoi s.threads < 1), s, v :: r))
  else (false, s, rest)

/-- The loop over the arguments (main.cpp:190-820). -/
def loop (atoi : Str → Int) : Nat → St → List Str → Bool × St
  | 0, s, _ => (true, s)
  | _ + 1, s, [] => (true, s)
  | f + 1, s, a :: rest =>
    let x := step atoi s a rest
    if x.1 = true then loop atoi f x.2.1 x.2.2 else (false, x.2.1)

/-- What is started (main.cpp:935-1047). -/
structure Settings where
  props : List (Str × Str)
  ref : Option (Str × Str)
  hyps : List Hyp
  uemFile : Str
  spkrFile : Str
  filters : List Str
  output : List Str
  feedback : Int
deriving DecidableEq

/-- What becomes of a command line: the help text, an error, undefined behaviour, or a run. -/
inductive Out
  | help
  | exit
  | undef
  | run (s : Settings)
deriving DecidableEq

/-- `"true"` and `"false"`. -/
def tf (b : Bool) : Str := if b then "true".toList else "false".toList

/-- A flag is set. -/
def St.has (s : St) (n : String) : Bool := decide (n.toList ∈ s.flags)

/-- The value of an option or a default. -/
def St.val (s : St) (n d : String) : Str := (s.vals.lookup n.toList).getD d.toList

/-- The option with a value is set. -/
def St.on (s : St) (n : String) : Bool := (s.vals.lookup n.toList).isSome

/-- The calls of `SetProperty` (main.cpp:936-1010), first to last; the defaults of `Properties::Initialize` that they do not replace are
left out.  `isg` is `arg_buseISG`, `overlap`, `uem` and `optional` are given because they may have been changed. -/
def setProps (s : St) (isg : Bool) (overlap : Option Str) (uem : Option (Str × Str)) (optional : Str) : List (Str × Str) :=
  [("inputparser.trn.uid".toList, s.val "-i" "spu_id"),
   ("align.case_sensitive".toList, tf (s.has "-s")),
   ("align.fragment_are_correct".toList, tf (s.has "-F")),
   ("align.timepruneoptimization".toList, tf (s.on "-time-prune")),
   ("align.timepruneoptimizationthreshold".toList, s.val "-time-prune" "0"),
   ("align.timewordoptimization".toList, tf (s.on "-word-time-align")),
   ("align.timewordoptimizationthreshold".toList, s.val "-word-time-align" "0"),
   ("align.speakeroptimization".toList, tf (s.on "-spkr-align")),
   ("align.memorycompression".toList, tf (isSet s "-memory-compression".toList)),
   ("align.forcememorycompression".toList, tf (s.has "-force-memory-compression")),
   ("align.memorycompressionblock".toList, s.val "-memory-compression" "256"),
   ("align.adaptivecost".toList, tf (s.has "-adaptive-cost")),
   ("align.wordaligncost".toList, tf (s.has "-wordalign-cost")),
   ("align.genericmethod".toList, tf (s.has "-generic-cost")),
   ("align.typecost".toList, if s.has "-time-base-cost" then "2".toList else "1".toList),
   ("threads.number".toList, s.threads),
   ("recording.maxspeakeroverlaping".toList, s.val "-overlap-limit" "4"),
   ("recording.minspeakeroverlaping".toList, s.val "-overlap-min" "0"),
   ("recording.bonlysg".toList, tf (s.on "-only-SG")),
   ("recording.onlysg".toList, s.val "-only-SG" ""),
   ("recording.maxnbofgb".toList, s.val "-memory-limit" "1"),
   ("recording.difficultygb".toList, tf (s.on "-difficulty-limit")),
   ("recording.nbrdifficultygb".toList, s.val "-difficulty-limit" "16"),
   ("recording.mindifficultygb".toList, tf (s.on "-min-difficulty-limit")),
   ("recording.minnbrdifficultygb".toList, s.val "-min-difficulty-limit" "0"),
   ("recording.maxoverlapinghypothesis".toList,
     if (s.hyps.head?.map (·.fmt)) = some "rttm".toList then s.val "-overlap-limit" "4" else "1".toList),
   ("align.optionally".toList, optional),
   ("report.outputdir".toList, s.outDir),
   ("align.type".toList, "lev".toList),
   ("score.type".toList, "stt".toList),
   ("filter.uem.isg".toList, if (s.ref.map (·.2)) = some "trn".toList then "false".toList else tf isg),
   ("filter.spkrautooverlap".toList, if overlap.isSome then "true".toList else []),
   ("filter.spkrautooverlap.option".toList, overlap.getD []),
   ("filter.spkrmap".toList, "false".toList),
   ("filter.uem".toList, if (s.ref.map (·.2)) = some "trn".toList then [] else tf uem.isSome),
   ("filter.uem.option".toList, if (s.ref.map (·.2)) = some "trn".toList then [] else (uem.map (·.2)).getD [])] ++ s.props.reverse

/-- `Properties::GetProperty` (properties.cpp:121-125): the value set last, else the empty string. -/
def getProp (l : List (Str × Str)) (n : Str) : Str := (l.reverse.lookup n).getD []

/-- The filters (main.cpp:977-1001). -/
def filters (s : St) (isg : Bool) (overlap : Option Str) (uem : Option (Str × Str)) : List Str :=
  (if overlap.isSome then ["filter.spkrautooverlap".toList] else []) ++
  (if (s.ref.map (·.2)) = some "trn".toList then []
   else if uem.isSome || isg then ["filter.uem".toList] else [])

/-- The tests for the formats (main.cpp:832-860). -/
def scorable (hyp ref : Str) : Bool :=
  (decide (hyp = "trn".toList) && decide (ref = "trn".toList)) || (decide (hyp = "ctm".toList) && decide (ref = "stm".toList)) ||
  (decide (hyp = "rttm".toList) && decide (ref = "stm".toList)) || (decide (hyp = "rttm".toList) && decide (ref = "rttm".toList))

/-- With the generic cost model only the side of the hypotheses counts (main.cpp:903-920). -/
def hypSide (o : Str) : Option Str := if o = "hyp".toList ∨ o = "both".toList then some "hyp".toList else none

/-- After the loop (main.cpp:822-1047). -/
def finish (ok : Bool) (s : St) : Out :=
  let reffmt := (s.ref.map (·.2)).getD []
  if s.has "-generic-cost" = false then
    if s.has "-time-base-cost" = true ∧ s.hyps = [] then .undef
    else if ok = true ∧ s.ref.isSome = true ∧ s.hyps ≠ [] ∧
        ¬ (s.has "-time-base-cost" = true ∧ ((s.hyps.head?.map (·.fmt)) = some "trn".toList ∨ reffmt = "trn".toList ∨ reffmt = "stm".toList)) ∧
        s.hyps.all (fun h => scorable h.fmt reffmt) = true then
      let isg := !s.has "-noisg"
      .run { props := setProps s isg s.overlap s.uem s.optional, ref := s.ref, hyps := s.hyps, uemFile := (s.uem.map (·.1)).getD [],
             spkrFile := s.val "-spkr-align" "", filters := filters s isg s.overlap s.uem,
             output := if s.output.isEmpty then ["sum".toList, "stdout".toList] else s.output, feedback := s.feedback }
    else .exit
  else if ok = true ∧ s.hyps ≠ [] then
    let overlap := s.overlap.bind hypSide
    let uem := s.uem.bind (fun u => (hypSide u.2).map (fun o => (u.1, o)))
    .run { props := setProps s false overlap uem ((hypSide s.optional).getD s.optional), ref := none, hyps := s.hyps,
           uemFile := (s.uem.map (·.1)).getD [], spkrFile := s.val "-spkr-align" "", filters := filters s false overlap uem,
           output := if "stdout".toList ∈ s.output then ["stdout".toList] else [], feedback := s.feedback }
  else .exit

/-- `main` up to the start of the work (main.cpp:121-1047). -/
def main' (atoi : Str → Int) (args : List Str) : Out :=
  match args with
  | [] => .help
  | a :: r =>
    let x := loop atoi (a :: r).length start (a :: r)
    finish x.1 x.2

end Verif.AscArgs
