/-!
# Model of the command line and the main loop of sclite (src/sclite/sclite.c)

Arguments and file names are lists of characters.  The fixed buffers for file names are not modelled.
-/
set_option autoImplicit false
namespace Verif.ScliteArgs

abbrev Str := List Char

/-- `*(argv[opt]) == '-'`, e.g. src/sclite/sclite.c:428. -/
def dash (a : Str) : Bool := a.head? == some '-'

/-- The bits of `outputs`, src/sclite/sclite.c:11-22. -/
inductive Rep where
  | sum | rsum | pra | lur | sgml | stdout | snt | spk | dtl | prf | wws | nlSgml
  deriving Repr, DecidableEq

/-- The bits of `conf_outputs`, src/sclite/sclite.c:24-28. -/
inductive Conf where
  | det | bhist | hist | sbhist
  deriving Repr, DecidableEq

/-- The encodings, src/sclite/text.c:387-403. -/
inductive Enc where
  | gb | extAscii | ascii | utf8
  deriving Repr, DecidableEq

/-- `hname`, `hfmt` and `title` of a hypothesis. -/
structure Hyp where
  file : Str
  fmt : Str
  title : Str
  deriving Repr, DecidableEq

/-- The variables that `proc_args` sets, src/sclite/sclite.c:391.  Sets of bits are lists without repetition;
`infered_wordseg` is kept as its two bits, `char_align` as its three. -/
structure Args where
  ref : Option Str
  rfmt : Option Str
  hyps : List Hyp
  id : Option Str
  width : Int
  feedback : Int
  fbset : Bool
  outset : Bool
  outputs : List Rep
  conf : List Conf
  outDir : Option Str
  outName : Option Str
  useDiff : Bool
  caseSens : Bool
  redRef : Bool
  redHyp : Bool
  frag : Bool
  optDel : Bool
  chars : Bool
  noAscii : Bool
  delHyphen : Bool
  enc : Option Enc
  lang : Option Str
  pipeOut : Bool
  pipeIn : Bool
  time : Bool
  algo1 : Bool
  algo2 : Bool
  lexicon : Option Str
  asciiToo : Bool
  wwl : Option Str
  lm : Option Str
  deriving Repr, DecidableEq

/-- The values at the beginning, src/sclite/sclite.c:399-426. -/
def Args.new : Args where
  ref := none
  rfmt := none
  hyps := []
  id := none
  width := 1000
  feedback := 1
  fbset := false
  outset := false
  outputs := []
  conf := []
  outDir := none
  outName := none
  useDiff := false
  caseSens := false
  redRef := false
  redHyp := false
  frag := false
  optDel := false
  chars := false
  noAscii := false
  delHyphen := false
  enc := none
  lang := none
  pipeOut := false
  pipeIn := false
  time := false
  algo1 := false
  algo2 := false
  lexicon := none
  asciiToo := false
  wwl := none
  lm := none

/-- What the program finds around it: which files exist (`stat`), `atoi`, and how it was compiled (`DIFF_EXE`,
src/sclite/sctk.h:240-246, and `WITH_SLM`, src/sclite/sclite.c:459-465). -/
structure Env where
  file : Str → Bool
  atoi : Str → Int
  diff : Bool
  slm : Bool

/-- How a run ends badly: an error message and exit status 1, or undefined behaviour. -/
inductive Stop where
  | usage | undefined
  deriving Repr, DecidableEq

/-- `BF_FLIP`, src/sclite/sctk.h:55, on a set of bits. -/
def flip {α : Type} [DecidableEq α] (l : List α) (x : α) : List α := if x ∈ l then l.erase x else l ++ [x]

/-- A word after -o, src/sclite/sclite.c:473-505; an unknown word only gives a message. -/
def repWord (l : List Rep) (w : Str) : List Rep :=
  if w = "sum".toList then flip l .sum
  else if w = "wws".toList then flip l .wws
  else if w = "rsum".toList then flip l .rsum
  else if w = "pralign".toList ∨ w = "pra".toList then flip l .pra
  else if w = "prf".toList then flip l .prf
  else if w = "lur".toList then flip l .lur
  else if w = "stdout".toList then flip l .stdout
  else if w = "sgml".toList then flip l .sgml
  else if w = "nl.sgml".toList then flip l .nlSgml
  else if w = "snt".toList then flip l .snt
  else if w = "spk".toList then flip l .spk
  else if w = "dtl".toList then flip l .dtl
  else if w = "all".toList then flip (flip (flip l .pra) .sum) .rsum
  else if w = "none".toList then []
  else l

/-- A word after -C, src/sclite/sclite.c:515-528. -/
def confWord (l : List Conf) (w : Str) : List Conf :=
  if w = "det".toList then flip l .det
  else if w = "bhist".toList then flip l .bhist
  else if w = "sbhist".toList then flip l .sbhist
  else if w = "hist".toList then flip l .hist
  else if w = "none".toList then []
  else l

/-- `TEXT_strcasecmp(a,b) == 0` for ASCII names b, src/sclite/text.c:387-443 (simplified: before any -e, that is in the
default encoding). -/
def sameName (a : Str) (b : String) : Bool := a.map Char.toLower == b.toList

/-- `TEXT_set_encoding`, src/sclite/text.c:387-403. -/
def encOf (w : Str) : Option Enc :=
  if sameName w "euc" || sameName w "gb" then some .gb
  else if sameName w "ext_ascii" then some .extAscii
  else if sameName w "ascii" then some .ascii
  else if sameName w "utf-8" then some .utf8
  else none

/-- The names that `TEXT_set_lang_prof` knows, src/sclite/text.c:410-443. -/
def langs : List String := ["generic", "babel_turkish", "babel_vietnamese", "babel_lithuanian", "babel_kurmanji", "babel_cebuano",
  "babel_kazakh", "babel_mongolian", "babel_guarani", "ukrainian"]

/-- `TEXT_set_lang_prof`, src/sclite/text.c:410-443. -/
def langOf (w : Str) : Option Str := (langs.find? (sameName w)).map String.toList

/-- The words after -m, src/sclite/sclite.c:553-562. -/
def redWords (s : Args) : List Str → Option Args
  | [] => some s
  | w :: ws =>
    if w = "ref".toList then redWords { s with redRef := true } ws
    else if w = "hyp".toList then redWords { s with redHyp := true } ws
    else none

/-- The words after -c, src/sclite/sclite.c:571-580. -/
def charWords (s : Args) : List Str → Option Args
  | [] => some s
  | w :: ws =>
    if w = "NOASCII".toList then charWords { s with noAscii := true } ws
    else if w = "DH".toList then charWords { s with delHyphen := true } ws
    else none

/-- The words up to the next option, e.g. src/sclite/sclite.c:472, 507. -/
def plain (l : List Str) : List Str := l.takeWhile fun a => !dash a

/-- The arguments from the next option on. -/
def fromDash (l : List Str) : List Str := l.dropWhile fun a => !dash a

/-- An option with one value that may be any argument, e.g. src/sclite/sclite.c:452-454. -/
def one (rest : List Str) (f : Str → Args) : Except Stop (Args × List Str) :=
  match rest with
  | [] => .error .usage
  | v :: r => .ok (f v, r)

/-- One option and what follows it, src/sclite/sclite.c:430-647. -/
def step (env : Env) (s : Args) (a : Str) (rest : List Str) : Except Stop (Args × List Str) :=
  if a = "-r".toList then
    match rest with
    | [] => .error .usage
    | f :: r =>
      if dash f then .error .usage
      else
        match r with
        | [] => .ok ({ s with ref := some f }, [])
        | b :: r' => if dash b then .ok ({ s with ref := some f }, r) else .ok ({ s with ref := some f, rfmt := some b }, r')
  else if a = "-h".toList then
    match rest with
    | [] => .error .usage
    | f :: r =>
      if dash f then .error .usage
      else if 40 ≤ s.hyps.length then .error .undefined
      else
        match r with
        | [] => .ok ({ s with hyps := s.hyps ++ [⟨f, "trn".toList, f⟩] }, [])
        | b :: r' =>
          if dash b then .ok ({ s with hyps := s.hyps ++ [⟨f, "trn".toList, f⟩] }, r)
          else
            match r' with
            | [] => .ok ({ s with hyps := s.hyps ++ [⟨f, b, f⟩] }, [])
            | t :: r'' =>
              if dash t then .ok ({ s with hyps := s.hyps ++ [⟨f, b, f⟩] }, r') else .ok ({ s with hyps := s.hyps ++ [⟨f, b, t⟩] }, r'')
  else if a = "-i".toList then one rest fun v => { s with id := some v }
  else if a = "-l".toList then one rest fun v => { s with width := env.atoi v }
  else if a = "-L".toList then if env.slm then one rest fun v => { s with lm := some v } else .error .usage
  else if a = "-f".toList then one rest fun v => { s with feedback := env.atoi v, fbset := true }
  else if a = "-o".toList then
    if rest = [] then .error .usage
    else .ok ({ s with outputs := (plain rest).foldl repWord s.outputs, outset := true }, fromDash rest)
  else if a = "-C".toList then
    if rest = [] then .error .usage
    else .ok ({ s with conf := (plain rest).foldl confWord s.conf, outset := true }, fromDash rest)
  else if a = "-O".toList then one rest fun v => { s with outDir := some v }
  else if a = "-n".toList then one rest fun v => { s with outName := some v }
  else if a = "-d".toList then if env.diff then .ok ({ s with useDiff := true }, rest) else .error .usage
  else if a = "-s".toList then .ok ({ s with caseSens := true }, rest)
  else if a = "-m".toList then
    match redWords { s with redRef := false, redHyp := false } (plain rest) with
    | none => .error .usage
    | some s' => .ok (if s'.redRef = false ∧ s'.redHyp = false then { s' with redRef := true } else s', fromDash rest)
  else if a = "-F".toList then .ok ({ s with frag := true }, rest)
  else if a = "-D".toList then .ok ({ s with optDel := true }, rest)
  else if a = "-c".toList then
    match charWords { s with chars := true, noAscii := false, delHyphen := false } (plain rest) with
    | none => .error .usage
    | some s' => .ok (s', fromDash rest)
  else if a = "-e".toList then
    match rest with
    | [] => .error .usage
    | w :: r =>
      if dash w then .error .usage
      else
        match encOf w with
        | none => .error .usage
        | some x =>
          match r with
          | [] => .ok ({ s with enc := some x }, [])
          | l :: r' =>
            if dash l then .ok ({ s with enc := some x }, r)
            else
              match langOf l with
              | none => .error .usage
              | some y => .ok ({ s with enc := some x, lang := some y }, r')
  else if a = "-p".toList then .ok ({ s with pipeOut := true, outset := true }, rest)
  else if a = "-P".toList then .ok ({ s with pipeIn := true }, rest)
  else if a = "-T".toList then .ok ({ s with time := true }, rest)
  else if a = "-S".toList then
    match rest with
    | w :: lex :: r =>
      let x : Option Args :=
        if w = "algo1".toList then some { s with algo1 := !s.algo1 }
        else if w = "algo2".toList then some { s with algo2 := !s.algo2 }
        else none
      match x with
      | none => .error .usage
      | some s' =>
        if dash lex ∨ env.file lex = false then .error .usage
        else
          match r with
          | [] => .ok ({ s' with lexicon := some lex }, [])
          | t :: r' =>
            if dash t then .ok ({ s' with lexicon := some lex }, r)
            else if t = "ASCIITOO".toList then .ok ({ s' with lexicon := some lex, asciiToo := true }, r')
            else .error .usage
    | _ => .error .usage
  else if a = "-w".toList then one rest fun v => { s with wwl := some v }
  else .error .usage

/-- The loop over the arguments, src/sclite/sclite.c:428-648: it ends at the first argument that does not begin with a
hyphen.  The first number bounds the steps; each takes an argument. -/
def parse (env : Env) : Nat → Args → List Str → Except Stop Args
  | 0, s, _ => .ok s
  | _ + 1, s, [] => .ok s
  | n + 1, s, a :: rest =>
    if dash a then
      match step env s a rest with
      | .error e => .error e
      | .ok (s', r) => parse env n s' r
    else .ok s

/-- The piping and the default reports, src/sclite/sclite.c:650-667. -/
def defaults (s : Args) : Except Stop Args :=
  if s.pipeOut ∧ .stdout ∈ s.outputs then .error .usage
  else
    let s := if s.pipeOut then { s with feedback := 0 } else s
    let s := if s.outputs = [] ∧ s.outset = false then { s with outputs := [.sum, .stdout] } else s
    .ok (if .stdout ∈ s.outputs ∧ s.outset ∧ 0 < s.feedback ∧ s.fbset = false then { s with feedback := 0 } else s)

/-- The formats accepted for references, src/sclite/sclite.c:689-693. -/
def rfmts : List Str := ["trn".toList, "ctm".toList, "tmk".toList, "stm".toList]

/-- The formats accepted for hypotheses, src/sclite/sclite.c:695-700. -/
def hfmts : List Str := ["trn".toList, "ctm".toList, "tmk".toList, "txt".toList]

/-- The types of identifiers, src/sclite/sclite.c:727-732. -/
def idTypes : List Str := ["swb".toList, "rm".toList, "wsj".toList, "spu_id".toList, "sp".toList]

/-- The checks of the files and formats, src/sclite/sclite.c:670-724. -/
def checkFiles (env : Env) (s : Args) : Except Stop Args :=
  if ¬ s.pipeIn ∧ ¬ (s.ref.isSome ∧ s.hyps ≠ []) then .error .usage
  else
    match s.ref, s.hyps with
    | none, _ :: _ => .error .usage
    | some _, [] => .error .usage
    | none, [] => .ok s
    | some r, h :: hs =>
      if env.file r = false then .error .usage
      else if (h :: hs).any (fun x => !env.file x.file) then .error .usage
      else
        let fmt := s.rfmt.getD "trn".toList
        if fmt ∉ rfmts then .error .usage
        else if (h :: hs).any (fun x => x.fmt ∉ hfmts) then .error .usage
        else if s.id = none ∧ (fmt = "trn".toList ∨ (h :: hs).any (fun x => x.fmt = "trn".toList)) then .error .usage
        else if s.time ∧ (fmt ≠ "ctm".toList ∨ (h :: hs).any (fun x => x.fmt ≠ "ctm".toList)) then .error .usage
        else .ok { s with rfmt := some fmt }

/-- The other checks, src/sclite/sclite.c:726-756; the format of the reference is compared also if it is NULL. -/
def checkRest (s : Args) : Except Stop Args :=
  if s.id.any (fun i => i ∉ idTypes) then .error .usage
  else if (s.redRef ∨ s.redHyp) ∧ s.rfmt = none then .error .undefined
  else if (s.redRef ∨ s.redHyp) ∧ (s.rfmt ≠ some "stm".toList ∨ s.hyps.any (fun x => x.fmt ≠ "ctm".toList) ∨ s.useDiff) then .error .usage
  else if s.chars ∧ s.useDiff then .error .usage
  else if s.chars ∧ s.rfmt = none then .error .undefined
  else if s.chars ∧ s.rfmt = some "stm".toList ∧ (s.hyps.head?.map Hyp.fmt) = some "txt".toList then .error .usage
  else if s.wwl.isSome ∧ s.lm.isSome then .error .usage
  else if (s.wwl.isSome ∨ s.lm.isSome) ∧ (s.time ∨ s.chars ∨ s.algo1 ∨ s.algo2 ∨ s.useDiff) then .error .usage
  else if .wws ∈ s.outputs ∧ s.wwl = none ∧ s.lm = none then .error .usage
  else .ok s

/-- `proc_args`, src/sclite/sclite.c:391-757. -/
def procArgs (env : Env) (argv : List Str) : Except Stop Args :=
  if argv = [] then .error .usage
  else
    match parse env argv.length Args.new argv with
    | .error e => .error e
    | .ok s =>
      match defaults s with
      | .error e => .error e
      | .ok s =>
        match checkFiles env s with
        | .error e => .error e
        | .ok s => checkRest s

/-! ## The main loop -/

/-- `strrchr(name,'/')`: directory and base name; without a slash the directory is `.`, src/sclite/sclite.c:180-190. -/
def splitPath (f : Str) : Str × Str :=
  if '/' ∈ f then ((f.reverse.dropWhile (· ≠ '/')).drop 1 |>.reverse, (f.reverse.takeWhile (· ≠ '/')).reverse) else (['.'], f)

/-- The root of the names of the reports, src/sclite/sclite.c:192-203, 266-280. -/
def outRoot (outDir outName : Option Str) (f : Str) : Str :=
  if outDir.isSome ∨ (splitPath f).1 ≠ ['.'] then outDir.getD (splitPath f).1 ++ '/' :: outName.getD (splitPath f).2
  else outName.getD (splitPath f).2

/-- Which formats are aligned, src/sclite/sclite.c:204-257, for a program with diff. -/
def scorable (rfmt hfmt : Str) : Bool :=
  (rfmt = "trn".toList ∧ hfmt = "trn".toList) ∨ (rfmt = "stm".toList ∧ hfmt = "ctm".toList) ∨
  (rfmt = "ctm".toList ∧ hfmt = "ctm".toList) ∨ (rfmt = "stm".toList ∧ hfmt = "txt".toList)

/-- What a run writes: a report of a system with the root of its file name (`none` = standard output), the graphs of
confidences, the systems piped out, the closing message. -/
inductive Event (σ : Type) where
  | report (y : σ) (r : Rep) (root : Option Str)
  | conf (y : σ) (c : Conf) (root : Str)
  | piped (y : σ)
  | message (success : Bool)
  deriving Repr, DecidableEq

/-- The order in which reports are written, src/sclite/sclite.c:283-357. -/
def order : List Rep := [.sum, .wws, .rsum, .snt, .spk, .dtl, .lur, .pra, .prf, .sgml, .nlSgml]

/-- The order of the confidence reports, src/sclite/sclite.c:358-369. -/
def confOrder : List Conf := [.det, .bhist, .hist, .sbhist]

/-- The reports of a system, src/sclite/sclite.c:283-369; `weighted` tells if word weights were used.  Simplified: a root of
`-` sends some of the reports to standard output. -/
def reports {σ : Type} (s : Args) (weighted : σ → Bool) (y : σ) (root : Str) : List (Event σ) :=
  ((order.filter fun r => r ∈ s.outputs && (r != .wws || weighted y)).map fun r =>
    .report y r (if .stdout ∈ s.outputs then none else some root)) ++
  ((confOrder.filter fun c => c ∈ s.conf).map fun c => .conf y c root)

/-- The result of a run: exit status 0, 1, or undefined behaviour. -/
inductive Outcome where
  | exit (status : Nat)
  | undefined
  deriving Repr, DecidableEq

/-- The loop over the systems, src/sclite/sclite.c:170-371: `nsc` counts up to `total`, `scor` is the array (`none` = not
set).  An aligned hypothesis is stored at its own number `nh`, the reports are made of number `nsc`. -/
def loop {σ : Type} (s : Args) (title : σ → Str) (weighted : σ → Bool) (align : Hyp → Option σ) (piped total : Nat) :
    Nat → Nat → (Nat → Option σ) → List (Event σ) → (Nat → Option σ) × List (Event σ) × Option Outcome
  | 0, _, scor, out => (scor, out, none)
  | k + 1, nsc, scor, out =>
    if nsc < total then
      if piped ≤ nsc then
        match s.hyps[nsc - piped]? with
        | none => (scor, out, some .undefined)
        | some h =>
          if scorable (s.rfmt.getD []) h.fmt then
            match align h with
            | none => (scor, out, some (.exit 1))
            | some y =>
              let scor' := fun i => if i = nsc - piped then some y else scor i
              match scor' nsc with
              | none => (scor', out, some .undefined)
              | some z =>
                loop s title weighted align piped total k (nsc + 1) scor' (out ++ reports s weighted z (outRoot s.outDir s.outName h.file))
          else (scor, out, some (.exit 1))
      else
        match scor nsc with
        | none => (scor, out, some .undefined)
        | some y => loop s title weighted align piped total k (nsc + 1) scor (out ++ reports s weighted y (outRoot s.outDir s.outName (title y)))
    else (scor, out, none)

/-- All systems are piped out, src/sclite/sclite.c:373-375, and freed, 378-379; `none` = one of them was never set. -/
def pipeAll {σ : Type} (scor : Nat → Option σ) : List Nat → Option (List σ)
  | [] => some []
  | i :: is =>
    match scor i, pipeAll scor is with
    | some y, some ys => some (y :: ys)
    | _, _ => none

/-- `main` after `proc_args`, src/sclite/sclite.c:143-389: `input` are the systems read from the pipe (`none` = reading
failed), `wwlOk` tells if the word weights could be read, `confOk` which graphs of confidences succeed.  The status is 0
also if they fail. -/
def run {σ : Type} (s : Args) (title : σ → Str) (weighted : σ → Bool) (align : Hyp → Option σ) (input : Option (List σ)) (wwlOk : Bool)
    (confOk : σ → Conf → Bool) : List (Event σ) × Outcome :=
  match (if s.pipeIn then input else some []) with
  | none => ([], .exit 1)
  | some ys =>
    if s.wwl.isSome ∧ wwlOk = false then ([], .exit 1)
    else
      let total := s.hyps.length + ys.length
      match loop s title weighted align ys.length total total 0 (fun i => ys[i]?) [] with
      | (_, out, some e) => (out, e)
      | (scor, out, none) =>
        match pipeAll scor (List.range total) with
        | none => (out, .undefined)
        | some all =>
          let ok := out.all fun e => match e with | .conf y c _ => confOk y c | _ => true
          (out ++ (if s.pipeOut then all.map .piped else []) ++ (if 1 ≤ s.feedback then [.message ok] else []), .exit 0)

/-- The suffix of a report's file, src/sclite/scores.c:1209-1211, src/sclite/sc_dtl.c:24, 151, 312, src/sclite/lur.c:452,
src/sclite/sclite.c:308-352; reports by speaker have a file for each. -/
def suffixes (speakers : List Str) : Rep → List Str
  | .sum => [".sys".toList]
  | .wws => [".wws".toList]
  | .rsum => [".raw".toList]
  | .snt => speakers.map fun p => ".snt.".toList ++ p
  | .spk => speakers.map fun p => ".spk.".toList ++ p
  | .dtl => [".dtl".toList]
  | .lur => [".lur".toList]
  | .pra => [".pra".toList]
  | .prf => [".prf".toList]
  | .sgml => [".sgml".toList]
  | .nlSgml => [".nl.sgml".toList]
  | .stdout => []

end Verif.ScliteArgs
