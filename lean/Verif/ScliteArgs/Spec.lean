import Verif.ScliteArgs.Model
/-!
# Specification vocabulary for the command line of sclite: the options of its help text and what they set
-/
set_option autoImplicit false
namespace Verif.ScliteArgs

/-- The options of the help text.  A title needs a format before it. -/
inductive Opt where
  | ref (file : Str) (fmt : Option Str)
  | hyp (file : Str) (fmt : Option (Str × Option Str))
  | ids (v : Str)
  | pipeIn
  | enc (name : Str) (lang : Option Str)
  | caseSens
  | diff
  | chars (noAscii delHyphen : Bool)
  | lm (v : Str)
  | infer (algo2 : Bool) (lexicon : Str) (asciiToo : Bool)
  | frag
  | optDel
  | time
  | wwl (v : Str)
  | reduce (ref hyp : Bool)
  | outDir (v : Str)
  | feedback (v : Str)
  | width (v : Str)
  | pipeOut
  | reports (ws : List Str)
  | confs (ws : List Str)
  | name (v : Str)
  deriving Repr, DecidableEq

/-- The letter of an option. -/
def Opt.letter : Opt → Char
  | .ref .. => 'r'
  | .hyp .. => 'h'
  | .ids _ => 'i'
  | .pipeIn => 'P'
  | .enc .. => 'e'
  | .caseSens => 's'
  | .diff => 'd'
  | .chars .. => 'c'
  | .lm _ => 'L'
  | .infer .. => 'S'
  | .frag => 'F'
  | .optDel => 'D'
  | .time => 'T'
  | .wwl _ => 'w'
  | .reduce .. => 'm'
  | .outDir _ => 'O'
  | .feedback _ => 'f'
  | .width _ => 'l'
  | .pipeOut => 'p'
  | .reports _ => 'o'
  | .confs _ => 'C'
  | .name _ => 'n'

/-- What follows the letter. -/
def Opt.values : Opt → List Str
  | .ref f fmt => f :: fmt.toList
  | .hyp f x => f :: (match x with | none => [] | some (b, t) => b :: t.toList)
  | .ids v => [v]
  | .enc n l => n :: l.toList
  | .chars a b => (if a then ["NOASCII".toList] else []) ++ (if b then ["DH".toList] else [])
  | .lm v => [v]
  | .infer a l t => (if a then "algo2".toList else "algo1".toList) :: l :: (if t then ["ASCIITOO".toList] else [])
  | .wwl v => [v]
  | .reduce a b => (if a then ["ref".toList] else []) ++ (if b then ["hyp".toList] else [])
  | .outDir v => [v]
  | .feedback v => [v]
  | .width v => [v]
  | .reports ws => ws
  | .confs ws => ws
  | .name v => [v]
  | _ => []

/-- An option as it is typed. -/
def Opt.typed (o : Opt) : List Str := ['-', o.letter] :: o.values

/-- The command line for a list of options. -/
def typedAll (os : List Opt) : List Str := os.flatMap Opt.typed

/-- What the option sets. -/
def Opt.apply (env : Env) (o : Opt) (s : Args) : Args :=
  match o with
  | .ref f fmt => { s with ref := some f, rfmt := fmt.orElse fun _ => s.rfmt }
  | .hyp f x => { s with hyps := s.hyps ++ [match x with
      | none => ⟨f, "trn".toList, f⟩
      | some (b, t) => ⟨f, b, t.getD f⟩] }
  | .ids v => { s with id := some v }
  | .pipeIn => { s with pipeIn := true }
  | .enc n l => { s with enc := encOf n, lang := (l.bind langOf).orElse fun _ => s.lang }
  | .caseSens => { s with caseSens := true }
  | .diff => { s with useDiff := true }
  | .chars a b => { s with chars := true, noAscii := a, delHyphen := b }
  | .lm v => { s with lm := some v }
  | .infer a l t => { s with algo1 := s.algo1 ^^ !a, algo2 := s.algo2 ^^ a, lexicon := some l, asciiToo := s.asciiToo || t }
  | .frag => { s with frag := true }
  | .optDel => { s with optDel := true }
  | .time => { s with time := true }
  | .wwl v => { s with wwl := some v }
  | .reduce a b => { s with redRef := a || !b, redHyp := b }
  | .outDir v => { s with outDir := some v }
  | .feedback v => { s with feedback := env.atoi v, fbset := true }
  | .width v => { s with width := env.atoi v }
  | .pipeOut => { s with pipeOut := true, outset := true }
  | .reports ws => { s with outputs := ws.foldl repWord s.outputs, outset := true }
  | .confs ws => { s with conf := ws.foldl confWord s.conf, outset := true }
  | .name v => { s with outName := some v }

/-- A text that is not taken for an option. -/
def Word (w : Str) : Prop := dash w = false

instance (w : Str) : Decidable (Word w) := inferInstanceAs (Decidable (_ = _))

/-- The option can be typed: its file names, formats, titles and report names do not begin with a hyphen; the encoding and
the language are known, the lexicon exists, the program was compiled for -d and -L. -/
def Opt.Ok (env : Env) : Opt → Prop
  | .ref f fmt => Word f ∧ ∀ b ∈ fmt, Word b
  | .hyp f x => Word f ∧ ∀ b ∈ x, Word b.1 ∧ ∀ t ∈ b.2, Word t
  | .enc n l => Word n ∧ (encOf n).isSome ∧ ∀ b ∈ l, Word b ∧ (langOf b).isSome
  | .diff => env.diff = true
  | .lm _ => env.slm = true
  | .infer _ l _ => Word l ∧ env.file l = true
  | .reports ws => ws ≠ [] ∧ ∀ w ∈ ws, Word w
  | .confs ws => ws ≠ [] ∧ ∀ w ∈ ws, Word w
  | _ => True

/-- A hypothesis. -/
def Opt.isHyp : Opt → Bool
  | .hyp .. => true
  | _ => false

/-- The number of hypotheses among the options. -/
def hypCount (os : List Opt) : Nat := os.countP Opt.isHyp

/-! ## Reports -/

/-- The reports that a word names, as in the help text. -/
def covers (w : Str) : List Rep :=
  if w = "sum".toList then [.sum] else if w = "rsum".toList then [.rsum] else if w = "pralign".toList then [.pra]
  else if w = "pra".toList then [.pra] else if w = "all".toList then [.sum, .rsum, .pra] else if w = "sgml".toList then [.sgml]
  else if w = "stdout".toList then [.stdout] else if w = "lur".toList then [.lur] else if w = "snt".toList then [.snt]
  else if w = "spk".toList then [.spk] else if w = "dtl".toList then [.dtl] else if w = "prf".toList then [.prf]
  else if w = "wws".toList then [.wws] else if w = "nl.sgml".toList then [.nlSgml] else []

/-- How often a report is named after the last `none`. -/
def named (r : Rep) (ws : List Str) : Nat :=
  ((ws.reverse.takeWhile fun w => w ≠ "none".toList).flatMap covers).count r

/-- The graph of confidences that a word names. -/
def coversConf (w : Str) : List Conf :=
  if w = "det".toList then [.det] else if w = "bhist".toList then [.bhist] else if w = "sbhist".toList then [.sbhist]
  else if w = "hist".toList then [.hist] else []

/-- How often a graph is named after the last `none`. -/
def namedConf (c : Conf) (ws : List Str) : Nat :=
  ((ws.reverse.takeWhile fun w => w ≠ "none".toList).flatMap coversConf).count c

/-! ## What is accepted -/

/-- The input: piped input, or a reference and hypotheses; a reference only with hypotheses and the other way round. -/
def HasInput (s : Args) : Prop := (s.ref.isSome ↔ s.hyps ≠ []) ∧ (s.pipeIn = true ∨ s.hyps ≠ [])

/-- The format of the reference with the default. -/
def refFmt (s : Args) : Str := s.rfmt.getD "trn".toList

/-- The rules for files, formats and the type of identifiers when a reference is scored. -/
structure FilesOk (env : Env) (s : Args) : Prop where
  ref : ∀ r ∈ s.ref, env.file r = true
  hyps : ∀ h ∈ s.hyps, env.file h.file = true
  rfmt : refFmt s ∈ ["trn".toList, "ctm".toList, "tmk".toList, "stm".toList]
  hfmt : ∀ h ∈ s.hyps, h.fmt ∈ ["trn".toList, "ctm".toList, "tmk".toList, "txt".toList]
  id : s.id = none → refFmt s ≠ "trn".toList ∧ ∀ h ∈ s.hyps, h.fmt ≠ "trn".toList
  time : s.time = true → refFmt s = "ctm".toList ∧ ∀ h ∈ s.hyps, h.fmt = "ctm".toList

/-- The rules for options that exclude each other. -/
structure OptionsOk (s : Args) : Prop where
  id : ∀ i ∈ s.id, i ∈ ["swb".toList, "rm".toList, "wsj".toList, "spu_id".toList, "sp".toList]
  reduce : s.redRef = true ∨ s.redHyp = true →
    refFmt s = "stm".toList ∧ (∀ h ∈ s.hyps, h.fmt = "ctm".toList) ∧ s.useDiff = false
  chars : s.chars = true → s.useDiff = false ∧
    ¬ (refFmt s = "stm".toList ∧ (s.hyps.head?.map Hyp.fmt) = some "txt".toList)
  weights : s.wwl = none ∨ s.lm = none
  alone : s.wwl.isSome ∨ s.lm.isSome → s.time = false ∧ s.chars = false ∧ s.algo1 = false ∧ s.algo2 = false ∧ s.useDiff = false
  wws : .wws ∈ s.outputs → s.wwl.isSome ∨ s.lm.isSome

/-! ## What is written -/

/-- The reports of all systems, each with its root, in order. -/
def expected {σ : Type} (s : Args) (weighted : σ → Bool) (ys : List (σ × Str)) : List (Event σ) :=
  ys.flatMap fun y => reports s weighted y.1 y.2

end Verif.ScliteArgs
