import Verif.TextVal.Model
/-!
# The driver of evaluations (src/hubscr/hubscr.pl)

The sorters of CTM and STM files, the checks of the command line, the names of hypotheses and the filter of extended CTM records. Lines come without their
end of line; characters stand for bytes. What Perl takes a text for as a number is a parameter, with whole numbers for values (in some
unit; not-a-number is left out). Not modelled: the programs that are called and how their
commands are put together, the check of their versions, messages.
-/
set_option autoImplicit false
namespace Verif.Hub
open Verif.TextVal

/-! ## Sorting -/

/-- `cmp` at most zero: src/hubscr/hubscr.pl 349, 350, 363, 364. -/
def leq : List Char → List Char → Bool
  | [], _ => true
  | _ :: _, [] => false
  | c :: s, d :: t => decide (c < d) || (c == d && leq s t)

/-- What is after the first field and the white space behind it; the odd elements of `split(/(\s+)/)` are the white space: src/hubscr/hubscr.pl 359, 389. -/
def next (l : List Char) : List Char := (l.dropWhile (fun c => !space c)).dropWhile space

/-- The field `$a[2 * n]`: src/hubscr/hubscr.pl 349-351, 376-378. -/
def field : Nat → List Char → List Char
  | 0, l => l.takeWhile (fun c => !space c)
  | n + 1, l => field n (next l)

/-- `$a[1]`, the white space after the first field; simplified for a line of one field, where the end of line belongs to it: src/hubscr/hubscr.pl 360, 390. -/
def sep (l : List Char) : List Char := (l.dropWhile (fun c => !space c)).takeWhile space

/-- `ctmSort` with `n = 2` and `stmSort` with `n = 3`, where the result is at most zero: src/hubscr/hubscr.pl 348-352, 375-379. -/
def le (num : List Char → Int) (n : Nat) (a b : List Char) : Bool :=
  if field 0 a != field 0 b then leq (field 0 a) (field 0 b)
  else if field 1 a != field 1 b then leq (field 1 a) (field 1 b)
  else decide (num (field n a) ≤ num (field n b))

/-- Putting an element in its place; part of `sort`, which keeps the order of equal elements: src/hubscr/hubscr.pl 363-365. -/
def ins {α : Type} (r : α → α → Bool) (a : α) : List α → List α
  | [] => [a]
  | b :: l => if r a b then a :: b :: l else b :: ins r a l

/-- `sort`: src/hubscr/hubscr.pl 363-365, 393-395. -/
def sort {α : Type} (r : α → α → Bool) : List α → List α
  | [] => []
  | a :: l => ins r a (sort r l)

/-- The keys of a hash, each once: src/hubscr/hubscr.pl 363, 364. -/
def uniq : List (List Char) → List (List Char)
  | [] => []
  | k :: l => if l.contains k then uniq l else k :: uniq l

/-- The loops over the files and what is after their names, `%data` being filled in the order of the lines: src/hubscr/hubscr.pl 360-369, 390-399. -/
def grouped (num : List Char → Int) (n : Nat) (l : List (List Char)) : List (List Char) :=
  (sort leq (uniq (l.map (field 0)))).flatMap (fun f =>
    let g := l.filter (fun x => field 0 x == f)
    (sort leq (uniq (g.map sep))).flatMap (fun s => sort (le num n) (g.filter (fun x => sep x == s))))

/-- `/^;;/`: src/hubscr/hubscr.pl 358, 385. -/
def comment (l : List Char) : Bool := ";;".toList.isPrefixOf l

/-- `sortCTM`: src/hubscr/hubscr.pl 354-370. -/
def sortCtm (num : List Char → Int) (lines : List (List Char)) : List (List Char) :=
  grouped num 2 ((lines.map (fun l => l.dropWhile space)).filter (fun l => !(comment l || l.isEmpty)))

/-- `sortSTM`; of an empty line nothing is left to print: src/hubscr/hubscr.pl 381-400. -/
def sortStm (num : List Char → Int) (lines : List (List Char)) : List (List Char) :=
  (lines.map (fun l => l.dropWhile space)).filter comment ++
    grouped num 3 ((lines.map (fun l => l.dropWhile space)).filter (fun l => !(comment l || l.isEmpty)))

/-! ## The filter of extended CTM records -/

/-- `join(" ", @F)`: src/hubscr/hubscr.pl 533. -/
def join : List (List Char) → List Char
  | [] => []
  | [f] => f
  | f :: fs => f ++ ' ' :: join fs

/-- `$rtFilt` for CTM files of `rt-stt`; the shell takes the quotes away from `'lex'`, and Perl takes the bare word for a text. `-a` splits at white space
and gives no empty field: src/hubscr/hubscr.pl 531-534. -/
def rtFilt (l : List Char) : List (List Char) :=
  let fs := words [] l
  if comment l || decide (fs.length < 7) then [l]
  else if fs[6]? == some "lex".toList then [join (fs.take (if (fs[5]?).map (List.map Char.toLower) == some "na".toList then 5 else 6))]
  else []

/-! ## The names of hypotheses -/

/-- `split(/\\#/, $hyp)` before empty parts at the end are taken away: src/hubscr/hubscr.pl 305. -/
def parts : List Char → List Char → List (List Char)
  | cur, [] => [cur.reverse]
  | cur, c :: s =>
    match s with
    | [] => [(c :: cur).reverse]
    | d :: t => if c == '\\' && d == '#' then cur.reverse :: parts [] t else parts (c :: cur) (d :: t)

/-- File, title and output name of a hypothesis; an empty part counts as none: src/hubscr/hubscr.pl 305-310. -/
def names (h : List Char) : List Char × List Char × List Char :=
  let ps := parts [] h
  let file := (ps[0]?).getD []
  let or (o : Option (List Char)) : List Char := match o with
    | some (c :: s) => c :: s
    | _ => file
  (file, or ps[1]?, or ps[2]? ++ ".filt".toList)

/-! ## The command line -/

/-- The option `-m`: left out, not a number or two, or given, and then whether the first number is 1: src/hubscr/hubscr.pl 244-255. -/
inductive Mem where
  | absent
  | malformed
  | given (one : Bool)
  deriving DecidableEq

/-- The options, as `getopts` leaves them, that are looked at; the value of `-o` is a number, and for `-p` it is whether the path is formatted properly:
src/hubscr/hubscr.pl 228-264, 275-282, 330-334. -/
structure Args where
  l : Option String := none
  h : Option String := none
  r : Option String := none
  g : Option String := none
  L : Option String := none
  K : Option String := none
  M : Option String := none
  w : Option String := none
  f : Option String := none
  o : Option Int := none
  p : Option Bool := none
  m : Mem := .absent
  a : Bool := false
  d : Bool := false
  H : Bool := false
  T : Bool := false
  hyps : List String := []

/-- The ends with a message: src/hubscr/hubscr.pl 251, 265-273, 276, 280, 286-300, 313, 319-328, 332, 338, 340. -/
inductive Refusal where
  | memoryFormat | glm | glmRequired | langRequired | langUnknown | hamza | tanween | ascliteEnglish | overlap | memory | hubRequired | hubUnknown
  | refRequired | ref | hypRequired | hyp | lexicon | both | slm | wwl | path | sasttFormat | sasttAsclite
  deriving DecidableEq

/-- The languages: src/hubscr/hubscr.pl 273. -/
def languages : List String := ["english", "german", "italian", "spanish", "mandarin", "arabic"]

/-- The hubs: src/hubscr/hubscr.pl 293. -/
def hubs : List String := ["hub4", "hub5", "rt-stt", "sastt"]

/-- An option that is given a file: whether it is given and the file is not there, src/hubscr/hubscr.pl 326, 328. -/
def missing (there : String → Bool) (o : Option String) : Bool := o.any (fun x => !there x)

/-- The tests in their order, each with how the program ends if it is true; `lang` and `hub` are in small letters. That a language or hub is required is
told by the value it has to begin with, which is not in small letters; that a reference called `Undeterm` counts as none is left out: src/hubscr/hubscr.pl 230-342. -/
def tests (there : String → Bool) (x : Args) : List (Bool × Refusal) :=
  let lang := x.l.map String.toLower
  let hub := x.h.map String.toLower
  [(x.m == .malformed, .memoryFormat),
    (missing there x.g, .glm), (x.g.isNone, .glmRequired),
    (lang.isNone, .langRequired), (!lang.any (fun n => languages.contains n), .langUnknown),
    (x.H && lang != some "arabic", .hamza), (x.T && lang != some "arabic", .tanween),
    (lang != some "english" && x.a, .ascliteEnglish),
    (x.o.any (fun n => decide (0 ≤ n)) && !x.a, .overlap),
    (x.m == .given false && !x.a, .memory),
    (hub.isNone, .hubRequired), (!hub.any (fun n => hubs.contains n), .hubUnknown),
    (x.r.isNone, .refRequired), (missing there x.r, .ref),
    (x.hyps.isEmpty, .hypRequired),
    (x.hyps.any (fun n => !there (String.ofList (names n.toList).1)), .hyp),
    (!x.d && lang == some "german", .lexicon),
    (x.M.isSome && x.w.isSome, .both),
    (missing there x.M, .slm), (missing there x.w, .wwl),
    (x.p == some false, .path),
    (hub == some "sastt" && x.f.getD "ctm" != "rttm", .sasttFormat),
    (hub == some "sastt" && !x.a, .sasttAsclite)]

/-- How the program ends, or `none` if it goes on: src/hubscr/hubscr.pl 211-342. -/
def refusal (there : String → Bool) (x : Args) : Option Refusal := ((tests there x).find? (fun t => t.1)).map Prod.snd

end Verif.Hub
