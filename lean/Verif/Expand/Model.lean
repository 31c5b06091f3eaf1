import Verif.Expand.Spec
import Verif.LineStyle.Model
import Verif.Topo.Model
/-!
# Model of the expansion of words with alternatives (asclite)

`LineStyleInputParser::ExpandAlternationSpeechSet`, `ReplaceChar` (src/asclite/core/linestyle_inputparser.cpp), `Segment::ReplaceTokenWith`
(src/asclite/core/segment.cpp) and the linking of tokens (src/asclite/core/token.cpp).  Tokens are numbers, new ones get the next number.
`ParseWords` is the model of `Verif.LineStyle`; the text and the flag of a token (`GetText`, `IsOptional`) are functions of its source text
(`Verif.Token`) and parameters here.
-/
set_option autoImplicit false
namespace Verif.Expand
open Verif.LineStyle (Word Piece Node parse filterSpace words)

/-- Result of a step: a state, an exit of the program, or a call that does not return. -/
inductive Res (α : Type) where
  | ok (a : α)
  | fatal
  | loops
  deriving DecidableEq, Repr

/-- The members of a token that matter here (src/asclite/core/token.h:127-160, timedobject.h). -/
structure Tok where
  src : List Char
  start : Int
  stop : Int
  conf : Option Nat
  deriving DecidableEq, Repr

/-- All tokens: their links (`next`, `prec`, src/asclite/core/token.h:47-53), their members, and the number of the next one. -/
structure Store where
  next : Nat → List Nat
  prec : Nat → List Nat
  tok : Nat → Tok
  fresh : Nat

/-- A segment: the tokens of `f_token->next` and `l_token->next`, and its times (src/asclite/core/segment.h). -/
structure Seg where
  first : List Nat
  last : List Nat
  start : Int
  stop : Int
  deriving DecidableEq, Repr

/-- Assignment to one member of one token. -/
def upd {α : Type} (f : Nat → α) (k : Nat) (v : α) : Nat → α := fun n => if n = k then v else f n

/-- `Token::LinkTokens` (src/asclite/core/token.cpp:141-145). -/
def link (x y : Nat) (s : Store) : Store :=
  { s with prec := upd s.prec y (s.prec y ++ [x]), next := upd s.next x (s.next x ++ [y]) }

/-- Several links, one after the other. -/
def linkAll : List (Nat × Nat) → Store → Store
  | [], s => s
  | p :: ps, s => linkAll ps (link p.1 p.2 s)

/-- `Token::UnlinkTokens` (src/asclite/core/token.cpp:182-201): nothing if one of the two entries is missing (exit). -/
def unlink (x y : Nat) (s : Store) : Option Store :=
  if y ∈ s.next x ∧ x ∈ s.prec y then
    some { s with next := upd s.next x ((s.next x).erase y), prec := upd s.prec y ((s.prec y).erase x) }
  else none

/-- The loop that takes away the links to a token (src/asclite/core/segment.cpp:347-348); every turn removes one, so their number bounds
the turns. -/
def drainPrec (t : Nat) : Nat → Store → Option Store
  | 0, s => some s
  | n + 1, s =>
    match s.prec t with
    | [] => some s
    | x :: _ =>
      match unlink x t s with
      | none => none
      | some s' => drainPrec t n s'

/-- The loop that takes away the links from a token (src/asclite/core/segment.cpp:350-351). -/
def drainNext (t : Nat) : Nat → Store → Option Store
  | 0, s => some s
  | n + 1, s =>
    match s.next t with
    | [] => some s
    | y :: _ =>
      match unlink t y s with
      | none => none
      | some s' => drainNext t n s'

/-- `Segment::AddFirstToken` for several tokens (src/asclite/core/segment.cpp:184-200, 321-323); nothing: exit. -/
def addFirsts (tok : Nat → Tok) : List Nat → Seg → Option Seg
  | [], sg => some sg
  | x :: xs, sg =>
    if (tok x).start ≠ -1 ∧ (tok x).start < sg.start then none else addFirsts tok xs { sg with first := sg.first ++ [x] }

/-- `Segment::AddLastToken` for several tokens (src/asclite/core/segment.cpp:202-218, 336-338); nothing: exit. -/
def addLasts (tok : Nat → Tok) : List Nat → Seg → Option Seg
  | [], sg => some sg
  | x :: xs, sg =>
    if (tok x).stop ≠ -1 ∧ (tok x).stop > sg.stop then none else addLasts tok xs { sg with last := sg.last ++ [x] }

/-- The second half of `Segment::ReplaceTokenWith` (src/asclite/core/segment.cpp:340-351): the token leaves the segment and loses its
links.  `UnlinkNextToken` takes away one entry (src/asclite/core/token.cpp:147-163). -/
def detach (t : Nat) (s : Store) (sg : Seg) : Option (Store × Seg) :=
  match drainPrec t (s.prec t).length s with
  | none => none
  | some s1 =>
    match drainNext t (s1.next t).length s1 with
    | none => none
    | some s2 => some (s2, { sg with first := sg.first.erase t, last := sg.last.erase t })

/-- `Segment::ReplaceTokenWith` (src/asclite/core/segment.cpp:308-356). -/
def replace (t : Nat) (S E : List Nat) (s : Store) (sg : Seg) : Option (Store × Seg) :=
  let s1 := linkAll (S.flatMap (fun a => (s.prec t).map (fun p => (p, a)))) s
  match (if t ∈ sg.first then addFirsts s1.tok S sg else some sg) with
  | none => none
  | some sg1 =>
    let s2 := linkAll (E.flatMap (fun e => (s1.next t).map (fun n => (e, n)))) s1
    match (if t ∈ sg1.last then addLasts s2.tok E sg1 else some sg1) with
    | none => none
    | some sg2 => detach t s2 sg2

/-- `LineStyleInputParser::ReplaceChar` for strings of one character (src/asclite/core/linestyle_inputparser.cpp:436-449): the text before
the position of the search (reversed) and the rest; `find` goes on to the next occurrence, which is replaced, and the search continues at
the same position. The search then meets the replacement first, so if that is the character itself the loop does not end (not so here). -/
def replaceGo (bad good : Char) : List Char → List Char → List Char
  | done, [] => done.reverse
  | done, c :: cs => if c = bad then replaceGo bad good (good :: done) cs else replaceGo bad good (c :: done) cs

/-- `LineStyleInputParser::ReplaceChar` (src/asclite/core/linestyle_inputparser.cpp:436-449). -/
def replaceChar (line : List Char) (bad good : Char) : List Char := replaceGo bad good [] line

/-- The test for the notation (src/asclite/core/linestyle_inputparser.cpp:99-102): `find_first_of` and `find_last_of` look for any of the
characters. -/
def marked (t : List Char) : Bool := t.any (fun c => c = '{' || c = '_') && t.any (fun c => c = '_' || c = '}')

/-- All tokens of a parsed text that can be met. -/
def nodes (p : Piece) : List Node := p.starts ++ p.ends ++ p.edges.flatMap (fun e => [e.1, e.2])

/-- What all calls for a file share: `GetText`, `IsOptional` (as functions of the source text, src/asclite/core/token.cpp:204-208, 233-237),
and the confidence the members `m_bUseConfidence` and `m_Confidence` of the parser happen to hold. -/
structure Env where
  text : List Char → List Char
  optional : List Char → Bool
  conf : Option Nat

/-- The token made by `BuildToken` and `BecomeOptionallyDeletable` (src/asclite/core/linestyle_inputparser.cpp:184-213, token.h:115), with
the times of the token it comes from. -/
def mkTok (v : Env) (o : Tok) (x : Node) : Tok :=
  { src := deco (v.optional o.src) x.word, start := x.start o.start o.stop, stop := x.start o.start o.stop + x.dur o.start o.stop,
    conf := v.conf }

/-- New tokens are stored. -/
def make (v : Env) (o : Tok) : List Node → Store → Store
  | [], s => s
  | x :: xs, s => make v o xs { s with tok := upd s.tok x.id (mkTok v o x) }

/-- What `ParseWords` leaves behind: new tokens and their links, in the order of the model (src/asclite/core/linestyle_inputparser.cpp:112). -/
def install (v : Env) (o : Tok) (p : Piece) (c : Nat) (s : Store) : Store :=
  linkAll (p.edges.map (fun e => (e.1.id, e.2.id))) { make v o (nodes p) s with fresh := c }

/-- One turn of the loop over the tokens of a segment (src/asclite/core/linestyle_inputparser.cpp:94-118); `f` bounds the depth of the
parser's recursion. -/
def expandTok (f : Nat) (v : Env) (t : Nat) (s : Store) (sg : Seg) : Res (Store × Seg) :=
  if marked (v.text (s.tok t).src) then
    match parse f (words [] (replaceChar (replaceChar (filterSpace (v.text (s.tok t).src)) '_' ' ') '#' ' ')) s.fresh with
    | none => .loops
    | some (p, c) =>
      match replace t (p.starts.map Node.id) (p.ends.map Node.id) (install v (s.tok t) p c s) sg with
      | none => .fatal
      | some r => .ok r
  else .ok (s, sg)

/-- The loop over the tokens of a segment (src/asclite/core/linestyle_inputparser.cpp:94-119). -/
def expandToks (f : Nat) (v : Env) : List Nat → Store → Seg → Res (Store × Seg)
  | [], s, sg => .ok (s, sg)
  | t :: ts, s, sg =>
    match expandTok f v t s sg with
    | .ok (s', sg') => expandToks f v ts s' sg'
    | .fatal => .fatal
    | .loops => .loops

/-- The segment as its listing sees it (src/asclite/core/segment.cpp:223-281). -/
def view (s : Store) (sg : Seg) : Topo.Seg := ⟨sg.first, s.next, fun t => decide (t ∈ sg.last)⟩

/-- The loop over all segments of all speeches (src/asclite/core/linestyle_inputparser.cpp:86-121); the list of a segment's tokens is made
when its turn comes. -/
def expand (f : Nat) (v : Env) : List Seg → Store → Res (Store × List Seg)
  | [], s => .ok (s, [])
  | sg :: sgs, s =>
    match Topo.listing (view s sg) f with
    | none => .loops
    | some ts =>
      match expandToks f v ts s sg with
      | .fatal => .fatal
      | .loops => .loops
      | .ok (s', sg') =>
        match expand f v sgs s' with
        | .ok (s'', r) => .ok (s'', sg' :: r)
        | .fatal => .fatal
        | .loops => .loops

end Verif.Expand
