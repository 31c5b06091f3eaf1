import Verif.LineStyle.Spec
/-!
# Model of the reading of transcripts with alternatives (asclite `linestyle_inputparser.cpp`)

A text is the list of its words: `strtok` splits at white space and the program joins words again with single blanks, so the strings that are
passed around are determined by their words. Times, confidences and the optional-deletion flag of the tokens are not part of this model, except
that a token remembers its place in its sequence, from which its time is computed.
-/
set_option autoImplicit false
namespace Verif.LineStyle

/-- Counting of open groups, common to `SeparateBySlash` and `TokeniseWords` (linestyle_inputparser.cpp:302-309, 347-354). -/
def bump (d : Int) (w : Word) : Int := if w = lb then d + 1 else if w = rb then d - 1 else d

/-- The loop of `LineStyleInputParser::SeparateBySlash` (linestyle_inputparser.cpp:300-325): number of open groups, current statement, words
left; the result is the statements from here on. -/
def sepGo : Int → List Word → List Word → List (List Word)
  | _, cur, [] => [cur]
  | d, cur, w :: ws =>
    if w = slash ∧ bump d w = 0 then cur :: sepGo (bump d w) [] ws
    else sepGo (bump d w) (cur ++ [w]) ws

/-- `LineStyleInputParser::SeparateBySlash` (linestyle_inputparser.cpp:293-328). -/
def sepSlash (ws : List Word) : List (List Word) := sepGo 0 [] ws

/-- The loop of `LineStyleInputParser::TokeniseWords` (linestyle_inputparser.cpp:345-380). -/
def tokGo : Int → List Word → List Word → List (List Word)
  | _, _, [] => []
  | d, cur, w :: ws =>
    if w = lb ∧ bump d w = 1 then tokGo (bump d w) cur ws
    else if w = rb ∧ bump d w = 0 then cur :: tokGo (bump d w) [] ws
    else if bump d w = 0 then (cur ++ [w]) :: tokGo (bump d w) [] ws
    else tokGo (bump d w) (cur ++ [w]) ws

/-- `LineStyleInputParser::TokeniseWords` (linestyle_inputparser.cpp:330-383). -/
def tokenise (ws : List Word) : List (List Word) := if ws = [] then [[]] else tokGo 0 [] ws

/-- A new `VirtualSegment` (linestyle_inputparser.h:46). -/
def Piece.empty : Piece := ⟨[], [], false, []⟩

/-- The links made by `LineStyleInputParser::Attach` (linestyle_inputparser.cpp:385-395). -/
def links (F S : List Node) : List (Node × Node) := F.flatMap (fun x => S.map (fun y => (x, y)))

/-- The variables of the loop over the words of a statement (linestyle_inputparser.cpp:153-155): the result under construction with all links
made so far, `isFirstWord`, the end tokens of `prec_token` (`none`: the null pointer; nothing else of it is used), and the number of tokens
made. -/
structure LoopSt where
  out : Piece
  first : Bool
  prec : Option (List Node)
  next : Nat
  deriving DecidableEq, Repr

/-- The part of the loop for a word that is not skipped (linestyle_inputparser.cpp:233-276, with `Transition`, 451-475). -/
def place (st : LoopSt) (toks : Piece) (next : Nat) : LoopSt :=
  { out :=
      { starts := st.out.starts ++ (if st.first then toks.starts else [])
        ends := (if toks.trav then st.out.ends else []) ++ toks.ends
        trav := st.out.trav
        edges := st.out.edges ++ toks.edges ++ (match st.prec with | some F => links F toks.starts | none => []) }
    first := st.first && toks.trav
    prec :=
      match st.prec with
      | some F => if toks.trav then some (F ++ toks.ends) else some toks.ends
      | none => some toks.ends
    next := next }

/-- `out_struct->SetTraversable(true)`. -/
def LoopSt.skip (st : LoopSt) : LoopSt := { st with out := { st.out with trav := true } }

/-- One turn of the loop over the words of a statement (linestyle_inputparser.cpp:157-280); `parse` is the recursive call, `i` the index, `n` the
number of words. -/
def turn (parse : List Word → Nat → Option (Piece × Nat)) (n i : Nat) (item : List Word) (st : LoopSt) : Option LoopSt :=
  if 2 ≤ item.length then
    match parse item st.next with
    | none => none
    | some (toks, next) => some (place (if toks.trav ∧ n = 1 then st.skip else st) toks next)
  else if item = [] ∨ item = [at'] then
    if n = 1 then some (place st.skip Piece.empty st.next) else some st
  else
    let t : Node := ⟨st.next, item.flatten, i, n⟩
    some (place st ⟨[t], [t], false, []⟩ (st.next + 1))

/-- The loop over the words of a statement (linestyle_inputparser.cpp:157-280). -/
def turns (parse : List Word → Nat → Option (Piece × Nat)) (n : Nat) : Nat → List (List Word) → LoopSt → Option LoopSt
  | _, [], st => some st
  | i, item :: items, st =>
    match turn parse n i item st with
    | none => none
    | some st' => turns parse n (i + 1) items st'

/-- The loop over the statements separated by slashes (linestyle_inputparser.cpp:131-148). -/
def orLoop (parse : List Word → Nat → Option (Piece × Nat)) : List (List Word) → Nat → Option (Piece × Nat)
  | [], next => some (Piece.empty, next)
  | s :: ss, next =>
    match parse s next with
    | none => none
    | some (p, next') =>
      match orLoop parse ss next' with
      | none => none
      | some (q, next'') => some (⟨p.starts ++ q.starts, p.ends ++ q.ends, p.trav || q.trav, p.edges ++ q.edges⟩, next'')

/-- `LineStyleInputParser::ParseWords(Segment*, const string&, bool)` (linestyle_inputparser.cpp:126-291). The first argument bounds the depth of
the recursion, `none` stands for exceeding it (the program has no bound other than its stack). -/
def parse : Nat → List Word → Nat → Option (Piece × Nat)
  | 0, _, _ => none
  | f + 1, ws, next =>
    match sepSlash ws with
    | [s] =>
      match turns (parse f) (tokenise s).length 0 (tokenise s) ⟨Piece.empty, true, none, next⟩ with
      | none => none
      | some st => some (st.out, st.next)
    | ss => orLoop (parse f) ss next

/-- Time of a token (linestyle_inputparser.cpp:184-205): start and duration, from the times of the text, in the extended mode; a token alone in
its sequence gets the whole time. C++ integer division truncates. -/
def Node.start (t : Node) (s e : Int) : Int := if t.cnt = 1 then s else s + (t.idx : Int) * ((e - s).tdiv (t.cnt : Int))
/-- Duration of a token (linestyle_inputparser.cpp:184-205). -/
def Node.dur (t : Node) (s e : Int) : Int := if t.cnt = 1 then e - s else (e - s).tdiv (t.cnt : Int)

/-- The blank inserted next to a sign, given the characters on that side, nearest first (linestyle_inputparser.cpp:409-427): none at the end of the
line or if there is one. -/
def blank : List Char → List Char
  | [] => []
  | b :: _ => if b = ' ' then [] else [' ']

/-- The loop of `LineStyleInputParser::FilterSpace` (linestyle_inputparser.cpp:402-431). The line is cut in the part up to the position of the
search (here reversed) and the rest; `find_first_of` moves on to the next sign, and a blank is inserted before and behind it if needed. -/
def filterGo : List Char → List Char → List Char
  | done, [] => done.reverse
  | done, c :: cs =>
    if isSign c then filterGo (blank cs ++ c :: (blank done ++ done)) cs
    else filterGo (c :: done) cs

/-- `LineStyleInputParser::FilterSpace` (linestyle_inputparser.cpp:397-434). -/
def filterSpace (line : List Char) : List Char := filterGo [] line

/-- The words `strtok(line, " \t\r\n")` returns one after the other (linestyle_inputparser.cpp:298, 324, 343, 379). -/
def words : List Char → List Char → List Word
  | cur, [] => if cur = [] then [] else [cur]
  | cur, c :: cs => if isSpace c then (if cur = [] then [] else [cur]) ++ words [] cs else words (cur ++ [c]) cs

/-- `LineStyleInputParser::ParseWords` for a segment (linestyle_inputparser.cpp:24-48): the first and last tokens of the segment are the start and
end tokens of the result. -/
def segment (f : Nat) (line : List Char) : Option Piece := (parse f (words [] (filterSpace line)) 0).map Prod.fst

end Verif.LineStyle
