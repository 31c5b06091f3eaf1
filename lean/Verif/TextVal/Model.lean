/-!
# The validators of CTM and STM files (src/ctmValidator/ctmValidator.pl, src/stmValidator/STMList.pm)

Lines come without their end of line and are lists of characters; a character stands for a byte. The options, the files and the wording of the messages are
not modelled.
-/
set_option autoImplicit false
namespace Verif.TextVal

/-- Regular expressions, anchored at both ends. They stand for the Perl expressions of src/ctmValidator/ctmValidator.pl 102-153 and
src/stmValidator/STMList.pm 73-120, 176-195; what is matched has no end of line, so that `$` is the end and `.` is any character. -/
inductive Re where
  | none
  | eps
  | cls (p : Char → Bool)
  | seq (a b : Re)
  | alt (a b : Re)
  | star (a : Re)

/-- Whether the empty text matches; part of how Perl matches, see `run`: src/stmValidator/STMList.pm 73-98. -/
def Re.nullable : Re → Bool
  | .none => false
  | .eps => true
  | .cls _ => false
  | .seq a b => a.nullable && b.nullable
  | .alt a b => a.nullable || b.nullable
  | .star _ => true

/-- What has to follow a first character; part of how Perl matches, see `run`: src/stmValidator/STMList.pm 73-98. -/
def Re.deriv (c : Char) : Re → Re
  | .none => .none
  | .eps => .none
  | .cls p => if p c then .eps else .none
  | .seq a b => if a.nullable then .alt (.seq (a.deriv c) b) (b.deriv c) else .seq (a.deriv c) b
  | .alt a b => .alt (a.deriv c) (b.deriv c)
  | .star a => .seq (a.deriv c) (.star a)

/-- Whether a text matches. Perl backtracks, this goes through the text once: src/stmValidator/STMList.pm 73-98, src/ctmValidator/ctmValidator.pl 102-153. -/
def run : Re → List Char → Bool
  | r, [] => r.nullable
  | r, c :: s => run (r.deriv c) s

/-- `\s`: src/ctmValidator/ctmValidator.pl 79, src/stmValidator/STMList.pm 72, 190, 192. -/
def space (c : Char) : Bool := c == ' ' || c == '\t' || c == '\n' || c == '\r' || c == '\x0c' || c == '\x0b'

/-- One character, with regard to case: src/ctmValidator/ctmValidator.pl 114. -/
def chr (x : Char) : Re := .cls (fun c => c == x)

/-- A text, with regard to case: src/ctmValidator/ctmValidator.pl 114. -/
def txt (s : String) : Re := s.toList.foldr (fun x r => .seq (chr x) r) .eps

/-- A text without regard to case, given in small letters: src/stmValidator/STMList.pm 73-98 (`/i`). -/
def lit (s : String) : Re := s.toList.foldr (fun x r => .seq (.cls (fun c => c.toLower == x)) r) .eps

/-- `+`: src/stmValidator/STMList.pm 75. -/
def Re.plus (r : Re) : Re := .seq r (.star r)

/-- `?`: src/ctmValidator/ctmValidator.pl 126. -/
def Re.opt (r : Re) : Re := .alt .eps r

/-- Any text: what an expression without `^` or `$` allows before or after: src/ctmValidator/ctmValidator.pl 114, 139. -/
def any : Re := .star (.cls (fun _ => true))

/-- `[a-z]` with `/i`, `[A-Za-z]`: src/stmValidator/STMList.pm 75, src/ctmValidator/ctmValidator.pl 139. -/
def letter : Re := .cls Char.isAlpha

/-- `\(` before and `\)` after: src/stmValidator/STMList.pm 77, 81, 85, 93. -/
def paren (r : Re) : Re := .seq (lit "(") (.seq r (lit ")"))

/-! ## Words of STM files -/

/-- `([a-z]*-)*[a-z]+`: src/stmValidator/STMList.pm 75. -/
def word : Re := .seq (.star (.seq (.star letter) (lit "-"))) letter.plus

/-- `[a-z]+\.('s|s)*`: src/stmValidator/STMList.pm 79. -/
def acronym : Re := .seq letter.plus (.seq (lit ".") (.star (.alt (lit "'s") (lit "s"))))

/-- `[a-z]+-`: src/stmValidator/STMList.pm 83. -/
def fragment : Re := .seq letter.plus (lit "-")

/-- `'(d|s|t|re|ll|m|ve|)`: src/stmValidator/STMList.pm 87. -/
def clitic : Re := .seq (lit "'") (.alt (lit "d") (.alt (lit "s") (.alt (lit "t") (.alt (lit "re") (.alt (lit "ll") (.alt (lit "m") (.alt (lit "ve") .eps)))))))

/-- `%(hesitation|bcack|bcnack)`: src/stmValidator/STMList.pm 93, 95. -/
def pause : Re := .seq (lit "%") (.alt (lit "hesitation") (.alt (lit "bcack") (lit "bcnack")))

/-- `[\{\}\/@]`: src/stmValidator/STMList.pm 97, 120. -/
def tag : Re := .alt (lit "{") (.alt (lit "}") (.alt (lit "/") (lit "@")))

/-- The rules for English in their order: src/stmValidator/STMList.pm 73-98. -/
def englishRules : List Re :=
  [lit "ignore_time_segment_in_scoring", word, paren word, acronym, paren acronym, fragment, paren fragment,
    .seq word (.star clitic),
    .seq (lit "(") (.seq word (.seq clitic (.star (lit ")")))),
    .alt (.seq (lit "o'") (Re.plus (.cls (fun c => !space c)))) (lit "d'etre"),
    paren pause, pause, tag]

/-- Whether a token of an English text is recognised: src/stmValidator/STMList.pm 72-103. -/
def english (t : List Char) : Bool := englishRules.any (fun r => run r t)

/-- The characters of `$punct` up to its first `]`, which ends the class `[^$punct]`: the backslashes of src/stmValidator/STMList.pm 110 are gone when the
expressions of lines 114 and 116 are compiled. -/
def punct (c : Char) : Bool := "!@#$^&*()`~_+={[}".toList.contains c

/-- What of `$punct]+` is left after its class, `|` apart; it begins with `\<,>.?`: src/stmValidator/STMList.pm 110, 114. -/
def rest : Re := .seq (txt "<,>") (.seq (Re.opt (.cls (fun _ => true))) (.seq (txt "/-") (chr ']').plus))

/-- The rules for other languages in their order. `^[^$punct]+$` is read by Perl as `^[^...]` or `...$`, neither anchored at the other end:
src/stmValidator/STMList.pm 112-121. -/
def otherRules : List Re :=
  [lit "ignore_time_segment_in_scoring",
    .alt (.seq (.cls (fun c => !punct c)) any) (.seq any rest),
    .alt (.seq (chr '(') (.seq (.cls (fun c => !punct c)) any)) (.seq any (.seq rest (chr ')'))),
    paren (lit "%hesitation"), tag]

/-- Whether a token of a text in another language is recognised: src/stmValidator/STMList.pm 111-127. -/
def other (t : List Char) : Bool := otherRules.any (fun r => run r t)

/-! ## Splitting -/

/-- The words of a text between white space; `cur` is the word begun, backwards: src/ctmValidator/ctmValidator.pl 79. -/
def words : List Char → List Char → List (List Char)
  | cur, [] => if cur = [] then [] else [cur.reverse]
  | cur, c :: s => if space c then (if cur = [] then words [] s else cur.reverse :: words [] s) else words (c :: cur) s

/-- `split(/\s+/, $_)`: white space at the begin makes an empty first field, unless there is no other: src/ctmValidator/ctmValidator.pl 79,
src/stmValidator/STMList.pm 72. -/
def split (s : List Char) : List (List Char) :=
  match s with
  | [] => []
  | c :: _ => if space c && !(words [] s).isEmpty then [] :: words [] s else words [] s

/-- `split(/\s+/, $_, n + 1)`: src/stmValidator/STMList.pm 192. -/
def splitN : Nat → List Char → List (List Char)
  | 0, s => [s]
  | n + 1, s => if s.any space then s.takeWhile (fun c => !space c) :: splitN n ((s.dropWhile (fun c => !space c)).dropWhile space) else [s]

/-! ## The STM file -/

/-- `;;\s+CATEGORY\s+"([^"]*)"\s+"([^"]*)"\s+"([^"]*)"` anywhere in the line, or the same with LABEL: src/stmValidator/STMList.pm 176, 182. -/
def header (key : String) : Re :=
  let sp : Re := (Re.cls space).plus
  let quoted : Re := .seq (chr '"') (.seq (.star (.cls (fun c => c != '"'))) (chr '"'))
  .seq any (.seq (txt ";;") (.seq sp (.seq (txt key) (.seq sp (.seq quoted (.seq sp (.seq quoted (.seq sp (.seq quoted any)))))))))

/-- `s/;;.*$//`: src/stmValidator/STMList.pm 189. -/
def cut : List Char → List Char
  | [] => []
  | [c] => [c]
  | c :: d :: s => if c == ';' && d == ';' then [] else c :: cut (d :: s)

/-- The text of a record of at most seven fields; `<...>` in the sixth is a label: src/stmValidator/STMList.pm 192-199. -/
def textOf (fs : List (List Char)) : List Char :=
  match fs[5]? with
  | none => []
  | some labels =>
    if run (.seq (txt "<") (.seq any (txt ">"))) labels then (fs[6]?).getD []
    else match fs[6]? with
      | some t => labels ++ ' ' :: t
      | none => labels

/-- The text of the record in a line, if there is one: src/stmValidator/STMList.pm 176-202. -/
def load (line : List Char) : Option (List Char) :=
  if run (header "CATEGORY") line || run (header "LABEL") line then none
  else
    match (cut line).dropWhile space with
    | [] => none
    | c :: s => some (textOf (splitN 6 (c :: s)))

/-- Whether the file is validated; the language is in small letters: src/stmValidator/STMList.pm 67-105, 107-128, 130-167. The records are taken in the order of the
file, the code takes them by file and channel. -/
def stmValid (language : String) (lines : List (List Char)) : Bool :=
  (lines.filterMap load).all (fun text => (split text).all (if language = "english" then english else other))

/-! ## The CTM file -/

/-- The complaints: src/ctmValidator/ctmValidator.pl 82, 87, 104, 110, 117, 122, 128, 134, 141, 149, 155, 161. -/
inductive Complaint where
  | few | many | source | channel | begin | duration | token | conf | type | speaker
  deriving DecidableEq

/-- `[A-Za-z0-9_-]+`: src/ctmValidator/ctmValidator.pl 102, 159. -/
def ident : Re := (Re.cls (fun c => c.isAlpha || c.isDigit || c == '_' || c == '-')).plus

/-- `\d+(\.\d+)?`: src/ctmValidator/ctmValidator.pl 126, 132, 147. -/
def number : Re := .seq (Re.cls Char.isDigit).plus (Re.opt (.seq (txt ".") (Re.cls Char.isDigit).plus))

/-- `\d+|[AB]`: src/ctmValidator/ctmValidator.pl 108. -/
def channelRe : Re := .alt (Re.cls Char.isDigit).plus (.alt (txt "A") (txt "B"))

/-- `(<ALT>|<ALT_BEGIN>|<ALT_END>)` anywhere: src/ctmValidator/ctmValidator.pl 114. -/
def altTag : Re := .seq any (.seq (.alt (txt "<ALT>") (.alt (txt "<ALT_BEGIN>") (txt "<ALT_END>"))) any)

/-- The four expressions for an English token, one of which has to match: src/ctmValidator/ctmValidator.pl 139. -/
def tokenRe : Re :=
  .alt (Re.cls (fun c => c.isAlpha || c == '-' || c == '\'')).plus
    (.alt (.seq letter (.seq (txt ".") any))
      (.alt (.seq any (.seq (txt "@") any))
        (.seq any (.seq (lit "%") (.seq (.alt (.seq (lit "bc") (.seq (Re.opt (lit "n")) (lit "ack"))) (lit "hesitation")) any)))))

/-- `%TYPES`: src/ctmValidator/ctmValidator.pl 35-43. -/
def types : List String := ["lex", "frag", "fp", "un-lex", "for-lex", "non-lex", "misc", "noscore"]

/-- A complaint unless a condition holds: src/ctmValidator/ctmValidator.pl 102-163. -/
def want (ok : Bool) (c : Complaint) : List Complaint := if ok then [] else [c]

/-- The complaints about a line with a permitted number of fields; the language is in small letters. A confidence left out is `0.0`, which Perl writes `0`:
src/ctmValidator/ctmValidator.pl 93-163. -/
def checkFields (language : String) (source channel beg dur token : List Char) (more : List (List Char)) : List Complaint :=
  let conf := (more[0]?).getD ['0']
  let type := (more[1]?).getD "lex".toList
  let speaker := (more[2]?).getD "spkr".toList
  want (run ident source) .source ++ want (run channelRe channel) .channel ++
    (if run altTag token then want (run (txt "*") beg) .begin ++ want (run (txt "*") dur) .duration
      else want (run number beg) .begin ++ want (run number dur) .duration ++
        (if language == "english" && type == "lex".toList then want (run tokenRe token) .token else [])) ++
    want (run number conf) .conf ++ want (types.any (fun t => t.toList = type)) .type ++ want (run ident speaker) .speaker

/-- The complaints about a line: src/ctmValidator/ctmValidator.pl 77-164. -/
def check (language : String) (line : List Char) : List Complaint :=
  match line with
  | ';' :: ';' :: _ => []
  | _ =>
    match split line with
    | source :: channel :: beg :: dur :: token :: more =>
      if more.length > 3 then [.many] else checkFields language source channel beg dur token more
    | _ => [.few]

/-- The number of errors reported, and whether the file is validated: src/ctmValidator/ctmValidator.pl 67, 169-175. -/
def ctmValid (language : String) (lines : List (List Char)) : Nat × Bool :=
  let n := (lines.map (fun l => (check language l).length)).sum
  (n, n == 0)

end Verif.TextVal
