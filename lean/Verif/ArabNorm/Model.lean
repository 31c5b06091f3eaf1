/-!
# Model of the filters for Arabic transcripts

src/hamzaNorm/hamzaNorm.pl, src/tanweenFilt/tanweenFilt.pl and parts of src/def_art/def_art.pl.  The programs work on the bytes of UTF-8;
the model works on code points, which is the same for texts that are valid UTF-8 since no letter's code contains another's.
-/
set_option autoImplicit false
namespace Verif.ArabNorm

/-- A text: code points. -/
abbrev Text := List Nat

/-- The forms of alef with madda, hamza above, hamza below, and bare: U+0622, U+0623, U+0625, U+0627, which are \330\242, \330\243, \330\245,
\330\247 in src/hamzaNorm/hamzaNorm.pl:90. -/
def isAlef (c : Nat) : Bool := c == 0x622 || c == 0x623 || c == 0x625 || c == 0x627

/-- `s/ (...)/ \330\247/g`, src/hamzaNorm/hamzaNorm.pl:90. -/
def alefs : Text → Text
  | [] => []
  | [c] => [c]
  | c :: d :: l => if c == 32 && isAlef d then 32 :: 0x627 :: alefs l else c :: alefs (d :: l)

/-- `s/^ //`, src/hamzaNorm/hamzaNorm.pl:91, src/tanweenFilt/tanweenFilt.pl:102. -/
def dropSpace : Text → Text
  | [] => []
  | c :: l => if c == 32 then l else c :: l

/-- `normalize` of hamzaNorm, src/hamzaNorm/hamzaNorm.pl:87-93. -/
def hamza (t : Text) : Text := dropSpace (alefs (32 :: t))

/-- The three tanween: U+064B, U+064C, U+064D, which are \331\213, \331\214, \331\215 in src/tanweenFilt/tanweenFilt.pl:95-100. -/
def isTan (c : Nat) : Bool := c == 0x64B || c == 0x64C || c == 0x64D

/-- `s/(...)$//g`, src/tanweenFilt/tanweenFilt.pl:97. -/
def tanEnd : Text → Text
  | [] => []
  | [c] => if isTan c then [] else [c]
  | c :: d :: l => c :: tanEnd (d :: l)

/-- `s/(...)\)$/\)/g`, src/tanweenFilt/tanweenFilt.pl:98; 41 is the closing parenthesis. -/
def tanParEnd : Text → Text
  | [] => []
  | [c] => [c]
  | [c, d] => if isTan c && d == 41 then [41] else [c, d]
  | c :: d :: e :: l => c :: tanParEnd (d :: e :: l)

/-- `s/(...)\) /\) /g`, src/tanweenFilt/tanweenFilt.pl:99. -/
def tanPar : Text → Text
  | [] => []
  | [c] => [c]
  | [c, d] => [c, d]
  | c :: d :: e :: l => if isTan c && d == 41 && e == 32 then 41 :: 32 :: tanPar l else c :: tanPar (d :: e :: l)

/-- `s/(...) / /g`, src/tanweenFilt/tanweenFilt.pl:100. -/
def tanSp : Text → Text
  | [] => []
  | [c] => [c]
  | c :: d :: l => if isTan c && d == 32 then 32 :: tanSp l else c :: tanSp (d :: l)

/-- `normalize` of tanweenFilt; `all` is the option -a, src/tanweenFilt/tanweenFilt.pl:91-104. -/
def tanween (all : Bool) (t : Text) : Text :=
  let u := 32 :: t
  dropSpace (if all then u.filter (fun c => !isTan c) else tanSp (tanPar (tanParEnd (tanEnd u))))

/-- White space in the sense of `\s`. -/
def isWs (c : Nat) : Bool := c == 32 || c == 9 || c == 10 || c == 12 || c == 13 || c == 11

/-- `split(/(\s+)/, $_, n)` from a place where a word begins: words and the white space between them alternately, at most `n` words of
which the last is the rest of the line, src/hamzaNorm/hamzaNorm.pl:61, 71.  Without a limit, `n` is at least the length of the line;
that empty fields at the end are dropped then makes no difference after `join`. -/
def fields : Nat → Text → List Text
  | 0, t => [t]
  | 1, t => [t]
  | n + 2, t =>
    let w := t.takeWhile (fun c => !isWs c)
    let r := t.dropWhile (fun c => !isWs c)
    match r with
    | [] => [w]
    | _ :: _ => w :: r.takeWhile isWs :: fields (n + 1) (r.dropWhile isWs)

/-- A comment line, src/hamzaNorm/hamzaNorm.pl:55, 65. -/
def isComment : Text → Bool
  | 59 :: 59 :: _ => true
  | 35 :: _ => true
  | _ => false

/-- `$ctm[8] = normalize($ctm[8])`; a missing field becomes an empty one, src/hamzaNorm/hamzaNorm.pl:62. -/
def changeAt (f : Text → Text) : Nat → List Text → List Text
  | _, [] => []
  | 0, t :: l => f t :: l
  | n + 1, t :: l => t :: changeAt f n l

/-- A line of a CTM file, src/hamzaNorm/hamzaNorm.pl:54-63, src/tanweenFilt/tanweenFilt.pl:58-67; `norm` is `normalize`. -/
def ctmLine (norm : Text → Text) (t : Text) : Text :=
  if isComment t then t
  else
    let b := t.dropWhile isWs
    t.takeWhile isWs ++ (changeAt norm 8 (fields (b.length + 2) b)).flatten

/-- `/^<[^<>]*>$/`, src/hamzaNorm/hamzaNorm.pl:72; 60 and 62 are the brackets. -/
def isLabel (t : Text) : Bool :=
  match t with
  | 60 :: l => l.getLast? == some 62 && l.dropLast.all (fun c => c != 60 && c != 62)
  | _ => false

/-- The text of a record: `fields` from the sixth on, src/hamzaNorm/hamzaNorm.pl:72-77. -/
def stmRest (norm : Text → Text) : List Text → Text
  | [] => norm []
  | [w] => if isLabel w then w ++ norm [] else norm w
  | [w, s] => if isLabel w then w ++ s ++ norm [] else norm (w ++ s)
  | w :: s :: r :: _ => if isLabel w then w ++ s ++ norm r else norm (w ++ s ++ r)

/-- A line of an STM file, src/hamzaNorm/hamzaNorm.pl:64-78, src/tanweenFilt/tanweenFilt.pl:68-82. -/
def stmLine (norm : Text → Text) (t : Text) : Text :=
  if isComment t then t
  else
    let b := t.dropWhile isWs
    let f := fields 7 b
    t.takeWhile isWs ++ ((f.take 10).flatten ++ stmRest norm (f.drop 10))

/-- The input formats. -/
inductive Fmt
  | txt
  | ctm
  | stm
  deriving Repr, DecidableEq

/-- What hamzaNorm and tanweenFilt do with a line; without -i the format is plain text, src/hamzaNorm/hamzaNorm.pl:30-35, 50-82. -/
def filterLine (norm : Text → Text) (i : Option Fmt) (t : Text) : Text :=
  match i.getD .txt with
  | .txt => norm t
  | .ctm => ctmLine norm t
  | .stm => stmLine norm t

/-- The lines that def_art writes for a line: the variable with the format is only set by -i, src/def_art/def_art.pl:44-48, 78-120.  `lu`
stands for `String_LU`, `ctm` and `stm` for what is done in these formats. -/
def defArt (lu : Text → Text) (ctm stm : Text → List Text) (i : Option Fmt) (t : Text) : List Text :=
  match i with
  | some .txt => [lu t]
  | some .ctm => ctm t
  | some .stm => stm t
  | none => []

end Verif.ArabNorm
