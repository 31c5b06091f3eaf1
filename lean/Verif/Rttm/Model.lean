/-!
# Model of the tools that make and change RTTM files

src/rttmSmooth/rttmSmooth.pl, src/stm2rttm/stm2rttm.pl, src/mergectm2rttm/mergectm2rttm.pl, src/spkr2sad/spkr2sad.pl and
src/rttmSort/rttmSort.pl.  Times are whole milliseconds, so that `sprintf("%.3f")` changes nothing; names are numbers.  Sorts are
parameters where the program leaves the order of equal elements open.
-/
set_option autoImplicit false
namespace Verif.Rttm

/-! ## Smoothing -/

/-- Begin and duration of a SPEAKER line, src/rttmSmooth/rttmSmooth.pl:22-23, 39. -/
structure Seg where
  beg : Int
  dur : Int
  deriving Repr, DecidableEq

/-- End of a turn. -/
def Seg.fin (s : Seg) : Int := s.beg + s.dur

/-- The merged turn, src/rttmSmooth/rttmSmooth.pl:47-49. -/
def merge (a b : Seg) : Seg := ⟨a.beg, (if a.fin < b.fin then b.fin else a.fin) - a.beg⟩

/-- The loop from the turn `a` on, src/rttmSmooth/rttmSmooth.pl:40-54: after a merge the same turn is looked at again. -/
def smoothFrom (th : Int) (a : Seg) : List Seg → List Seg
  | [] => [a]
  | b :: l => if a.fin ≥ b.beg - th then smoothFrom th (merge a b) l else a :: smoothFrom th b l

/-- The loop over the turns of a key, src/rttmSmooth/rttmSmooth.pl:39-54. -/
def smooth (th : Int) : List Seg → List Seg
  | [] => []
  | a :: l => smoothFrom th a l

/-- A SPEAKER line with the fields the program looks at, src/rttmSmooth/rttmSmooth.pl:17-24. -/
structure Line where
  file : Nat
  chnl : Nat
  spkr : Nat
  seg : Seg
  deriving Repr, DecidableEq

/-- The keys: file and speaker, src/rttmSmooth/rttmSmooth.pl:23. -/
def Line.key (l : Line) : Nat × Nat := (l.file, l.spkr)

/-- The keys in some order; the program sorts them, src/rttmSmooth/rttmSmooth.pl:28. -/
def keys (ls : List Line) : List (Nat × Nat) := (ls.map Line.key).eraseDups

/-- The loop with lines: a merged line keeps the fields of the first, src/rttmSmooth/rttmSmooth.pl:40-57. -/
def smoothLines (th : Int) (a : Line) : List Line → List Line
  | [] => [a]
  | b :: l => if a.seg.fin ≥ b.seg.beg - th then smoothLines th { a with seg := merge a.seg b.seg } l else a :: smoothLines th b l

/-- `rttmSmooth` on the SPEAKER lines, src/rttmSmooth/rttmSmooth.pl:28-58. -/
def rttmSmooth (sort : List Line → List Line) (th : Int) (ls : List Line) : List Line :=
  (keys ls).flatMap (fun k =>
    match sort (ls.filter (fun l => l.key == k)) with
    | [] => []
    | a :: l => smoothLines th a l)

/-! ## From STM to RTTM -/

/-- Begin and end of a segment of the STM file, src/stm2rttm/stm2rttm.pl:27-28. -/
structure Utt where
  beg : Int
  fin : Int
  deriving Repr, DecidableEq

/-- The smoothing from the second segment on, src/stm2rttm/stm2rttm.pl:95-115: `p` is `$prev_seg`, `sk` are the segments after it that
have been passed over.  After `splice` the index is increased twice, so that two segments are passed over.  `none` is the message
about overlapping segments. -/
def uttLoop (th : Int) (p : Utt) (sk : List Utt) : List Utt → Option (List Utt)
  | [] => some (p :: sk)
  | x :: a :: b :: l =>
    if x.beg < p.fin then none
    else if x.beg - p.fin ≤ th then uttLoop th { p with fin := x.fin } (sk ++ [a, b]) l
    else (uttLoop th x [] (a :: b :: l)).map (fun r => (p :: sk) ++ r)
  | x :: l =>
    if x.beg < p.fin then none
    else if x.beg - p.fin ≤ th then some ({ p with fin := x.fin } :: (sk ++ l))
    else (uttLoop th x [] l).map (fun r => (p :: sk) ++ r)

/-- The smoothing of the sorted segments of a speaker, src/stm2rttm/stm2rttm.pl:94-115. -/
def stmSmooth (th : Int) : List Utt → Option (List Utt)
  | [] => some []
  | a :: l => uttLoop th a [] l

/-! ## Words with the speakers of an RTTM file -/

/-- A turn, src/mergectm2rttm/mergectm2rttm.pl:69-72. -/
structure Turn where
  seg : Seg
  spkr : Nat
  deriving Repr, DecidableEq

/-- A word of type "lex", src/mergectm2rttm/mergectm2rttm.pl:98-105. -/
structure Word where
  seg : Seg
  text : Nat
  deriving Repr, DecidableEq

/-- What is found under the begin times: `push` appends the fields of all turns of a begin, of which only the first six are read,
src/mergectm2rttm/mergectm2rttm.pl:71, 104, 116-120, 144-155.  The times are taken to be written in one way. -/
def firstsFrom {α : Type} (beg : α → Int) (seen : List Int) : List α → List α
  | [] => []
  | a :: l => if seen.contains (beg a) then firstsFrom beg seen l else a :: firstsFrom beg (beg a :: seen) l

/-- The entries that are read, src/mergectm2rttm/mergectm2rttm.pl:116, 144. -/
def firsts {α : Type} (beg : α → Int) (l : List α) : List α := firstsFrom beg [] l

/-- The middle of a word lies in a turn, twice the times, src/mergectm2rttm/mergectm2rttm.pl:102, 122. -/
def inTurn (w : Word) (t : Turn) : Bool := decide (2 * t.seg.beg ≤ 2 * w.seg.beg + w.seg.dur) && decide (2 * w.seg.beg + w.seg.dur ≤ 2 * t.seg.fin)

/-- `findSpeaker`, src/mergectm2rttm/mergectm2rttm.pl:111-136; `pick` stands for `rand`. -/
def findSpeaker (pick : Nat → Nat) (turns : List Turn) (w : Word) : Option Nat :=
  let l := (firsts (fun t : Turn => t.seg.beg) turns).filter (inTurn w)
  (l[pick l.length]?).map Turn.spkr

/-- `MergedData` for one file and channel: the words with their speakers, src/mergectm2rttm/mergectm2rttm.pl:138-163. -/
def mergeWords (pick : Nat → Nat) (turns : List Turn) (words : List Word) : List (Word × Nat) :=
  (firsts (fun w : Word => w.seg.beg) words).filterMap (fun w => (findSpeaker pick turns w).map (fun s => (w, s)))

/-! ## Speech activity -/

/-- The SPEAKER lines of `spkr2sad`: every speaker is called "speech" (0), src/spkr2sad/spkr2sad.pl:39-45. -/
def spkr2sad (sort : List Line → List Line) (file : Nat) (ls : List Line) : List Line :=
  (sort (ls.filter (fun l => l.file == file))).map (fun l => { l with spkr := 0 })

/-! ## Sorting -/

/-- A line other than SPKR-INFO: the rank of its type in `%sort_order`, file, channel, the number its begin time stands for (`none` for
`<NA>`), the text of its begin time and a number that stands for the rest, src/rttmSort/rttmSort.pl:6-20, 39-47. -/
structure Rec where
  rank : Nat
  file : Nat
  chan : Nat
  time : Option Int
  text : Nat
  rest : Nat
  deriving Repr, DecidableEq

/-- `cmp_float`: times that are not given come first, src/rttmSort/rttmSort.pl:55-60. -/
def timeLe : Option Int → Option Int → Bool
  | none, _ => true
  | some _, none => false
  | some a, some b => decide (a ≤ b)

/-- A sort of keys by a comparison, equal ones in some order. -/
def ksort {α : Type} (le : α → α → Bool) (l : List α) : List α :=
  l.foldr (fun a acc => acc.takeWhile (fun b => !le a b) ++ a :: acc.dropWhile (fun b => !le a b)) []

/-- The lines in the order of printing, src/rttmSort/rttmSort.pl:67-85: by file, channel, begin time as a text that is compared as a
number, and type. -/
def rttmSort (recs : List Rec) : List Rec :=
  (ksort (fun a b => decide (a ≤ b)) (recs.map Rec.file).eraseDups).flatMap (fun f =>
    let rf := recs.filter (fun r => r.file == f)
    (ksort (fun a b => decide (a ≤ b)) (rf.map Rec.chan).eraseDups).flatMap (fun c =>
      let rc := rf.filter (fun r => r.chan == c)
      (ksort (fun a b : Nat × Option Int => timeLe a.2 b.2) (rc.map (fun r => (r.text, r.time))).eraseDups).flatMap (fun t =>
        ksort (fun a b : Rec => decide (a.rank ≤ b.rank)) (rc.filter (fun r => (r.text, r.time) == t)))))

end Verif.Rttm
