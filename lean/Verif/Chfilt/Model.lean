/-!
# The segments of converted Callhome transcripts (src/chfilt/chfilt.pl)

The normalisation of the text is not modelled, only what happens to the segments. Times are integers in any unit; arithmetic is exact,
that is, the rounding of `%.2f` is not modelled. All segments of a run have the same file name and the label `<O>`, which are left out.
-/
set_option autoImplicit false
namespace Verif.Chfilt

/-- The speaker of a record: a name, or one of those chfilt makes up: src/chfilt/chfilt.pl 757, 881, 907-908. -/
inductive Spkr where
  | name (s : String)
  | excluded
  | gap
  deriving DecidableEq

/-- A record of `@STMS`: src/chfilt/chfilt.pl 757. The text is the list of its words. -/
structure Rec where
  chan : String
  spkr : Spkr
  bt : Int
  et : Int
  text : List String
  deriving DecidableEq

/-- in_range, with the begin and end always defined and `d` for 0.5: src/chfilt/chfilt.pl 183-184, 945-952. -/
def inRange (B E d bt et : Int) : Bool :=
  let eqdelta (v1 v2 : Int) : Bool := if v1 < v2 then decide (v2 - v1 < d) else decide (v1 - v2 < d)
  (decide (B ≤ bt) || eqdelta bt B) && (decide (et ≤ E) || eqdelta et E)

/-- The segments kept; `keep` is the option -k: src/chfilt/chfilt.pl 755. -/
def select (keep : Bool) (B E d : Int) (rs : List Rec) : List Rec :=
  rs.filter (fun r => inRange B E d r.bt r.et && (keep || !r.text.isEmpty))

/-- The channel of a speaker label: the label without its last character if that is a digit: src/chfilt/chfilt.pl 753-754. -/
def channel (s : List Char) : List Char :=
  match s.getLast? with
  | some c => if c.isDigit then s.dropLast else s
  | none => s

/-- Changes the newest record of that channel, if `f` wants it; the list has the newest record first.
`$lastStmEndIndex{$chan}` is the index of that record: src/chfilt/chfilt.pl 844-851 and 876-882. -/
def change (f : Rec → Option Rec) (chan : String) : List Rec → Option (List Rec)
  | [] => none
  | l :: ls => if l.chan = chan then (f l).map (fun x => x :: ls) else (change f chan ls).map (fun x => l :: x)

/-- One turn of the loops for smoothing and exclusion, which differ in `f`; the records done have the newest first.
`$lastStmEnd{$chan}` is the end of the newest record of the channel: src/chfilt/chfilt.pl 837-859 and 869-890. -/
def step (f : Rec → Rec → Option Rec) (out : List Rec) (r : Rec) : List Rec :=
  match change (fun l => f l r) r.chan out with
  | some o => o
  | none => r :: out

/-- The loops for smoothing and exclusion: src/chfilt/chfilt.pl 836-860 and 867-891. -/
def pass (f : Rec → Rec → Option Rec) (rs : List Rec) : List Rec := (rs.foldl (step f) []).reverse

/-- When and how smoothing joins a segment to the one before it in its channel: src/chfilt/chfilt.pl 844-851. -/
def join (s : Int) (l r : Rec) : Option Rec :=
  if r.bt - s < l.et then
    if r.spkr = l.spkr then some { l with et := r.et, text := l.text ++ r.text } else none
  else none

/-- The option -s: src/chfilt/chfilt.pl 835-861. -/
def smooth (s : Int) (rs : List Rec) : List Rec := pass (join s) rs

/-- When and how overlapping segments are made a region that is not scored: src/chfilt/chfilt.pl 876-882. -/
def cover (l r : Rec) : Option Rec :=
  if r.bt < l.et then some { chan := r.chan, spkr := .excluded, bt := l.bt, et := r.et, text := ["ignore_time_segment_in_scoring"] }
  else none

/-- The option -E: src/chfilt/chfilt.pl 866-892. -/
def exclude (rs : List Rec) : List Rec := pass cover rs

/-- The newest record of a channel: src/chfilt/chfilt.pl 817, 912. -/
def newest (chan : String) (out : List Rec) : Option Rec := out.find? (fun l => l.chan == chan)

/-- The shift of a boundary, in halves of the unit: the minimum of half the pause and of the padding: src/chfilt/chfilt.pl 780-790, 806, 824. -/
def shift (pause P : Int) : Int := if pause ≤ 2 * P then pause else 2 * P

/-- A record in halves of the unit. -/
def double (r : Rec) : Rec := { r with bt := 2 * r.bt, et := 2 * r.et }

/-- One turn of the loop for padding. The records done are in halves of the unit, the newest first: src/chfilt/chfilt.pl 796-819. -/
def padStep (B P : Int) (out : List Rec) (r : Rec) : List Rec :=
  match newest r.chan out with
  | none => if B < r.bt then { double r with bt := 2 * r.bt - shift (r.bt - B) P } :: out else double r :: out
  | some l =>
    if l.et < 2 * r.bt then
      let s := shift (r.bt - l.et / 2) P
      { double r with bt := 2 * r.bt - s } :: (change (fun l => some { l with et := l.et + s }) r.chan out).getD out
    else double r :: out

/-- The end of the padding, for one channel: src/chfilt/chfilt.pl 823-828. -/
def padEnd (E P : Int) (out : List Rec) (chan : String) : List Rec :=
  (change (fun l => some (if l.et < 2 * E then { l with et := l.et + shift (E - l.et / 2) P } else l)) chan out).getD out

/-- The option -p; the result is in halves of the unit. The channels are taken in the order in which they appear,
the code takes them in alphabetical order: src/chfilt/chfilt.pl 795-830. -/
def pad (B E P : Int) (rs : List Rec) : List Rec :=
  ((rs.map (·.chan)).eraseDups.foldl (padEnd E P) (rs.foldl (padStep B P) [])).reverse

/-- The end of the newest record of the channel, or the begin of the test: src/chfilt/chfilt.pl 900-903, 912. -/
def lastEnd (B : Int) (out : List Rec) (chan : String) : Int :=
  match newest chan out with
  | some l => l.et
  | none => B

/-- One turn of the loop that adds gaps; `d` is 0.01: src/chfilt/chfilt.pl 899-912. -/
def gapStep (B d : Int) (out : List Rec) (r : Rec) : List Rec :=
  if lastEnd B out r.chan < r.bt - d then
    r :: { chan := r.chan, spkr := .gap, bt := lastEnd B out r.chan, et := r.bt, text := [] } :: out
  else r :: out

/-- The gap at the end of a channel: src/chfilt/chfilt.pl 915-919. -/
def gapEnd (B E d : Int) (out : List Rec) (chan : String) : List Rec :=
  if lastEnd B out chan < E - d then
    { chan := chan, spkr := .gap, bt := lastEnd B out chan, et := E, text := [] } :: out
  else out

/-- The option -i. The channels are taken in the order in which they appear, the code takes them in alphabetical order: src/chfilt/chfilt.pl 897-921. -/
def gaps (B E d : Int) (rs : List Rec) : List Rec :=
  ((rs.map (·.chan)).eraseDups.foldl (gapEnd B E d) (rs.foldl (gapStep B d) [])).reverse

end Verif.Chfilt
