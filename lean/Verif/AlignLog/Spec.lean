import Verif.AlignLog.Model
/-!
# What the log should say
-/
set_option autoImplicit false
namespace Verif.AlignLog
open Verif.AscSgml (dec secs)

/-- No comma and no white space. -/
def Clean (w : List Nat) : Prop := ∀ b ∈ w, b ≠ 44 ∧ b ≠ 32 ∧ ¬ (9 ≤ b ∧ b ≤ 13)

/-- The texts of a segment are without comma and white space. -/
def CleanSeg (s : Seg) : Prop := Clean s.speaker ∧ Clean s.file ∧ Clean s.channel

/-- The texts of a token are without comma and white space. -/
def CleanTok (t : Tok) : Prop := Clean t.text ∧ Clean (t.conf.getD []) ∧ CleanSeg t.seg

/-- A time in seconds, nothing for an unknown time. -/
def timeText (n : Int) : List Nat := if n < 0 then [] else secs n

/-- Numbers with bars between them. -/
def barText (l : List Nat) : List Nat := [124].intercalate (l.map dec)

/-- The eleven columns of a token: segment (number, begin, end, speaker), token (number, begin, end, text, confidence,
predecessors, successors). -/
def tokCols (t : Tok) : List (List Nat) :=
  [dec t.seg.id, timeText t.seg.start, timeText t.seg.stop, t.seg.speaker, dec t.id, timeText t.start, timeText t.stop,
   t.text, t.conf.getD [], barText t.prev, barText t.next]

/-- The eleven columns of a segment without tokens. -/
def segCols (s : Seg) : List (List Nat) :=
  [dec s.id, timeText s.start, timeText s.stop, s.speaker, [], [], [], [], [], [], []]

/-- Nothing on a side. -/
def noCols : List (List Nat) := [[], [], [], [], [], [], [], [], [], [], []]

/-- A segment with its tokens is in order: the tokens are of this segment and have different numbers. -/
def GoodSeg (x : Seg × List Tok) : Prop :=
  CleanSeg x.1 ∧ (∀ t ∈ x.2, t.seg = x.1 ∧ CleanTok t) ∧ (x.2.map Tok.id).Nodup

/-- A group is in order: so are its segments, and the segments of a side have different numbers. -/
def GoodGroup (g : Group) : Prop :=
  (∀ x ∈ g.refs, GoodSeg x) ∧ (∀ x ∈ g.hyps, GoodSeg x) ∧ (g.refs.map (·.1.id)).Nodup ∧ (g.hyps.map (·.1.id)).Nodup

/-- What should be known of a token. -/
def tokView (t : Tok) : RTok :=
  ⟨dec t.id, timeText t.start, timeText t.stop, t.text, t.conf.getD [], barText t.prev, barText t.next,
   timeText t.seg.start, timeText t.seg.stop⟩

/-- What should be known of a segment. -/
def segView (side : List Nat) (x : Seg × List Tok) : RSeg := ⟨dec x.1.id, side ++ x.1.speaker, x.2.map tokView⟩

/-- The segments of a side that have words. -/
def worded (l : List (Seg × List Tok)) : List (Seg × List Tok) := l.filter (fun x => x.2 ≠ [])

/-- What should be known of a group: its segments that have words, the file and channel of the first of them.  A group without
words is unknown. -/
def groupView (g : Group) : Option RGroup :=
  (worded (g.refs ++ g.hyps)).head?.map (fun x => ⟨dec g.id, x.1.file, x.1.channel,
    (worded g.refs).map (segView (bytes "ref:")), (worded g.hyps).map (segView (bytes "hyp:"))⟩)

/-- A word of the group on the reference side. -/
def RefWord (g : Group) (t : Tok) : Prop := ∃ x ∈ g.refs, t ∈ x.2

/-- A word of the group on the side of the system. -/
def HypWord (g : Group) (t : Tok) : Prop := ∃ x ∈ g.hyps, t ∈ x.2

/-- The pair as it should be read: group, verdict, numbers of the words. -/
def pairView (r : Row) : List Nat × List Nat × List Nat × List Nat :=
  (dec r.sg, r.eval, (r.ref.map (fun t => dec t.id)).getD [], (r.hyp.map (fun t => dec t.id)).getD [])

/-- A pair of words of one of the groups. -/
def GoodRow (gs : List Group) (r : Row) : Prop :=
  Clean r.eval ∧ ∃ g ∈ gs, g.id = r.sg ∧ (∀ t, r.ref = some t → RefWord g t) ∧ (∀ t, r.hyp = some t → HypWord g t)

end Verif.AlignLog
