/-!
# Perplexity of a text and lists of forced backing off (src/sclite/slm_v2/src)

`compute_perplexity` and `gen_fb_list`. Words are looked up by a function that gives numbers up to the size of the vocabulary, zero for words that are not in it.
Probabilities are logarithms, whole numbers of some unit. Not modelled: opening of files, annotations, warnings, messages.
-/
set_option autoImplicit false
namespace Verif.Perp

/-- What `calc_prob_of` gives: the probability, `bo_case` and `actual_context_length`: src/sclite/slm_v2/src/perplexity.c 303-311. -/
structure Prob where
  prob : Int
  bo : Nat
  acl : Nat
  deriving DecidableEq

/-- A model and the options: the order, the probabilities, context cues, a closed vocabulary, `include_unks`: src/sclite/slm_v2/src/perplexity.c 25-38. -/
structure Lm where
  n : Nat
  look : String → Nat
  pr : Nat → List Nat → Prob
  cue : Nat → Bool
  closed : Bool
  unks : Bool

/-- The variables of the loop; the streams are lists: src/sclite/slm_v2/src/perplexity.c 40-65, 211-216. -/
structure St where
  ctx : List Nat
  cur : Nat
  total : Nat
  exUnks : Nat
  exCcs : Nat
  hits : Nat → Nat
  sum : Int
  probs : List Int
  oovs : List String
  wrong : Bool

/-- `context_length`: src/sclite/slm_v2/src/perplexity.c 234-239. -/
def len (lm : Lm) (s : St) : Nat := if decide (s.total < lm.n - 1) then s.total else lm.n - 1

/-- The context is moved by one word: src/sclite/slm_v2/src/perplexity.c 243-249. -/
def shift (l : Nat) (a : List Nat) : List Nat :=
  (List.range a.length).map (fun i => if decide (i + 1 < l) then (a[i + 1]?).getD 0 else (a[i]?).getD 0)

/-- The context for the next word: src/sclite/slm_v2/src/perplexity.c 241-253. -/
def fill (lm : Lm) (s : St) : List Nat :=
  let l := len lm s
  let a := if decide (lm.n - 1 < s.total) then shift l s.ctx else s.ctx
  if decide (l ≠ 0) then a.set (l - 1) s.cur else a

/-- The place in `ngrams_hit` that is counted up: src/sclite/slm_v2/src/perplexity.c 361-386. -/
def level : Nat → Nat → Nat
  | 0, _ => 0
  | i + 1, b => if decide (b = 0) || decide (b / 4 ^ i = 0) then i + 1 else level i (b - b / 4 ^ i * 4 ^ i)

/-- One word of the text: src/sclite/slm_v2/src/perplexity.c 218-410. -/
def step (lm : Lm) (s : St) (w : String) : St :=
  let a := fill lm s
  let l := len lm s
  let id := lm.look w
  let wrong := s.wrong || (lm.closed && decide (id = 0))
  let s1 := { s with ctx := a, cur := id, wrong := wrong }
  if wrong then s1
  else
    let s2 := { s1 with oovs := if decide (id = 0) then s1.oovs ++ [w] else s1.oovs, total := s1.total + 1 }
    if lm.cue id then { s2 with exCcs := s2.exCcs + 1 }
    else if lm.unks || decide (id ≠ 0) then
      let p := lm.pr id (a.take l)
      { s2 with hits := fun k => if k = level p.acl p.bo then s2.hits k + 1 else s2.hits k, sum := s2.sum + p.prob, probs := s2.probs ++ [p.prob] }
    else { s2 with exUnks := s2.exUnks + 1 }

/-- The beginning; what is in the context does not matter: src/sclite/slm_v2/src/perplexity.c 73-77, 106, 211-216. -/
def start (lm : Lm) : St :=
  { ctx := List.replicate (lm.n - 1) 0, cur := 0, total := 0, exUnks := 0, exCcs := 0, hits := fun _ => 0, sum := 0, probs := [], oovs := [], wrong := false }

/-- The words of the text that are taken: if nothing follows the last word `rr_feof` is already true after it is read: src/sclite/slm_v2/src/perplexity.c 218, 255-262,
src/sclite/slm_v2/src/rr_libs/rr_feof.c 24-31. -/
def taken (ws : List String) (ended : Bool) : List String := if ended then ws else ws.dropLast

/-- The loop over the text: src/sclite/slm_v2/src/perplexity.c 218-412. -/
def loop (lm : Lm) (ws : List String) (ended : Bool) : St := (taken ws ended).foldl (step lm) (start lm)

/-- What is printed: the sum of the logarithms and the number of words from which the perplexity comes, the n-grams hit, the words removed. -/
structure Report where
  sum : Int
  words : Int
  hits : Nat → Nat
  exUnks : Nat
  exCcs : Nat

/-- The lines printed, nothing after a word outside a closed vocabulary: src/sclite/slm_v2/src/perplexity.c 413-433. -/
def report (s : St) : Option Report :=
  if s.wrong then none
  else some { sum := s.sum, words := (s.total : Int) - s.exCcs - s.exUnks, hits := s.hits, exUnks := s.exUnks, exCcs := s.exCcs }

/-- A line of a list of forced backing off: a comment, or the words `sscanf` finds: src/sclite/slm_v2/src/gen_fb_list.c 75-77. -/
inductive Line where
  | comment
  | fields (l : List String)

/-- The kind of an entry by its first letter: src/sclite/slm_v2/src/gen_fb_list.c 94-107. -/
def kind (m : String) : Option Bool :=
  match m.toList with
  | 'i' :: _ => some true
  | 'I' :: _ => some true
  | 'e' :: _ => some false
  | 'E' :: _ => some false
  | _ => none

/-- `fb_list[id]` is set: src/sclite/slm_v2/src/gen_fb_list.c 95-102. -/
def put (fb : Nat → Option Bool) (id : Nat) (b : Bool) : Nat → Option Bool := fun k => if k = id then some b else fb k

/-- The lines of the file, with the word and the mark read before; `none` if one that was never read is used: src/sclite/slm_v2/src/gen_fb_list.c 75-108. -/
def file (look : String → Nat) : Option String → Option String → (Nat → Option Bool) → List Line → Option (Nat → Option Bool)
  | _, _, fb, [] => some fb
  | w, m, fb, .comment :: ls => file look w m fb ls
  | w, m, fb, .fields fs :: ls =>
    let w := match fs with
      | [] => w
      | x :: _ => some x
    let m := match fs with
      | _ :: y :: _ => some y
      | _ => m
    match w, m with
    | some x, some y =>
      match kind y with
      | some b => file look w m (put fb (look x) b) ls
      | none => file look w m fb ls
    | _, _ => none

/-- What the options for unknown words and context cues give: src/sclite/slm_v2/src/gen_fb_list.c 46-71. -/
def options (vocab : Nat) (cue : Nat → Bool) (unkInc unkExc ccsInc ccsExc : Bool) : Nat → Option Bool :=
  let fb0 : Nat → Option Bool := fun _ => none
  let fb1 := if unkInc then put fb0 0 true else fb0
  let fb2 := if unkExc then put fb1 0 false else fb1
  if ccsInc || ccsExc then fun i => if decide (i ≤ vocab) && cue i then some ccsInc else fb2 i else fb2

/-- `gen_fb_list`, `none` where memory that was never set is used: src/sclite/slm_v2/src/gen_fb_list.c 29-112. -/
def genFb (look : String → Nat) (vocab : Nat) (cue : Nat → Bool) (unkInc unkExc ccsInc ccsExc : Bool) (ls : List Line) : Option (Nat → Option Bool) :=
  file look none none (options vocab cue unkInc unkExc ccsInc ccsExc) ls

end Verif.Perp
