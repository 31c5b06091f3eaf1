/-!
# Matching transcripts by identifier: vocabulary for the properties
-/
set_option autoImplicit false
namespace Verif.Refs

/-- Lines that are no utterances: comments (`;;`), comment information (`**`), and lines of white space. -/
def NoUtterance (l : List Nat) : Prop :=
  [59, 59] <+: l ∨ [42, 42] <+: l ∨ ∀ b ∈ l, (9 ≤ b ∧ b ≤ 13) ∨ b = 32

/-- An utterance with its identifier in parentheses: the text, `(`, a name without parentheses, `)`, and something without parentheses. -/
def Utterance (line text name after : List Nat) : Prop :=
  line = text ++ 40 :: (name ++ 41 :: after) ∧ 40 ∉ name ∧ 41 ∉ name ∧ 40 ∉ after ∧ 41 ∉ after

/-- The first reference text given for an identifier. -/
def firstText (refs : List (List Nat × List Nat)) (h : List Nat) : Option (List Nat) := (refs.find? (fun r => decide (r.1 = h))).map (·.2)

/-- Ways to read the speaker off an identifier. -/
inductive IdType where
  | sp
  | atis
  | wsj
  | rm
  | spuid
  | swb
deriving DecidableEq

end Verif.Refs
