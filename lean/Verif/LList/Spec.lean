import Verif.LList.Model
/-!
# Lists as sequences
-/
set_option autoImplicit false
namespace Verif.LList

/-- What a call does to the sequences held by the variables, and what it returns. -/
def effect {D : Type} (v : Nat → List D) : Op D → (Nat → List D) × Option D
  | .init i => (fun j => if j = i then [] else v j, none)
  | .front i d => (fun j => if j = i then d :: v i else v j, none)
  | .tail i d => (fun j => if j = i then v i ++ [d] else v j, none)
  | .first i => (fun j => if j = i then (v i).tail else v j, (v i).head?)
  | .copy t f => (fun j => if j = t then v f else v j, none)

/-- A sequence of calls. -/
def effects {D : Type} (v : Nat → List D) : List (Op D) → (Nat → List D) × List (Option D)
  | [] => (v, [])
  | op :: ops => ((effects (effect v op).1 ops).1, (effect v op).2 :: (effects (effect v op).1 ops).2)

/-- No list is copied onto itself. -/
def NoSelf {D : Type} : List (Op D) → Prop
  | [] => True
  | .copy t f :: ops => t ≠ f ∧ NoSelf ops
  | _ :: ops => NoSelf ops

end Verif.LList
