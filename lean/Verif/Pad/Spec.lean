/-!
# Centred text
-/
set_option autoImplicit false
namespace Verif.Pad

/-- `out` is `str` with blanks on both sides, as many on the right as on the left or one more. -/
def Centred (str out : List Char) (width : Int) : Prop :=
  ∃ l r : Nat, out = List.replicate l ' ' ++ str ++ List.replicate r ' ' ∧ (r = l ∨ r = l + 1) ∧
    (out.length : Int) = max width str.length

end Verif.Pad
