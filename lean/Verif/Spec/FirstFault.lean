import Verif.Spec.Segment

set_option autoImplicit false

/-! # The first call that fails -/

namespace Meerkat.Spec

/-- How the first call of a list that did not return normally ended, if there is one. -/
def firstFault : List (ColOp × Except Fault Unit) → Option Fault
  | [] => none
  | (_, .ok ()) :: rest => firstFault rest
  | (_, .error f) :: _ => some f

end Meerkat.Spec
