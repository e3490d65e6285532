import Verif.Spec.Column

set_option autoImplicit false

/-!
# Finding a row

What the row ids of the blocks are for: going to the block that holds a given row without reading the others. The
repository has no such code yet; this is how an index of last rows is used.
-/

namespace Meerkat.Spec
variable {β γ : Type}

/-- The first block whose row id is not below `r`, and the position of `r` in it: `start` is the first row of the
first block, and a block starts after the row id of the one before. -/
def findBlock : Nat → List (Nat × β) → Nat → Option (β × Nat)
  | _, [], _ => none
  | start, (id, b) :: rest, r => if r ≤ id then some (b, r - start) else findBlock (id + 1) rest r

/-- Row `r` of the column, as found in its block by the reader `read`. -/
def rowAt (read : β → Option (List γ)) (blocks : List (Nat × β)) (r : Nat) : Option γ :=
  match findBlock 0 blocks r with
  | none => none
  | some (b, i) =>
    match read b with
    | none => none
    | some rows => rows[i]?

end Meerkat.Spec
