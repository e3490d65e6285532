import Verif.Model.Sink

set_option autoImplicit false

/-! # Row ids of blocks with given row counts -/

namespace Meerkat.Spec

/-- The row ids of successive blocks that count `cs` rows, when `n` rows were counted before: the exact
(unbounded) running totals, less one. -/
def countIds : Nat → List Nat → List Nat
  | _, [] => []
  | n, c :: cs => (n + c - 1) :: countIds (n + c) cs

/-- The number of rows a reader takes a column to have that knows the row ids of its blocks: one more than the last. -/
def rowsTold (ids : List Nat) : Nat :=
  match ids.getLast? with
  | none => 0
  | some id => id + 1

end Meerkat.Spec
