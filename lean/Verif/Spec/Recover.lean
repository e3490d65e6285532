import Verif.Spec.BlockReader
import Verif.Spec.BinaryBlock

set_option autoImplicit false

/-!
# Reading a column back with its block index

The repository has no code that turns a block index into read ops. This is the obvious one: the blocks of
a column follow each other from `start` on; an entry of the index gives the end of a block and the id of its last row.
-/

namespace Meerkat.Spec

/-- The read ops for the entries `(last row id, end offset)` of a block index: the first block begins at `start`
with row `row`. -/
def indexOps (start row : Nat) : List (Nat × Nat) → List ReadOp
  | [] => []
  | (lastRow, stop) :: es =>
    { blockRange := { start := start, «end» := stop }, opInfo := .dataBlock row } :: indexOps stop (lastRow + 1) es

/-- The number of rows of each block. -/
def rowCounts (row : Nat) : List (Nat × Nat) → List Nat
  | [] => []
  | (lastRow, _) :: es => (lastRow + 1 - row) :: rowCounts (lastRow + 1) es

/-- The ranges of the blocks with their row ids and numbers of rows, from the index alone. -/
def indexedRanges (pos : Nat) (entries : List (Nat × Nat)) : List (Nat × (Nat × ReadOp)) :=
  (entries.map Prod.fst).zip ((rowCounts 0 entries).zip (indexOps pos 0 entries))

/-- What the stream yielded, decoded block by block: the rows of the blocks, given the number of items of each. -/
def decodeYields (q : Profile) (nullable : Bool) : List Nat → List Yield → Option (List (Option Bytes))
  | [], [] => some []
  | n :: ns, y :: ys =>
    match y.result with
    | .error _ => none
    | .ok block =>
      match readBinary q nullable n block, decodeYields q nullable ns ys with
      | some rows, some rest => some (rows ++ rest)
      | _, _ => none
  | _, _ => none

end Meerkat.Spec
