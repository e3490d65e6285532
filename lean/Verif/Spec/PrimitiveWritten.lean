import Verif.Spec.BinaryBlock

set_option autoImplicit false

/-!
# What the primitive encoder writes in release builds

For every block size `m` in bytes and elements of `size` bytes. A block should have `c` values, `m / size` rounded up. When `size`
does not divide `m`, `c` values are more than `m` bytes, and the encoder computes, in release builds, an enormous room left in the
block it holds back.
-/

namespace Meerkat.Spec

/-- One block: its rows, up to the last value, and the number of rows it adds to the row counter. -/
structure Piece (α : Type) where
  rows : List (Option α)
  counted : Nat
  deriving DecidableEq, Repr

variable {α : Type}

/-- The first `k` blocks of `c` values of a buffer, `seen` rows of which come before: in a nullable column each of them counts all
rows of the buffer up to its end. -/
def fullPieces (nullable : Bool) (c : Nat) : Nat → Nat → List (Option α) → List (Piece α)
  | 0, _, _ => []
  | k + 1, seen, rows =>
    let g := takeVals c rows
    ⟨g, if nullable then seen + g.length else (valuesOf g).length⟩ ::
      fullPieces nullable c k (seen + g.length) (rows.drop g.length)

/-- The block written for rows that were held back, with the bits `stale` set in their bitmap before: as many bits as it takes for
the number of values, and the values where they are set. -/
def wholePiece (nullable : Bool) (stale : List Bool) (rows : List (Option α)) : Piece α :=
  if nullable then
    let bits := uptoSet (valuesOf rows).length (seenBits stale rows)
    ⟨(rebuild bits (valuesOf rows)).getD [], bits.length⟩
  else ⟨rows, (valuesOf rows).length⟩

/-- The number of values of a block. -/
def valuesPerBlock (size m : Nat) : Nat := (m + size - 1) / size

/-- The blocks written during the call for one buffer: all full ones if nothing is held back; none if what is held back has no more
than `m` bytes; otherwise everything there is, but only if that makes `m` values. -/
def callPieces (nullable : Bool) (size m : Nat) (stale : List Bool) (held rows : List (Option α)) : List (Piece α) :=
  let r := (valuesOf held).length
  let n := (valuesOf rows).length
  if r = 0 then fullPieces nullable (valuesPerBlock size m) (n / valuesPerBlock size m) 0 rows
  else if r * size ≤ m then []
  else if r + n < m then []
  else [wholePiece nullable stale (held ++ dropTrailingNulls rows)]

/-- The rows held back after that call: the rest of the buffer; or as much of it as completes a block, the rest being forgotten; or
all of it; or nothing. -/
def callHeld (nullable : Bool) (size m : Nat) (held rows : List (Option α)) : List (Option α) :=
  let r := (valuesOf held).length
  let n := (valuesOf rows).length
  let c := valuesPerBlock size m
  if r = 0 then dropTrailingNulls (rows.drop ((fullPieces nullable c (n / c) 0 rows).flatMap (·.rows)).length)
  else if r * size ≤ m then held ++ takeVals (c - r) (dropTrailingNulls rows)
  else if r + n < m then held ++ dropTrailingNulls rows
  else []

/-- The bits set, after that call, in the bitmap of the rows held back: clearing it unsets nothing, but only its first 1024 bytes
stay. -/
def callStale (size m : Nat) (stale : List Bool) (held rows : List (Option α)) : List Bool :=
  let r := (valuesOf held).length
  if r = 0 then stale
  else if r * size ≤ m then stale
  else if r + (valuesOf rows).length < m then stale
  else (orBits stale (validityOf (held ++ dropTrailingNulls rows))).take (8 * 1024)

/-- The blocks of a column. -/
def columnPieces (nullable : Bool) (size m : Nat) :
    List Bool → List (Option α) → List (List (Option α)) → List (Piece α)
  | stale, held, [] => if (valuesOf held).length = 0 then [] else [wholePiece nullable stale held]
  | stale, held, b :: bs =>
    callPieces nullable size m stale held b ++
      columnPieces nullable size m (callStale size m stale held b) (callHeld nullable size m held b) bs

/-- The row ids of the blocks, when `n` rows were counted before. -/
def pieceIds : Nat → List (Piece α) → List Nat
  | _, [] => []
  | n, x :: xs => (n + x.counted - 1) :: pieceIds (n + x.counted) xs

/-- The rows counted by the blocks. -/
def countedBy (ps : List (Piece α)) : Nat := (ps.map (·.counted)).sum

end Meerkat.Spec
