import Verif.Spec.BinaryCompletes

set_option autoImplicit false

/-!
# What the binary encoder writes

Where the blocks of a buffer end is in `Spec/BinaryCompletes`. A block that starts behind the beginning of its buffer mixes three
things up: its data are the items it should have, its lengths and validity bits are those of the items up to the wrong end, and
(in a nullable column) all rows of the buffer up to that end are counted once more.
-/

namespace Meerkat.Spec

/-- One block: the items whose bytes are its data, the items whose lengths it holds, its validity bits, and the number of rows it
adds to the row counter. -/
structure Entry where
  data : List Bytes
  items : List Bytes
  bits : List Bool
  counted : Nat
  deriving DecidableEq, Repr

/-- The block written for rows that were held back, with the bits `stale` set before: as many bits as it takes for the number of
values. -/
def wholeEntry (nullable : Bool) (stale : List Bool) (rows : List (Option Bytes)) : Entry :=
  let bits := if nullable then uptoSet (valuesOf rows).length (seenBits stale rows) else validityOf rows
  { data := valuesOf rows, items := valuesOf rows, bits, counted := bits.length }

/-- The rows behind the `n`-th value. -/
def behind (n : Nat) (rows : List (Option Bytes)) : List (Option Bytes) := rows.drop (takeVals n rows).length

/-- The blocks written by the loop when it starts at item `pos`. -/
def loopEntries (m : Nat) (nullable : Bool) (rows : List (Option Bytes)) : Nat → Nat → List Entry
  | 0, _ => []
  | n + 1, pos =>
    match fill m ((valuesOf rows).drop pos) with
    | none => []
    | some j =>
      if pos < j ∧ j - pos ≤ 128 then
        { data := ((valuesOf rows).drop pos).take j
          items := ((valuesOf rows).drop pos).take (j - pos)
          bits := validityOf (takeVals (j - pos) (behind pos rows))
          counted := if nullable then (takeVals j rows).length else j - pos } :: loopEntries m nullable rows n j
      else []

/-- The blocks written during the call for one buffer. -/
def callEntries (m : Nat) (nullable : Bool) (stale : List Bool) (held rows : List (Option Bytes)) : List Entry :=
  let n := (valuesOf rows).length + 2
  if held = [] then loopEntries m nullable rows n 0
  else
    match fill (m - byteCount held) (valuesOf rows) with
    | none => []
    | some j => wholeEntry nullable stale (held ++ takeVals j rows) :: loopEntries m nullable rows n j

/-- The rows held back after that call. -/
def heldRows (m : Nat) (held rows : List (Option Bytes)) : List (Option Bytes) :=
  let n := (valuesOf rows).length + 2
  let rest := fun pos => dropTrailingNulls (behind ((loopEnd m (valuesOf rows) n pos).getD 0) rows)
  if held = [] then rest 0
  else
    match fill (m - byteCount held) (valuesOf rows) with
    | none => held ++ dropTrailingNulls rows
    | some j => rest j

/-- The bits set, after that call, in the bitmap of the rows held back. -/
def staleAfter (m : Nat) (stale : List Bool) (held rows : List (Option Bytes)) : List Bool :=
  if held = [] then stale
  else
    match fill (m - byteCount held) (valuesOf rows) with
    | none => stale
    | some j => (orBits stale (validityOf (held ++ takeVals j rows))).take (8 * 1024)

/-- The blocks of a column. -/
def columnEntries (m : Nat) (nullable : Bool) : List Bool → List (Option Bytes) → List (List (Option Bytes)) → List Entry
  | stale, held, [] => if valuesOf held = [] then [] else [wholeEntry nullable stale held]
  | stale, held, b :: bs =>
    callEntries m nullable stale held b ++ columnEntries m nullable (staleAfter m stale held b) (heldRows m held b) bs

/-- The row ids of the blocks, when `n` rows were counted before. -/
def entryIds : Nat → List Entry → List Nat
  | _, [] => []
  | n, x :: xs => (n + x.counted - 1) :: entryIds (n + x.counted) xs

/-- The lengths in a block with `n` items. -/
def readLengths (q : Profile) (n : Nat) (block : Bytes) : Option (List Nat) :=
  match splitBlock q n block with
  | some (_, b, packed, _) => some (unpack b n packed)
  | none => none

/-- The bytes behind the lengths of a block with `n` items. -/
def readRest (q : Profile) (n : Nat) (block : Bytes) : Option Bytes :=
  match splitBlock q n block with
  | some (_, _, _, rest) => some rest
  | none => none

/-- The blocks are the entries, one each: data bytes, lengths (when no bits of them are dropped), and the positions of the set
bits in a nullable column, nothing in another. -/
def Written (q : Profile) (nullable : Bool) (entries : List Entry) (blocks : List (Nat × Bytes)) : Prop :=
  blocks.map (·.1) = entryIds 0 entries ∧ blocks.length = entries.length ∧ ∀ x ∈ entries.zip blocks,
    blockData q x.2.2 = some x.1.data.flatten ∧
    (ReadableLengths (x.1.items.map List.length) → readLengths q x.1.items.length x.2.2 = some (x.1.items.map List.length)) ∧
    (nullable = true → readPositions q x.1.items.length x.2.2 = some (setPositions x.1.bits)) ∧
    (nullable = false → readRest q x.1.items.length x.2.2 = some [])

end Meerkat.Spec
