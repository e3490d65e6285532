import Verif.Spec.PrimitiveBlock
import Verif.Spec.Offsets
import Verif.Spec.Bits

set_option autoImplicit false

/-!
# A reader of binary blocks, and what is expected of a binary column

The repository has no block reader. This one follows the layout documented at
raw/binary_enc.rs:14-21. It is told the number of items in the block, reads the lengths from the four
interleaved lanes of 32-bit words (bytes that are missing count as zero), and cuts the data.
-/

namespace Meerkat.Spec

/-- The number with the given bits `0 ..< b`. -/
def natOfBits (f : Nat → Bool) : Nat → Nat
  | 0 => 0
  | b + 1 => natOfBits f b + (if f b then 2 ^ b else 0)

/-- The `n` values of `b` bits packed in `bytes`. -/
def unpack (b n : Nat) (bytes : Bytes) : List Nat :=
  (List.range n).map fun i => natOfBits (fun c =>
    (bytes.getD (bytePos b i c) 0).toNat.testBit (((i / 4) * b + c) % 8)) b

/-- Cut the data in pieces of the given lengths; `none` unless they use it up exactly. -/
def cut : List Nat → Bytes → Option (List Bytes)
  | [], bs => if bs = [] then some [] else none
  | l :: ls, bs => if l ≤ bs.length then (cut ls (bs.drop l)).map (bs.take l :: ·) else none

/-- The parts of a binary block with `n` items: data, width of the packed lengths, packed lengths,
validity. -/
def splitBlock (q : Profile) (n : Nat) (block : Bytes) : Option (Bytes × Nat × Bytes × Bytes) :=
  match Varint.decodeVarint q block with
  | .ok (some (size, k)) =>
    match block.drop (k + size) with
    | [] => none
    | b :: tail =>
      let packedLen := (n * b.toNat + 7) / 8
      some ((block.drop k).take size, b.toNat, tail.take packedLen, tail.drop packedLen)
  | _ => none

/-- The data bytes of a block: what its header says follows it. -/
def blockData (q : Profile) (block : Bytes) : Option Bytes :=
  match Varint.decodeVarint q block with
  | .ok (some (size, k)) => if k + size ≤ block.length then some ((block.drop k).take size) else none
  | _ => none

/-- The positions, among the rows of a nullable block with `n` items, of the non-null ones. -/
def readPositions (q : Profile) (n : Nat) (block : Bytes) : Option (List Nat) :=
  match splitBlock q n block with
  | some (_, _, _, validity) => (Rle.decode q validity (List.replicate n 0)).toOption
  | none => none

/-- The rows of a binary block with `n` items, up to the last non-null one. -/
def readBinary (q : Profile) (nullable : Bool) (n : Nat) (block : Bytes) : Option (List (Option Bytes)) :=
  match splitBlock q n block with
  | some (data, b, packed, validity) =>
    match cut (unpack b n packed) data with
    | none => none
    | some items =>
      if nullable then
        match readPositions q n block with
        | some positions => placeRows 0 positions items
        | none => none
      else if validity = [] then some (items.map some)
      else none
  | none => none

/-- No set bit of a length lies in the bytes dropped by the offset encoder. -/
def ReadableLengths (lens : List Nat) : Prop :=
  ∃ b, Width lens b ∧ ∀ i c, i < lens.length → (lens.getD i 0).testBit c = true →
    bytePos b i c < (lens.length * b + 7) / 8

/-- Number of data bytes of a list of rows. -/
def byteCount (rows : List (Option Bytes)) : Nat := (valuesOf rows).flatten.length

/-- The smallest number of items whose total size is at least `m`, if there is one. -/
def fill : Nat → List Bytes → Option Nat
  | 0, _ => some 0
  | _ + 1, [] => none
  | m + 1, v :: vs => (fill (m + 1 - v.length) vs).map (· + 1)

/-- What one buffer `rows` adds when the rows `held` were held back before and blocks must have at
least `m` bytes: at most one block is completed; the rest, without trailing nulls, is held back. -/
def fillStep (m : Nat) (held rows : List (Option Bytes)) :
    List (List (Option Bytes)) × List (Option Bytes) :=
  match fill (m - byteCount held) (valuesOf rows) with
  | none => ([], held ++ dropTrailingNulls rows)
  | some j => ([held ++ takeVals j rows], dropTrailingNulls (rows.drop (takeVals j rows).length))

/-- The groups of rows that end up together in a block: those completed by the successive buffers,
then what is left at the end. -/
def fillGroups (m : Nat) : List (Option Bytes) → List (List (Option Bytes)) → List (List (Option Bytes))
  | held, [] => if (valuesOf held).length = 0 then [] else [held]
  | held, b :: bs => (fillStep m held b).1 ++ fillGroups m (fillStep m held b).2 bs

/-- Bit by bit or; the shorter list counts as padded with unset bits. -/
def orBits : List Bool → List Bool → List Bool
  | [], bs => bs
  | as, [] => as
  | a :: as, b :: bs => (a || b) :: orBits as bs

/-- The bits shown for `rows` by a bitmap in which the bits `stale` were already set. -/
def seenBits {α : Type} (stale : List Bool) (rows : List (Option α)) : List Bool :=
  (orBits stale (validityOf rows)).take rows.length

/-- The bits up to the `n`-th set one; all when there are fewer. -/
def uptoSet : Nat → List Bool → List Bool
  | 0, _ => []
  | _ + 1, [] => []
  | n + 1, true :: l => true :: uptoSet n l
  | n + 1, false :: l => false :: uptoSet (n + 1) l

/-- The bits left in the leftover buffer when the groups `done` have been completed from the rows `held` in it:
clearing a bitmap unsets nothing, but only its first 1024 bytes stay. -/
def nextStale (stale : List Bool) (held : List (Option Bytes)) (done : List (List (Option Bytes))) : List Bool :=
  if held = [] then stale
  else done.foldl (fun st g => (orBits st (validityOf g)).take (8 * 1024)) stale

/-- The group `g`, begun with the rows `held`, can be written: it has at most 128 items and, if it is brought together in the
leftover buffer, fewer bytes than a buffer filled from another may have. -/
def GroupFits (held g : List (Option Bytes)) : Prop :=
  (valuesOf g).length ≤ 128 ∧ (held ≠ [] → byteCount g < 2 ^ 32 - 1)

instance (held g : List (Option Bytes)) : Decidable (GroupFits held g) :=
  inferInstanceAs (Decidable (_ ∧ _))

/-- Histories the binary encoder handles: after completing a block, a buffer has less than a block left; no
group has more than 128 items, or too many bytes for the leftover buffer; and in a nullable column no null of a group that went through the leftover buffer
lies on a bit which is set there by earlier groups (`stale`). -/
def Manageable (m : Nat) (nullable : Bool) : List Bool → List (Option Bytes) → List (List (Option Bytes)) → Prop
  | stale, held, [] =>
    (valuesOf held).length ≤ 128 ∧ (nullable = true → seenBits stale held = validityOf held)
  | stale, held, b :: bs =>
    let r := fillStep m held b
    (r.1 ≠ [] → byteCount r.2 < m) ∧
    (∀ g ∈ r.1, GroupFits held g) ∧
    (nullable = true → held ≠ [] → ∀ g ∈ r.1, seenBits stale g = validityOf g) ∧
    Manageable m nullable (nextStale stale held r.1) r.2 bs

instance (l : List (Option Bytes)) : Decidable (none ∈ l) :=
  decidable_of_iff (l.any Option.isNone = true) (by simp)

instance Manageable.decide (m : Nat) (nullable : Bool) :
    ∀ (stale : List Bool) (held : List (Option Bytes)) (bufs : List (List (Option Bytes))),
      Decidable (Manageable m nullable stale held bufs)
  | stale, held, [] => inferInstanceAs (Decidable ((valuesOf held).length ≤ 128 ∧
      (nullable = true → seenBits stale held = validityOf held)))
  | stale, held, b :: bs =>
    have := Manageable.decide m nullable (nextStale stale held (fillStep m held b).1) (fillStep m held b).2 bs
    inferInstanceAs (Decidable (((fillStep m held b).1 ≠ [] → byteCount (fillStep m held b).2 < m) ∧
      (∀ g ∈ (fillStep m held b).1, GroupFits held g) ∧
      (nullable = true → held ≠ [] → ∀ g ∈ (fillStep m held b).1, seenBits stale g = validityOf g) ∧
      Manageable m nullable (nextStale stale held (fillStep m held b).1) (fillStep m held b).2 bs))

/-- The blocks describe the groups of rows, one each: the data bytes of the items and, in a nullable
column, the rows they are in. -/
def Describes (q : Profile) (nullable : Bool) (groups : List (List (Option Bytes))) (blocks : List (Nat × Bytes)) :
    Prop :=
  blocks.length = groups.length ∧ ∀ x ∈ groups.zip blocks,
    blockData q x.2.2 = some (valuesOf x.1).flatten ∧
    (nullable = true → readPositions q (valuesOf x.1).length x.2.2 = some (setPositions (validityOf x.1)))

end Meerkat.Spec
