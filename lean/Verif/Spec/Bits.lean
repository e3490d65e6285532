
set_option autoImplicit false
/-!
# Specification vocabulary for sequences of bits

Independent of the model: plain lists of booleans.
-/

namespace Meerkat.Spec

/-- `p` is the prefix of `l` that ends with the `n`-th set bit (empty when `n = 0`). -/
structure PrefixWithSet (n : Nat) (l p : List Bool) : Prop where
  isPrefix : p <+: l
  count : p.count true = n
  ends : p = [] ∨ p.getLast? = some true

/-- Positions of the set bits of a list of bits, in increasing order. -/
def setPositions (bs : List Bool) : List Nat :=
  (List.range bs.length).filter (fun i => bs.getD i false)

/-- The eight bits of a byte, lowest first. -/
def byteBits (b : UInt8) : List Bool := (List.range 8).map b.toNat.testBit

/-- The bits of a byte string. -/
def bytesBits (bs : List UInt8) : List Bool := bs.flatMap byteBits

end Meerkat.Spec
