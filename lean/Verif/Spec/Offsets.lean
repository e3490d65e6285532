
set_option autoImplicit false
/-! # Specification vocabulary for packed integer lists -/

namespace Meerkat.Spec

/-- `b` is the number of bits needed by the largest value of the list. -/
def Width (xs : List Nat) (b : Nat) : Prop :=
  (∀ x ∈ xs, x < 2 ^ b) ∧ (b = 0 ∨ ∃ x ∈ xs, 2 ^ (b - 1) ≤ x)

/-- Byte that holds bit `c` of value `i`, when values of `b` bits are dealt to four lanes in turn and
the lanes are stored as interleaved 32-bit little-endian words. -/
def bytePos (b i c : Nat) : Nat :=
  let l := (i / 4) * b + c
  16 * (l / 32) + 4 * (i % 4) + (l % 32) / 8

end Meerkat.Spec
