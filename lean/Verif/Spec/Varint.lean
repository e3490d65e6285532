import Verif.Model.Prelude

set_option autoImplicit false

/-! # Specification of base-128 variable-length integers -/

namespace Meerkat.Spec

/-- The little-endian base-128 number whose digits are the low seven bits of each byte. -/
def leb128 : Bytes → Nat
  | [] => 0
  | b :: bs => b.toNat % 128 + 128 * leb128 bs

/-- `s` is one complete varint: only its last byte is below `0x80`. -/
def IsVarint : Bytes → Prop
  | [] => False
  | [b] => b.toNat < 128
  | b :: c :: bs => 128 ≤ b.toNat ∧ IsVarint (c :: bs)

end Meerkat.Spec
