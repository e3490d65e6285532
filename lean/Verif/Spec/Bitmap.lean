import Verif.Model.Bitmap
import Verif.Spec.Bits

set_option autoImplicit false

/-! # What it means for a bitmap to hold a list of bits, through its public API only -/

namespace Meerkat

/-- Through `len()` and `is_set()`, the bitmap shows exactly the bits `bs`. -/
structure Bitmap.Reads (m : Bitmap) (bs : List Bool) : Prop where
  len : m.len = bs.length
  get : ∀ (i : Nat) (h : i < bs.length), m.isSet i = .ok bs[i]
  oob : ∀ i : Nat, bs.length ≤ i → m.isSet i = .error .assertion

end Meerkat
