import Verif.Model.Buffers

set_option autoImplicit false

/-! # What the time of the encoders is measured against -/

namespace Meerkat

/-- The number of bits of a validity bitmap, 0 if there is none. -/
def bitsOf (v : Option Bitmap) : Nat := (v.map Bitmap.len).getD 0

/-- The number of values of a buffer and of its validity bits. -/
def PrimitiveBuffer.weight {α : Type} (b : PrimitiveBuffer α) : Nat := b.values.length + bitsOf b.validity

/-- The number of bytes of a buffer, of its values and of its validity bits. -/
def BinaryBuffer.weight (b : BinaryBuffer) : Nat := b.data.length + b.len + bitsOf b.validity

end Meerkat
