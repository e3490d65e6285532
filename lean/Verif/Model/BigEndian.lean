import Verif.Model.Element

set_option autoImplicit false

/-!
# Elements on a big endian machine

`to_byte_slice` (raw/primitive_enc.rs:219-226) takes the bytes an element has in memory. Everything else in the model is
about little endian machines; here the bytes of an element are in the other order. Nothing else in a
block of a primitive column depends on the byte order: `put_varint` and the run length encoder write their bytes one by one.
What the bitpacking crate writes for the lengths of binary values on such a machine is not modelled.
-/

namespace Meerkat

/-- An element in the memory of a big endian machine. -/
structure BigEndian (α : Type) where
  val : α
  deriving DecidableEq, Repr

instance {α : Type} [Element α] : Element (BigEndian α) where
  size := Element.size α
  bytes x := (Element.bytes x.val).reverse
  size_eq := Element.size_eq
  bytes_length x := by rw [List.length_reverse, Element.bytes_length]
  ofBytes b := ⟨Element.ofBytes b.reverse⟩
  ofBytes_bytes x := by rw [List.reverse_reverse, Element.ofBytes_bytes]

end Meerkat
