import Verif.Model.Rle
import Verif.Spec.Bits
import Verif.Spec.RleCanonical

set_option autoImplicit false

/-! # Flushing the RLE encoder more than once -/

namespace Meerkat.Spec

/-- `enc` is the compressed form of the bits, filled up with zeros to whole bytes. -/
def CompressedBits (bits : List Bool) (enc : Bytes) : Prop :=
  ∃ bytes pad, pad < 8 ∧ bytesBits bytes = bits ++ List.replicate pad false ∧ Compressed bytes enc

/-- The calls: the bits of a chunk are put, then the encoder is flushed, for each chunk. -/
def flushEach (p : Profile) (e : Rle.Encoder) (chunks : List (List Bool)) : Res Rle.Encoder :=
  chunks.foldlM (fun e bits => do let e ← e.putAll p bits; e.flush p) e

end Meerkat.Spec
