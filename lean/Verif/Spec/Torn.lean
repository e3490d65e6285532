import Verif.Spec.Crash
import Verif.Spec.Protobuf
import Verif.Spec.Segment

set_option autoImplicit false

/-!
# An index file found after a crash

What a reader can check of an index file of which it does not know whether it was completed: it begins with the
signature, its last 8 bytes are a position behind the signature, and what is between that position and these 8 bytes
is metadata that names a segment. There is nothing more to check: the format has no length and no checksum.
-/

namespace Meerkat

/-- The metadata of an index file that looks complete. -/
def recoverIndex (file : Bytes) : Option Metadata :=
  let n := file.length - 8
  let pos := leNumber (file.drop n)
  if ascii "MEERKAT_IDX1" <+: file ∧ 20 ≤ file.length ∧ 12 ≤ pos ∧ pos ≤ n then
    (Protobuf.readMetadata ((file.take n).drop pos)).filter (·.segmentMeta.isSome)
  else none

/-- `n` zero bytes in a row, somewhere. -/
def HasZeros (n : Nat) (bytes : Bytes) : Prop :=
  ∃ i, i + n ≤ bytes.length ∧ ∀ j, i ≤ j → j < i + n → bytes[j]? = some 0

/-- The same metadata for a segment whose id is all zeros. -/
def withoutId (m : Metadata) : Metadata :=
  { m with segmentMeta := m.segmentMeta.map fun s => { s with segmentId := List.replicate s.segmentId.length 0 } }

end Meerkat
