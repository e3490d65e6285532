import Verif.Spec.Varint

set_option autoImplicit false

/-!
# The format of compressed bitmaps

A sequence of frames. A frame starts with a header, a varint of at most ten bytes of which 64 bits count. An even header `2 n`
is followed by one byte and stands for `n` copies of it; an odd header `2 n + 1` is followed by the `n` bytes it stands for.
-/

namespace Meerkat.Spec

/-- `h` is a header with value `v`. -/
def IsHeader (h : Bytes) (v : Nat) : Prop := IsVarint h ∧ h.length ≤ 10 ∧ leb128 h % 2 ^ 64 = v

/-- `enc` is a sequence of frames that stand, together, for `bytes`; frames stand for fewer than `2^32` bytes, and runs for fewer
than `k`. -/
inductive Frames (k : Nat) : Bytes → Bytes → Prop
  | done : Frames k [] []
  | run {h : Bytes} {n : Nat} {b : UInt8} {enc bytes : Bytes} : IsHeader h (2 * n) → n < 2 ^ 32 → n < k →
      Frames k enc bytes → Frames k (h ++ b :: enc) (List.replicate n b ++ bytes)
  | literal {h lit enc bytes : Bytes} : IsHeader h (2 * lit.length + 1) → lit.length < 2 ^ 32 →
      Frames k enc bytes → Frames k (h ++ (lit ++ enc)) (lit ++ bytes)

/-- Like `Frames (2 ^ 32)`, but of a run of the byte `0x00` or `0xFF` only the length modulo `2^29` counts. -/
inductive CutFrames : Bytes → Bytes → Prop
  | done : CutFrames [] []
  | run {h : Bytes} {n : Nat} {b : UInt8} {enc bytes : Bytes} : IsHeader h (2 * n) → n < 2 ^ 32 → CutFrames enc bytes →
      CutFrames (h ++ b :: enc) (List.replicate (if b = 0x00 ∨ b = 0xFF then n % 2 ^ 29 else n) b ++ bytes)
  | literal {h lit enc bytes : Bytes} : IsHeader h (2 * lit.length + 1) → lit.length < 2 ^ 32 →
      CutFrames enc bytes → CutFrames (h ++ (lit ++ enc)) (lit ++ bytes)

end Meerkat.Spec
