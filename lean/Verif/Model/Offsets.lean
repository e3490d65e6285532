import Verif.Model.Util

set_option autoImplicit false

/-!
# Model of src/store/encoding/offsets.rs

`BitPacker4x` belongs to the `bitpacking` crate (0.5.1, Cargo.lock), which is not part of /repo. Its
documented behaviour is modelled by `numBits` and `compress` below:

* `BLOCK_LEN` is 128; `num_bits` and `compress` assert that the slice has exactly that length;
* `num_bits` is the number of significant bits of the bitwise or of the values;
* `compress` writes `16 * num_bits` bytes: value `4k + j` goes to lane `j`, where it occupies the
  bits `k * num_bits ..< (k + 1) * num_bits`; each lane is cut in little-endian 32-bit words and the
  `w`-th words of the four lanes are written one after the other.
-/

namespace Meerkat.Offsets
open Util

/-- `BitPacker4x::BLOCK_LEN`. -/
def BLOCK_LEN : Nat := 128

/-- Number of significant bits: `32 - leading_zeros`. -/
def sigBits (v : Nat) : Nat := if v = 0 then 0 else v.log2 + 1

/-- `BitPacker4x::num_bits`. -/
def numBits (block : List Nat) : Res Nat :=
  if block.length = BLOCK_LEN then .ok (sigBits (block.foldl (· ||| ·) 0)) else .error .assertion

/-- Bit `s` of byte `i` of the compressed block. Lane bit `l` of lane `j` is bit `l % b` of value
`4 (l / b) + j`. -/
def packBit (b : Nat) (block : List Nat) (i s : Nat) : Bool :=
  let lane := (i % 16) / 4
  let l := 32 * (i / 16) + 8 * (i % 4) + s
  (block.getD (4 * (l / b) + lane) 0).testBit (l % b)

/-- The byte with the given bits. -/
def byteOf (f : Nat → Bool) : Byte :=
  UInt8.ofNat ((List.range 8).foldl (fun acc s => acc + (if f s then 2 ^ s else 0)) 0)

/-- The compressed block. -/
def pack (b : Nat) (block : List Nat) : Bytes :=
  (List.range (16 * b)).map (fun i => byteOf (packBit b block i))

/-- `BitPacker4x::compress(block, &mut dst[start..], b)`: writes at `start`, returns the new
destination and the number of bytes written. Asserts the block length and the room available. -/
def compress (block : List Nat) (dst : Bytes) (start b : Nat) : Res (Bytes × Nat) :=
  if start ≤ dst.length then
    if block.length = BLOCK_LEN ∧ 16 * b ≤ dst.length - start then
      .ok (dst.take start ++ pack b block ++ dst.drop (start + 16 * b), 16 * b)
    else .error .assertion
  else .error .index

/-- `slice.chunks(n)` for `n > 0`. -/
def chunks (n : Nat) (l : List Nat) : List (List Nat) :=
  if _h : l = [] ∨ n = 0 then [] else l.take n :: chunks n (l.drop n)
termination_by l.length
decreasing_by
  have : l.length ≠ 0 := by simp_all
  simp; omega

/-- offsets.rs:52-57, the loop over the chunks. -/
def compressChunks (b : Nat) : List (List Nat) → Bytes → Nat → Res Bytes
  | [], dst, _ => .ok dst
  | c :: cs, dst, start => do
    let (dst, n) ← compress c dst start b
    compressChunks b cs dst (start + n)

/-- offsets.rs:34-63 `OffsetEncoder::encode(src, dst)`: returns both vectors. The encoder itself
holds only the stateless bit packer. `num_bits * len` is at most `32 * 128` when it is evaluated. -/
def encode (p : Profile) (src : List Nat) (dst : Bytes) : Res (List Nat × Bytes) := do
  let numValues := src.length
  let lenPadded ← roundUptoPowerOf2 p src.length BLOCK_LEN
  let src := resize src lenPadded 0
  let b ← numBits src
  let dst := dst ++ [UInt8.ofNat b]
  let start := dst.length
  let dst := resize dst (dst.length + ceil8 (b * lenPadded)) 0
  let dst ← compressChunks b (chunks BLOCK_LEN src) dst start
  return (src, resize dst (start + ceil8 (b * numValues)) 0)

end Meerkat.Offsets
