import Verif.Model.Prelude

set_option autoImplicit false

/-! # Model of src/store/encoding/varint.rs -/

namespace Meerkat.Varint

/-- varint.rs:17 `MAX_VARINT_LEN`. -/
def MAX_VARINT_LEN : Nat := 10

/-- `u64::leading_zeros`. -/
def leadingZeros64 (v : Nat) : Nat := if v = 0 then 64 else 63 - v.log2

/-- varint.rs:20-24 `encoded_len_varint`; the arithmetic is on `u32` and stays below 641. -/
def encodedLenVarint (value : Nat) : Nat :=
  ((leadingZeros64 (value ||| 1) ^^^ 63) * 9 + 73) / 64

/-- `buf[i] = x` on a slice. -/
def store (buf : Bytes) (i : Nat) (x : Byte) : Res Bytes :=
  if i < buf.length then .ok (buf.set i x) else .error .index

/-- varint.rs:29-36, the loop of `encode_varint` and the final store. -/
def encodeLoop (value : Nat) (buf : Bytes) (i : Nat) : Res (Bytes × Nat) :=
  if value ≥ 0x80 then do
    let buf ← store buf i (UInt8.ofNat ((value &&& 0x7F) ||| 0x80))
    encodeLoop (value >>> 7) buf (i + 1)
  else do
    let buf ← store buf i (UInt8.ofNat value)
    return (buf, i + 1)
termination_by value
decreasing_by simp only [Nat.shiftRight_eq_div_pow]; omega

/-- varint.rs:27-37 `encode_varint(value, buf)`: returns the written slice and the length. -/
def encodeVarint (value : Nat) (buf : Bytes) : Res (Bytes × Nat) := encodeLoop value buf 0

/-- varint.rs:135-141 `put_varint` on a `Vec<u8>`. -/
def putVarint (dst : Bytes) (value : Nat) : Res Bytes := do
  let (buf, encLen) ← encodeVarint value (List.replicate MAX_VARINT_LEN 0)
  let part ← slice buf 0 encLen
  return dst ++ part

/-- varint.rs:56-129 `decode_varint`: `none` is `Err(anyhow!("invalid varint"))`. Every operation is
on the width the Rust code uses. -/
def decodeVarint (p : Profile) (buf : Bytes) : Res (Option (Nat × Nat)) := do
  let b ← index buf 0
  let part0 := b.toNat
  if b.toNat < 0x80 then return some (part0, 1)
  let part0 ← p.sub 32 part0 0x80
  let b ← index buf 1
  let part0 ← p.add 32 part0 (shl 32 b.toNat 7)
  if b.toNat < 0x80 then return some (part0, 2)
  let part0 ← p.sub 32 part0 (shl 32 0x80 7)
  let b ← index buf 2
  let part0 ← p.add 32 part0 (shl 32 b.toNat 14)
  if b.toNat < 0x80 then return some (part0, 3)
  let part0 ← p.sub 32 part0 (shl 32 0x80 14)
  let b ← index buf 3
  let part0 ← p.add 32 part0 (shl 32 b.toNat 21)
  if b.toNat < 0x80 then return some (part0, 4)
  let part0 ← p.sub 32 part0 (shl 32 0x80 21)
  let value := part0
  let b ← index buf 4
  let part1 := b.toNat
  if b.toNat < 0x80 then return some (← p.add 64 value (shl 64 part1 28), 5)
  let part1 ← p.sub 32 part1 0x80
  let b ← index buf 5
  let part1 ← p.add 32 part1 (shl 32 b.toNat 7)
  if b.toNat < 0x80 then return some (← p.add 64 value (shl 64 part1 28), 6)
  let part1 ← p.sub 32 part1 (shl 32 0x80 7)
  let b ← index buf 6
  let part1 ← p.add 32 part1 (shl 32 b.toNat 14)
  if b.toNat < 0x80 then return some (← p.add 64 value (shl 64 part1 28), 7)
  let part1 ← p.sub 32 part1 (shl 32 0x80 14)
  let b ← index buf 7
  let part1 ← p.add 32 part1 (shl 32 b.toNat 21)
  if b.toNat < 0x80 then return some (← p.add 64 value (shl 64 part1 28), 8)
  let part1 ← p.sub 32 part1 (shl 32 0x80 21)
  let value ← p.add 64 value (shl 64 part1 28)
  let b ← index buf 8
  let part2 := b.toNat
  if b.toNat < 0x80 then return some (← p.add 64 value (shl 64 part2 56), 9)
  let part2 ← p.sub 32 part2 0x80
  let b ← index buf 9
  let part2 ← p.add 32 part2 (shl 32 b.toNat 7)
  if b.toNat < 0x80 then return some (← p.add 64 value (shl 64 part2 56), 10)
  return none

end Meerkat.Varint
