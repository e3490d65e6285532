import Verif.Model.Bitmap
import Verif.Model.Varint

set_option autoImplicit false

/-! # Model of src/store/encoding/bitmap_rle.rs -/

namespace Meerkat.Rle
open Varint

/-- bitmap_rle.rs:22 `MIN_RUN_LEN`. -/
def MIN_RUN_LEN : Nat := 3

/-- bitmap_rle.rs:25-30 `enum State`. -/
inductive State where
  | init
  | literal
  | startOfRun
  | run
  deriving DecidableEq, Repr

/-- bitmap_rle.rs:33-42 `struct Encoder`. The `usize` counters are natural numbers: they count bytes
or bits given one at a time. -/
structure Encoder where
  encodedValues : Bytes
  byte : Byte
  bitPos : Nat
  buffer : Bytes
  repeatCount : Nat
  lastValue : Byte
  runStartPos : Nat
  state : State
  deriving DecidableEq, Repr

namespace Encoder

/-- bitmap_rle.rs:45-56 `Encoder::new`. -/
def new : Encoder :=
  { encodedValues := [], byte := 0, bitPos := 0, buffer := [], repeatCount := 0, lastValue := 0,
    runStartPos := 0, state := .init }

/-- bitmap_rle.rs:169-184 `emit_bitmap_literal`. The header is `((bitmap_len << 1) | 1) as u64`. -/
def emitBitmapLiteral (e : Encoder) (bitmapLen : Nat) : Res Encoder :=
  if e.buffer.isEmpty then .ok e
  else do
    let (header, headerLen) ←
      encodeVarint (shl 64 bitmapLen 1 ||| 1) (List.replicate MAX_VARINT_LEN 0)
    let header ← slice header 0 headerLen
    let lit ← slice e.buffer 0 bitmapLen
    return { e with encodedValues := e.encodedValues ++ header ++ lit }

/-- bitmap_rle.rs:186-196 `emit_run`. -/
def emitRun (e : Encoder) (runLen : Nat) (runValue : Byte) : Res Encoder := do
  let (header, headerLen) ← encodeVarint (shl 64 runLen 1) (List.replicate MAX_VARINT_LEN 0)
  let header ← slice header 0 headerLen
  return { e with encodedValues := e.encodedValues ++ header ++ [runValue] }

/-- bitmap_rle.rs:163-167 `transition_to_literal`. -/
def transitionToLiteral (e : Encoder) : Encoder :=
  { e with repeatCount := 0, runStartPos := 0, state := .literal }

/-- bitmap_rle.rs:122-159, the `match self.state` of `append`. `self.buffer.len() - 1` is a checked
subtraction on `usize`. -/
def appendMatch (p : Profile) (e : Encoder) (cur : Byte) : Res Encoder :=
  match e.state with
  | .init => .ok { e with state := .literal, buffer := e.buffer ++ [cur] }
  | .literal =>
    if e.lastValue = cur then do
      let pos ← p.sub 64 e.buffer.length 1
      return { e with repeatCount := 2, runStartPos := pos, state := .startOfRun,
                      buffer := e.buffer ++ [cur] }
    else .ok { e with buffer := e.buffer ++ [cur] }
  | .startOfRun =>
    let e := { e with buffer := e.buffer ++ [cur] }
    if e.lastValue ≠ cur then .ok e.transitionToLiteral
    else
      let e := { e with repeatCount := e.repeatCount + 1 }
      if e.repeatCount = MIN_RUN_LEN then do
        let e ← if e.runStartPos > 0 then e.emitBitmapLiteral e.runStartPos else .ok e
        return { e with buffer := [], state := .run }
      else .ok e
  | .run =>
    if e.lastValue ≠ cur then do
      let e ← e.emitRun e.repeatCount e.lastValue
      return transitionToLiteral { e with buffer := e.buffer ++ [cur] }
    else .ok { e with repeatCount := e.repeatCount + 1 }

/-- bitmap_rle.rs:121-161 `append`. -/
def append (p : Profile) (e : Encoder) (cur : Byte) : Res Encoder := do
  let e ← e.appendMatch p cur
  return { e with lastValue := cur }

/-- bitmap_rle.rs:60-62, the new value of `self.byte` in `put`. -/
def setBit (e : Encoder) (set : Bool) : Res Byte :=
  if set then do
    let m ← index BIT_MASK e.bitPos
    return e.byte ||| m
  else .ok e.byte

/-- bitmap_rle.rs:59-69 `put`. -/
def put (p : Profile) (e : Encoder) (set : Bool) : Res Encoder := do
  let byte ← e.setBit set
  let e := { e with byte := byte, bitPos := e.bitPos + 1 }
  if e.bitPos = 8 then do
    let e ← append p { e with bitPos := 0 } e.byte
    return { e with byte := 0 }
  else return e

/-- A sequence of `put` calls. -/
def putAll (p : Profile) (e : Encoder) (bits : List Bool) : Res Encoder := bits.foldlM (put p) e

/-- bitmap_rle.rs:74-79, the loop of `put_from`; `remaining = num_valids - items`. Each iteration
moves `bit_pos` forward or panics in `is_set`. -/
def putFromLoop (p : Profile) (e : Encoder) (bitmap : Bitmap) (bitPos remaining : Nat) :
    Res (Encoder × Nat) :=
  if remaining = 0 then .ok (e, bitPos)
  else if _h : bitPos < bitmap.len then do
    let b ← bitmap.isSet bitPos
    let e ← e.put p b
    putFromLoop p e bitmap (bitPos + 1) (remaining - b.toNat)
  else .error .assertion
termination_by bitmap.len - bitPos

/-- bitmap_rle.rs:71-81 `put_from`. -/
def putFrom (p : Profile) (e : Encoder) (bitmap : Bitmap) (startPos numValids : Nat) :
    Res (Encoder × Nat) :=
  putFromLoop p e bitmap startPos numValids

/-- bitmap_rle.rs:86-103 `flush`. -/
def flush (p : Profile) (e : Encoder) : Res Encoder := do
  let e ← if e.bitPos > 0 then e.append p e.byte else pure e
  match e.state with
  | .init => return e
  | .literal => e.emitBitmapLiteral e.buffer.length
  | .startOfRun => e.emitBitmapLiteral e.buffer.length
  | .run => e.emitRun e.repeatCount e.lastValue

/-- bitmap_rle.rs:111-119 `clear`: every field but `last_value`. -/
def clear (e : Encoder) : Encoder :=
  { e with state := .init, buffer := [], encodedValues := [], runStartPos := 0, byte := 0,
           repeatCount := 0, bitPos := 0 }

end Encoder

/-- bitmap_rle.rs:200-203 `enum Frame`. -/
inductive Frame where
  | run (len : Nat) (value : Byte)
  | bitmap (bytes : Bytes)
  deriving DecidableEq, Repr

/-- bitmap_rle.rs:208-214 `struct Decoder`. -/
structure Decoder where
  encodedData : Bytes
  decodedData : List Nat
  encodedDataPos : Nat
  decodedDataPos : Nat
  bitmapPos : Nat
  deriving DecidableEq, Repr

namespace Decoder

/-- bitmap_rle.rs:220-228 `Decoder::new`. -/
def new (encodedData : Bytes) (decodedData : List Nat) : Decoder :=
  { encodedData := encodedData, decodedData := decodedData, encodedDataPos := 0,
    decodedDataPos := 0, bitmapPos := 0 }

/-- bitmap_rle.rs:240-268 `read_frame`. -/
def readFrame (p : Profile) (d : Decoder) : Res (Decoder × Frame) := do
  let tail ← slice d.encodedData d.encodedDataPos d.encodedData.length
  match ← decodeVarint p tail with
  | none => .error .expect
  | some (header, bytesRead) =>
    let d := { d with encodedDataPos := d.encodedDataPos + bytesRead }
    let len := header >>> 1
    if len < 2 ^ 32 then
      if header &&& 1 = 1 then
        let bitmapStart := d.encodedDataPos
        let bitmapEnd := d.encodedDataPos + len
        let d := { d with encodedDataPos := d.encodedDataPos + len }
        let bytes ← slice d.encodedData bitmapStart bitmapEnd
        return (d, .bitmap bytes)
      else
        let value ← index d.encodedData d.encodedDataPos
        return ({ d with encodedDataPos := d.encodedDataPos + 1 }, .run len value)
    else .error .expect

/-- `self.decoded_data[self.decoded_data_pos] = self.bitmap_pos` -/
def store (d : Decoder) : Res Decoder :=
  if d.decodedDataPos < d.decodedData.length then
    .ok { d with decodedData := d.decodedData.set d.decodedDataPos d.bitmapPos }
  else .error .index

/-- One iteration of the loop at bitmap_rle.rs:296-302. -/
def decodeBit (p : Profile) (byte : Byte) (d : Decoder) (mask : Byte) : Res Decoder := do
  let d ← if (byte &&& mask) != 0 then do
      let d ← d.store
      pure { d with decodedDataPos := d.decodedDataPos + 1 }
    else pure d
  let pos ← p.add 32 d.bitmapPos 1
  return { d with bitmapPos := pos }

/-- bitmap_rle.rs:295-303 `decode_byte`. -/
def decodeByte (p : Profile) (d : Decoder) (byte : Byte) : Res Decoder :=
  BIT_MASK.foldlM (decodeBit p byte) d

/-- bitmap_rle.rs:289-293 `decode_bitmap`. -/
def decodeBitmap (p : Profile) (d : Decoder) (bitmap : Bytes) : Res Decoder :=
  bitmap.foldlM (decodeByte p) d

/-- bitmap_rle.rs:275-279, `n` iterations of the loop for a run of `0xFF`. -/
def onesLoop (p : Profile) : Nat → Decoder → Res Decoder
  | 0, d => .ok d
  | n + 1, d => do
    let d ← d.store
    let pos ← p.add 32 d.bitmapPos 1
    onesLoop p n { d with bitmapPos := pos, decodedDataPos := d.decodedDataPos + 1 }

/-- bitmap_rle.rs:282-284, `n` iterations. -/
def bytesLoop (p : Profile) (value : Byte) : Nat → Decoder → Res Decoder
  | 0, d => .ok d
  | n + 1, d => do
    let d ← decodeByte p d value
    bytesLoop p value n d

/-- bitmap_rle.rs:270-287 `decode_run`. `len << 3` is on `u32` and drops high bits. -/
def decodeRun (p : Profile) (d : Decoder) (len : Nat) (value : Byte) : Res Decoder :=
  if value = 0x00 then do
    let pos ← p.add 32 d.bitmapPos (shl 32 len 3)
    return { d with bitmapPos := pos }
  else if value = 0xFF then onesLoop p (shl 32 len 3) d
  else bytesLoop p value len d

/-- bitmap_rle.rs:232-235, the `match` on the frame read. -/
def decodeFrame (p : Profile) (d : Decoder) (frame : Frame) : Res Decoder :=
  match frame with
  | .run len value => d.decodeRun p len value
  | .bitmap bytes => d.decodeBitmap p bytes

/-- bitmap_rle.rs:231-236, the loop of `decode`, with at most `fuel` iterations. -/
def decodeLoop (p : Profile) : Nat → Decoder → Res Decoder
  | 0, d => if d.encodedDataPos < d.encodedData.length then .error .diverge else .ok d
  | fuel + 1, d =>
    if d.encodedDataPos < d.encodedData.length then do
      let (d, frame) ← d.readFrame p
      let d ← d.decodeFrame p frame
      decodeLoop p fuel d
    else .ok d

/-- bitmap_rle.rs:230-238 `Decoder::decode`: returns the decoder (whose `decoded_data` is the
caller's slice) and the count. The loop bound is the number of input bytes. -/
def decode (p : Profile) (d : Decoder) : Res (Decoder × Nat) := do
  let d ← decodeLoop p d.encodedData.length d
  return (d, d.decodedDataPos)

end Decoder

/-- bitmap_rle.rs:306-309 `decode(encoded_data, decoded_data)`: the final content of the slice. -/
def decode (p : Profile) (encoded : Bytes) (decoded : List Nat) : Res (List Nat) := do
  let (d, _) ← (Decoder.new encoded decoded).decode p
  return d.decodedData

end Meerkat.Rle
