import Verif.Model.Buffers
import Verif.Model.Varint
import Verif.Model.Rle
import Verif.Model.Element
import Verif.Model.Sink
import Verif.Model.Unwind

set_option autoImplicit false

/-!
# Model of src/store/encoding/raw/primitive_enc.rs

Simplifications. `size_of::<T>() * n` is computed on `Nat`: `n` elements of a `Vec` exist in memory,
so the product is at most `isize::MAX`. When `encode_primitive_buffer` panics the model leaves `encoded_data` and
`bitmap_encoder` as they were; both are cleared before they are used again. What a panic in `append_from` leaves in
`remaining` is modelled.
-/

namespace Meerkat.PrimitiveEnc
open Varint

variable {α : Type} [Element α] {S : Type}

/-- primitive_enc.rs:36-42 `struct Encoder<T>`. -/
structure Encoder (α : Type) where
  remaining : PrimitiveBuffer α
  encodedData : Bytes
  bitmapEncoder : Rle.Encoder
  minBlockSize : Nat
  numRows : Nat

/-- primitive_enc.rs:200-204 `struct EncodeResult`. -/
structure EncodeResult where
  numRows : Nat
  lastValidityPos : Nat
  deriving DecidableEq, Repr

/-- primitive_enc.rs:45-53 `Encoder::new`. -/
def Encoder.new (blockSize : Nat) (nullable : Bool) : Encoder α :=
  { remaining := PrimitiveBuffer.new nullable, encodedData := [], bitmapEncoder := Rle.Encoder.new,
    minBlockSize := blockSize, numRows := 0 }

/-- primitive_enc.rs:219-226 `to_byte_slice`. -/
def toByteSlice (src : List α) : Bytes := src.flatMap Element.bytes

/-- primitive_enc.rs:182-196, the `match buf.validity()` of `encode_primitive_buffer`; returns the
bytes added to `encoded_data` and the bitmap encoder. -/
def encodeValidity (p : Profile) (validity : Option Bitmap) (bitPos blockLen : Nat)
    (be : Rle.Encoder) : Res (EncodeResult × Bytes × Rle.Encoder) :=
  match validity with
  | some v => do
    let (be, lastBitPos) ← be.clear.putFrom p v bitPos blockLen
    let be ← be.flush p
    return ({ numRows := lastBitPos, lastValidityPos := lastBitPos }, be.encodedValues, be)
  | none => .ok ({ numRows := blockLen, lastValidityPos := 0 }, [], be)

/-- primitive_enc.rs:164-198 `encode_primitive_buffer`; `encoded_data` is cleared first, so only its
new content is returned. -/
def encodePrimitiveBuffer (p : Profile) (buf : PrimitiveBuffer α) (start «end» bitPos : Nat)
    (be : Rle.Encoder) : Res (EncodeResult × Bytes × Rle.Encoder) := do
  let blockLen ← p.sub 64 «end» start
  let blockSize := Element.size α * blockLen
  let data ← putVarint [] blockSize
  let chunk ← slice buf.values start «end»
  let (result, validity, be) ← encodeValidity p buf.validity bitPos blockLen be
  return (result, data ++ toByteSlice chunk ++ validity, be)

/-- primitive_enc.rs:206-217 `chunk`. -/
def chunk (p : Profile) (buffer : PrimitiveBuffer α) (start minSize : Nat) : Res Nat := do
  let chunkLen := minSize / Element.size α + (if minSize % Element.size α ≠ 0 then 1 else 0)
  let «end» ← p.add 64 start chunkLen
  if «end» > buffer.len then return buffer.len
  else return «end»

/-- primitive_enc.rs:98-103 `add_rows`, returning the new `num_rows`. -/
def addRows (cur numRows : Nat) : Res Nat :=
  if numRows < 2 ^ 32 ∧ cur + numRows < 2 ^ 32 then .ok (cur + numRows) else .error .expect

/-- primitive_enc.rs:63-77, shared by `write_block` and `write_remaining` (lines 81-95): encode the
range of `buf` into `encoded_data`, count the rows, offer the block to the sink. -/
def writeRange (p : Profile) (k : Sink S) (buf : PrimitiveBuffer α) (start «end» bitPos : Nat) :
    Run (Encoder α × S) EncodeResult := do
  let e ← Run.get
  let (result, data, be) ← Run.lift (encodePrimitiveBuffer p buf start «end» bitPos e.bitmapEncoder)
  Run.set { e with encodedData := data, bitmapEncoder := be }
  let numRows ← Run.lift (addRows e.numRows result.numRows)
  Run.set { e with encodedData := data, bitmapEncoder := be, numRows := numRows }
  let rowId ← Run.lift (p.sub 32 numRows 1)
  Run.emit k rowId data
  return result

/-- primitive_enc.rs:55-78 `write_block`. -/
def writeBlock (p : Profile) (k : Sink S) (buf : PrimitiveBuffer α) (start «end» bitPos : Nat) :
    Run (Encoder α × S) EncodeResult := writeRange p k buf start «end» bitPos

/-- primitive_enc.rs:80-96 `write_remaining`. -/
def writeRemaining (p : Profile) (k : Sink S) : Run (Encoder α × S) EncodeResult := do
  let e ← Run.get
  writeRange p k e.remaining 0 e.remaining.len 0

/-- What is left of the encoder when a call on `remaining` panics. -/
def leaving (rem : PrimitiveBuffer α) (s : Encoder α × S) : Encoder α × S := ({ s.1 with remaining := rem }, s.2)

/-- primitive_enc.rs:132-150, the `while` loop of `encode`, with at most `fuel` iterations. -/
def encodeLoop (p : Profile) (k : Sink S) (buffer : PrimitiveBuffer α) :
    Nat → Nat → Nat → Run (Encoder α × S) Unit
  | 0, _, _ => Run.lift (.error .diverge)
  | fuel + 1, bufPos, validityPos =>
    if bufPos < buffer.len then do
      let e ← Run.get
      let chunkEnd ← Run.lift (chunk p buffer bufPos e.minBlockSize)
      let chunkLen ← Run.lift (p.sub 64 chunkEnd bufPos)
      let chunkSize := chunkLen * Element.size α
      if chunkSize < e.minBlockSize then do
        let (rem, _) ← Run.lift (e.remaining.appendFrom buffer bufPos chunkEnd validityPos)
          (leaving (e.remaining.appendFromLeft buffer bufPos chunkEnd validityPos))
        Run.set { e with remaining := rem }
      else do
        let result ← writeBlock p k buffer bufPos chunkEnd validityPos
        encodeLoop p k buffer fuel chunkEnd result.lastValidityPos
    else pure ()

/-- primitive_enc.rs:110-153 `encode`. The loop gets `fuel` iterations; `buffer.len() + 1` are enough
unless the block size is 0 (see `encode_zero_diverges`). -/
def encodeFuel (p : Profile) (k : Sink S) (buffer : PrimitiveBuffer α) (fuel : Nat) :
    Run (Encoder α × S) Unit := do
  let e ← Run.get
  if e.remaining.len > 0 then do
    let remainingSize := e.remaining.len * Element.size α
    let room ← Run.lift (p.sub 64 e.minBlockSize remainingSize)
    let chunkEnd ← Run.lift (chunk p buffer 0 room)
    let (rem, validityPos) ← Run.lift (e.remaining.appendFrom buffer 0 chunkEnd 0)
      (leaving (e.remaining.appendFromLeft buffer 0 chunkEnd 0))
    let e := { e with remaining := rem }
    Run.set e
    if e.remaining.len < e.minBlockSize then pure ()
    else do
      let _ ← writeRemaining p k
      let e ← Run.get
      Run.set { e with remaining := e.remaining.clear }
      encodeLoop p k buffer fuel chunkEnd validityPos
  else encodeLoop p k buffer fuel 0 0

/-- primitive_enc.rs:110-153 `encode`. -/
def encode (p : Profile) (k : Sink S) (buffer : PrimitiveBuffer α) : Run (Encoder α × S) Unit :=
  encodeFuel p k buffer (buffer.len + 1)

/-- primitive_enc.rs:155-161 `flush`; the layout it returns is always `Plain(NoLayout)`. -/
def flush (p : Profile) (k : Sink S) : Run (Encoder α × S) Unit := do
  let e ← Run.get
  if e.remaining.len > 0 then do
    let _ ← writeRemaining p k
    pure ()
  else pure ()

/-- The calls a column writer makes (segment_writer.rs:268-278 `ColumnWriter::write`): `encode` for each buffer. -/
def encodeAll (p : Profile) (k : Sink S) : List (PrimitiveBuffer α) → Run (Encoder α × S) Unit
  | [] => pure ()
  | b :: bs => do
    encode p k b
    encodeAll p k bs

/-- `encode` for each buffer, then `flush`. -/
def encodeColumn (p : Profile) (k : Sink S) (bufs : List (PrimitiveBuffer α)) :
    Run (Encoder α × S) Unit := do
  encodeAll p k bufs
  flush p k

end Meerkat.PrimitiveEnc
