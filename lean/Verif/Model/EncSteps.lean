import Verif.Model.RleSteps
import Verif.Model.PrimitiveEnc

set_option autoImplicit false

/-!
# The encoder of src/store/encoding/raw/primitive_enc.rs, counting its steps

The definitions are those of `Verif.Model.Rle`, `Buffers` and `PrimitiveEnc` with one step counted for each iteration
of each loop, each value copied and each byte added to the compressed bitmap or copied from it; what is done besides
takes constant time (a varint has at most ten bytes). Steps made before a fault count as well. Not counted are the time
the sink takes and the bytes that `Bitmap::append` adds when a bitmap is full, which `Verif.Model.FillSteps` counts: by C116 they
add half a step for each row copied.
-/

namespace Meerkat

/-- `n` steps. -/
def Counted.ticks (n : Nat) : Counted Unit := (.ok (), n)

/-- A call on a mutable state, and the number of its steps. -/
def Timed (σ α : Type) : Type := σ → (Except Fault α × σ) × Nat

namespace Timed
variable {σ α β : Type}

/-- One after the other; nothing follows a fault. -/
protected def bind (m : Timed σ α) (f : α → Timed σ β) : Timed σ β := fun s =>
  match m s with
  | ((.ok a, s'), n) => ((f a s').1, n + (f a s').2)
  | ((.error e, s'), n) => ((.error e, s'), n)

instance : Monad (Timed σ) where
  pure a := fun s => ((.ok a, s), 0)
  bind := Timed.bind

/-- One step. -/
def tick : Timed σ Unit := fun s => ((.ok (), s), 1)

/-- Something that takes no step. -/
def of (m : Run σ α) : Timed σ α := fun s => (m s, 0)

/-- Code that may panic, leaving the state changed by `left`, with its steps. -/
def lift (c : Counted α) (left : σ → σ := id) : Timed σ α := fun s => (Run.lift c.result left s, c.steps)

/-- The call without its steps. -/
def run (m : Timed σ α) : Run σ α := fun s => (m s).1

/-- The number of steps. -/
def steps (m : Timed σ α) (s : σ) : Nat := (m s).2

end Timed

namespace Rle.Encoder
open Counted (tick ticks lift)

/-- bitmap_rle.rs:59-69 `put`: a step, and one for each byte added to `encoded_values`. -/
def putC (p : Profile) (e : Encoder) (set : Bool) : Counted Encoder := do
  tick
  let e' ← lift (e.put p set)
  ticks (e'.encodedValues.length - e.encodedValues.length)
  return e'

/-- bitmap_rle.rs:74-79, the loop of `put_from`. -/
def putFromLoopC (p : Profile) (e : Encoder) (bitmap : Bitmap) (bitPos remaining : Nat) : Counted (Encoder × Nat) :=
  if remaining = 0 then lift (.ok (e, bitPos))
  else if _h : bitPos < bitmap.len then do
    let b ← lift (bitmap.isSet bitPos)
    let e ← e.putC p b
    putFromLoopC p e bitmap (bitPos + 1) (remaining - b.toNat)
  else lift (.error .assertion)
termination_by bitmap.len - bitPos

/-- bitmap_rle.rs:86-103 `flush`: a step for each byte added to `encoded_values`. -/
def flushC (p : Profile) (e : Encoder) : Counted Encoder := do
  let e' ← lift (e.flush p)
  ticks (e'.encodedValues.length - e.encodedValues.length)
  return e'

end Rle.Encoder

open Counted (tick ticks) in
/-- indexing_buffer.rs:69-75, the loop of `Bitmap::append_from`: a step for each iteration. -/
def Bitmap.appendFromLoopC (dst src : Bitmap) (bitPos remaining : Nat) : Counted (Bitmap × Nat) :=
  if remaining = 0 then Counted.lift (.ok (dst, bitPos))
  else if _h : bitPos < src.len then do
    tick
    let b ← Counted.lift (src.isSet bitPos)
    let dst ← Counted.lift (dst.append b)
    appendFromLoopC dst src (bitPos + 1) (remaining - b.toNat)
  else Counted.lift (.error .assertion)
termination_by src.len - bitPos

/-- indexing_buffer.rs:140-152, the `match` on the two bitmaps in `append_from`. -/
def validityAppendFromC (dst src : Option Bitmap) (validityPos n : Nat) : Counted (Option Bitmap × Nat) :=
  match src with
  | some vsrc =>
    match dst with
    | some vdst => do
      let (d, pos) ← vdst.appendFromLoopC vsrc validityPos n
      return (some d, pos)
    | none => Counted.lift (.error .expect)
  | none =>
    match dst with
    | none => Counted.lift (.ok (none, n))
    | some _ => Counted.lift (.error .assertion)

/-- indexing_buffer.rs:130-154 `append_from`: a step for each value copied. -/
def PrimitiveBuffer.appendFromC {α : Type} (b : PrimitiveBuffer α) (buf : PrimitiveBuffer α)
    (start «end» validityPos : Nat) : Counted (PrimitiveBuffer α × Nat) := do
  let chunk ← Counted.lift (slice buf.values start «end»)
  Counted.ticks chunk.length
  let values := b.values ++ chunk
  if U32_MAX > values.length then
    let numValues := «end» - start
    let (validity, pos) ← validityAppendFromC b.validity buf.validity validityPos numValues
    return ({ values := values, validity := validity }, pos)
  else
    Counted.lift (.error .assertion)

namespace PrimitiveEnc
open Varint
variable {α : Type} [Element α] {S : Type}

/-- primitive_enc.rs:182-196: the steps of `put_from` and `flush`, and one for each byte copied from the bitmap
encoder. -/
def encodeValidityC (p : Profile) (validity : Option Bitmap) (bitPos blockLen : Nat)
    (be : Rle.Encoder) : Counted (EncodeResult × Bytes × Rle.Encoder) :=
  match validity with
  | some v => do
    let (be, lastBitPos) ← be.clear.putFromLoopC p v bitPos blockLen
    let be ← be.flushC p
    Counted.ticks be.encodedValues.length
    return ({ numRows := lastBitPos, lastValidityPos := lastBitPos }, be.encodedValues, be)
  | none => Counted.lift (.ok ({ numRows := blockLen, lastValidityPos := 0 }, [], be))

/-- primitive_enc.rs:164-198 `encode_primitive_buffer`: a step for each value copied. -/
def encodePrimitiveBufferC (p : Profile) (buf : PrimitiveBuffer α) (start «end» bitPos : Nat)
    (be : Rle.Encoder) : Counted (EncodeResult × Bytes × Rle.Encoder) := do
  let blockLen ← Counted.lift (p.sub 64 «end» start)
  let blockSize := Element.size α * blockLen
  let data ← Counted.lift (putVarint [] blockSize)
  let chunk ← Counted.lift (slice buf.values start «end»)
  Counted.ticks chunk.length
  let (result, validity, be) ← encodeValidityC p buf.validity bitPos blockLen be
  return (result, data ++ toByteSlice chunk ++ validity, be)

/-- primitive_enc.rs:63-77. -/
def writeRangeC (p : Profile) (k : Sink S) (buf : PrimitiveBuffer α) (start «end» bitPos : Nat) :
    Timed (Encoder α × S) EncodeResult := do
  let e ← Timed.of Run.get
  let (result, data, be) ← Timed.lift (encodePrimitiveBufferC p buf start «end» bitPos e.bitmapEncoder)
  Timed.of (Run.set { e with encodedData := data, bitmapEncoder := be })
  let numRows ← Timed.of (Run.lift (addRows e.numRows result.numRows))
  Timed.of (Run.set { e with encodedData := data, bitmapEncoder := be, numRows := numRows })
  let rowId ← Timed.of (Run.lift (p.sub 32 numRows 1))
  Timed.of (Run.emit k rowId data)
  return result

/-- primitive_enc.rs:80-96 `write_remaining`. -/
def writeRemainingC (p : Profile) (k : Sink S) : Timed (Encoder α × S) EncodeResult := do
  let e ← Timed.of Run.get
  writeRangeC p k e.remaining 0 e.remaining.len 0

/-- primitive_enc.rs:132-150, the `while` loop of `encode`: a step for each iteration. -/
def encodeLoopC (p : Profile) (k : Sink S) (buffer : PrimitiveBuffer α) :
    Nat → Nat → Nat → Timed (Encoder α × S) Unit
  | 0, _, _ => Timed.of (Run.lift (.error .diverge))
  | fuel + 1, bufPos, validityPos =>
    if bufPos < buffer.len then do
      Timed.tick
      let e ← Timed.of Run.get
      let chunkEnd ← Timed.of (Run.lift (chunk p buffer bufPos e.minBlockSize))
      let chunkLen ← Timed.of (Run.lift (p.sub 64 chunkEnd bufPos))
      let chunkSize := chunkLen * Element.size α
      if chunkSize < e.minBlockSize then do
        let (rem, _) ← Timed.lift (e.remaining.appendFromC buffer bufPos chunkEnd validityPos)
          (leaving (e.remaining.appendFromLeft buffer bufPos chunkEnd validityPos))
        Timed.of (Run.set { e with remaining := rem })
      else do
        let result ← writeRangeC p k buffer bufPos chunkEnd validityPos
        encodeLoopC p k buffer fuel chunkEnd result.lastValidityPos
    else pure ()

/-- primitive_enc.rs:110-153 `encode`. -/
def encodeC (p : Profile) (k : Sink S) (buffer : PrimitiveBuffer α) : Timed (Encoder α × S) Unit := do
  let e ← Timed.of Run.get
  if e.remaining.len > 0 then do
    let remainingSize := e.remaining.len * Element.size α
    let room ← Timed.of (Run.lift (p.sub 64 e.minBlockSize remainingSize))
    let chunkEnd ← Timed.of (Run.lift (chunk p buffer 0 room))
    let (rem, validityPos) ← Timed.lift (e.remaining.appendFromC buffer 0 chunkEnd 0)
      (leaving (e.remaining.appendFromLeft buffer 0 chunkEnd 0))
    let e := { e with remaining := rem }
    Timed.of (Run.set e)
    if e.remaining.len < e.minBlockSize then pure ()
    else do
      let _ ← writeRemainingC p k
      let e ← Timed.of Run.get
      Timed.of (Run.set { e with remaining := e.remaining.clear })
      encodeLoopC p k buffer (buffer.len + 1) chunkEnd validityPos
  else encodeLoopC p k buffer (buffer.len + 1) 0 0

/-- primitive_enc.rs:155-161 `flush`. -/
def flushC (p : Profile) (k : Sink S) : Timed (Encoder α × S) Unit := do
  let e ← Timed.of Run.get
  if e.remaining.len > 0 then do
    let _ ← writeRemainingC p k
    pure ()
  else pure ()

/-- `encode` for each buffer (segment_writer.rs:268-278). -/
def encodeAllC (p : Profile) (k : Sink S) : List (PrimitiveBuffer α) → Timed (Encoder α × S) Unit
  | [] => pure ()
  | b :: bs => do
    encodeC p k b
    encodeAllC p k bs

/-- `encode` for each buffer, then `flush`. -/
def encodeColumnC (p : Profile) (k : Sink S) (bufs : List (PrimitiveBuffer α)) : Timed (Encoder α × S) Unit := do
  encodeAllC p k bufs
  flushC p k

end PrimitiveEnc

end Meerkat
