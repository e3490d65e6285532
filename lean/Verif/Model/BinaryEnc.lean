import Verif.Model.Buffers
import Verif.Model.Varint
import Verif.Model.Offsets
import Verif.Model.PrimitiveEnc

set_option autoImplicit false

/-!
# Model of src/store/encoding/raw/binary_enc.rs

Simplification. When `encode_binary_buffer` panics the model leaves `encoded_data`, `offset_deltas` and `bitmap_encoder`
as they were; they are cleared before they are used again. What a panic in `append_from` leaves in `remaining` is
modelled. The offset encoder holds only the stateless bit packer and is left out of the state.
-/

namespace Meerkat.BinaryEnc
open Varint
variable {S : Type}

/-- binary_enc.rs:38-46 `struct Encoder`. -/
structure Encoder where
  remaining : BinaryBuffer
  encodedData : Bytes
  offsetDeltas : List Nat
  bitmapEncoder : Rle.Encoder
  minBlockSize : Nat
  numRows : Nat

/-- binary_enc.rs:173-177 `struct EncodeResult`, the same as in primitive_enc.rs. -/
abbrev EncodeResult := PrimitiveEnc.EncodeResult

/-- binary_enc.rs:49-59 `Encoder::new`. -/
def Encoder.new (blockSize : Nat) (nullable : Bool) : Encoder :=
  { remaining := BinaryBuffer.new nullable, encodedData := [], offsetDeltas := [],
    bitmapEncoder := Rle.Encoder.new, minBlockSize := blockSize, numRows := 0 }

/-- binary_enc.rs:222-230 `struct BinaryChunk`. -/
structure BinaryChunk where
  startPos : Nat
  endPos : Nat
  startOffset : Nat
  endOffset : Nat
  size : Nat
  len : Nat
  deriving DecidableEq, Repr

/-- binary_enc.rs:235-237 `find_position(|offset| (*offset - start_offset) as u64 >= min_size)` on
the offsets from `start_pos` on: the first position, counted from `pos`, and its offset. The
subtraction is on `u32`. -/
def findPosition (p : Profile) (startOffset minSize : Nat) : List Nat → Nat → Res (Option (Nat × Nat))
  | [], _ => .ok none
  | o :: os, pos => do
    let d ← p.sub 32 o startOffset
    if d ≥ minSize then return some (pos, o)
    else findPosition p startOffset minSize os (pos + 1)

/-- binary_enc.rs:239-245, the end of the chunk: the position found is relative to `start_pos`. -/
def chunkEnd (buffer : BinaryBuffer) (found : Option (Nat × Nat)) : Res (Nat × Nat) :=
  match found with
  | some (pos, offset) => .ok (pos, offset)
  | none => do
    let last ← index buffer.offsets (buffer.offsets.length - 1)
    return (buffer.offsets.length - 1, last)

/-- binary_enc.rs:232-255 `chunk`. -/
def chunk (p : Profile) (buffer : BinaryBuffer) (startPos minSize : Nat) : Res BinaryChunk := do
  let startOffset ← index buffer.offsets startPos
  let found ← findPosition p startOffset minSize (buffer.offsets.drop startPos) 0
  let (endPos, endOffset) ← chunkEnd buffer found
  let size ← p.sub 32 endOffset startOffset
  let len ← p.sub 64 endPos startPos
  return { startPos, endPos, startOffset, endOffset, size, len }

/-- binary_enc.rs:197-199, the `for i in start_pos..end_pos` loop: `k` iterations from item `i`. -/
def itemLens (p : Profile) (buf : BinaryBuffer) : Nat → Nat → Res (List Nat)
  | 0, _ => .ok []
  | k + 1, i => do
    let l ← buf.itemLen p i
    let rest ← itemLens p buf k (i + 1)
    return l :: rest

/-- What one call of `encode_binary_buffer` leaves behind. -/
structure Encoded where
  result : EncodeResult
  data : Bytes
  deltas : List Nat
  bitmapEncoder : Rle.Encoder

/-- binary_enc.rs:179-220 `encode_binary_buffer`; `encoded_data` and `offset_deltas` are cleared
first. The `match buf.validity()` (203-219) is the same as in primitive_enc.rs. -/
def encodeBinaryBuffer (p : Profile) (buf : BinaryBuffer) (c : BinaryChunk) (bitPos : Nat)
    (be : Rle.Encoder) : Res Encoded := do
  let data ← putVarint [] c.size
  let content ← slice buf.data c.startOffset c.endOffset
  let deltas ← itemLens p buf (c.endPos - c.startPos) c.startPos
  let (deltas, data) ← Offsets.encode p deltas (data ++ content)
  let (result, validity, be) ← PrimitiveEnc.encodeValidity p buf.validity bitPos c.len be
  return { result, data := data ++ validity, deltas, bitmapEncoder := be }

/-- binary_enc.rs:114-119 `add_rows`, returning the new `num_rows`. -/
def addRows (cur numRows : Nat) : Res Nat :=
  if numRows < 2 ^ 32 ∧ cur + numRows < 2 ^ 32 then .ok (cur + numRows) else .error .expect

/-- binary_enc.rs:61-84 `write_block`; lines 96-111 of `write_remaining` are the same. -/
def writeBlock (p : Profile) (k : Sink S) (buf : BinaryBuffer) (c : BinaryChunk) (bitPos : Nat) :
    Run (Encoder × S) EncodeResult := do
  let e ← Run.get
  let r ← Run.lift (encodeBinaryBuffer p buf c bitPos e.bitmapEncoder)
  Run.set { e with encodedData := r.data, offsetDeltas := r.deltas, bitmapEncoder := r.bitmapEncoder }
  let numRows ← Run.lift (addRows e.numRows r.result.numRows)
  Run.set { e with encodedData := r.data, offsetDeltas := r.deltas, bitmapEncoder := r.bitmapEncoder,
                   numRows := numRows }
  let rowId ← Run.lift (p.sub 32 numRows 1)
  Run.emit k rowId r.data
  return r.result

/-- binary_enc.rs:87-94, the chunk made by `write_remaining`; `offsets()` is never empty. -/
def wholeChunk (b : BinaryBuffer) : Res BinaryChunk :=
  match b.offsets.getLast? with
  | some last => .ok { startPos := 0, endPos := b.offsets.length - 1, startOffset := 0, endOffset := last,
                       size := last, len := b.len }
  | none => .error .expect

/-- binary_enc.rs:86-112 `write_remaining`. -/
def writeRemaining (p : Profile) (k : Sink S) : Run (Encoder × S) EncodeResult := do
  let e ← Run.get
  let c ← Run.lift (wholeChunk e.remaining)
  writeBlock p k e.remaining c 0

/-- What is left of the encoder when a call on `remaining` panics. -/
def leaving (rem : BinaryBuffer) (s : Encoder × S) : Encoder × S := ({ s.1 with remaining := rem }, s.2)

/-- binary_enc.rs:147-159, the `while` loop of `encode`, with at most `fuel` iterations. -/
def encodeLoop (p : Profile) (k : Sink S) (buffer : BinaryBuffer) :
    Nat → Nat → Nat → Run (Encoder × S) Unit
  | 0, _, _ => Run.lift (.error .diverge)
  | fuel + 1, bufPos, validityPos =>
    if bufPos < buffer.offsets.length then do
      let e ← Run.get
      let c ← Run.lift (chunk p buffer bufPos e.minBlockSize)
      if c.size < e.minBlockSize then do
        let (rem, _) ← Run.lift (e.remaining.appendFrom p buffer c.startPos c.endPos validityPos)
          (leaving (e.remaining.appendFromLeft p buffer c.startPos c.endPos validityPos))
        Run.set { e with remaining := rem }
      else do
        let result ← writeBlock p k buffer c validityPos
        encodeLoop p k buffer fuel c.endPos result.lastValidityPos
    else pure ()

/-- binary_enc.rs:124-162 `encode`. The loop gets one iteration more than there are offsets; that is
enough (`encodeLoop_fuel`). -/
def encode (p : Profile) (k : Sink S) (buffer : BinaryBuffer) : Run (Encoder × S) Unit := do
  let e ← Run.get
  if e.remaining.len > 0 then do
    let room ← Run.lift (p.sub 64 e.minBlockSize e.remaining.data.length)
    let c ← Run.lift (chunk p buffer 0 room)
    let (rem, validityPos) ← Run.lift (e.remaining.appendFrom p buffer c.startPos c.endPos 0)
      (leaving (e.remaining.appendFromLeft p buffer c.startPos c.endPos 0))
    let e := { e with remaining := rem }
    Run.set e
    if e.remaining.data.length < e.minBlockSize then pure ()
    else do
      let _ ← writeRemaining p k
      let e ← Run.get
      Run.set { e with remaining := e.remaining.clear }
      encodeLoop p k buffer (buffer.offsets.length + 1) c.endPos validityPos
  else encodeLoop p k buffer (buffer.offsets.length + 1) 0 0

/-- binary_enc.rs:164-170 `flush`; the layout it returns is always `Plain(NoLayout)`. -/
def flush (p : Profile) (k : Sink S) : Run (Encoder × S) Unit := do
  let e ← Run.get
  if e.remaining.len > 0 then do
    let _ ← writeRemaining p k
    pure ()
  else pure ()

/-- `encode` for each buffer, as a column writer does (segment_writer.rs:268-278). -/
def encodeAll (p : Profile) (k : Sink S) : List BinaryBuffer → Run (Encoder × S) Unit
  | [] => pure ()
  | b :: bs => do
    encode p k b
    encodeAll p k bs

/-- `encode` for each buffer, then `flush`. -/
def encodeColumn (p : Profile) (k : Sink S) (bufs : List BinaryBuffer) : Run (Encoder × S) Unit := do
  encodeAll p k bufs
  flush p k

end Meerkat.BinaryEnc
