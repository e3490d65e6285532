import Verif.Model.EncSteps
import Verif.Model.BinaryEnc

set_option autoImplicit false

/-!
# The encoder of src/store/encoding/raw/binary_enc.rs, counting its steps

The definitions are those of `Verif.Model.Offsets`, `Buffers` and `BinaryEnc` with one step counted for each iteration of each
loop, each byte copied, each item length packed (with the padding) and each byte produced; what is done besides takes constant
time. Steps made before a fault count as well. What is not counted is the same as in `Verif.Model.EncSteps`.
-/

namespace Meerkat
open Counted (tick ticks lift)

/-- offsets.rs:34-63 `OffsetEncoder::encode`: a step for each item length and each one it is padded with, and for each byte of
their packed form before it is cut. -/
def Offsets.encodeC (p : Profile) (src : List Nat) (dst : Bytes) : Counted (List Nat × Bytes) := do
  let numValues := src.length
  let lenPadded ← lift (Util.roundUptoPowerOf2 p src.length BLOCK_LEN)
  ticks lenPadded
  let src := resize src lenPadded 0
  let b ← lift (numBits src)
  let dst := dst ++ [UInt8.ofNat b]
  let start := dst.length
  ticks (1 + Util.ceil8 (b * lenPadded))
  let dst := resize dst (dst.length + Util.ceil8 (b * lenPadded)) 0
  let dst ← lift (compressChunks b (chunks BLOCK_LEN src) dst start)
  return (src, resize dst (start + Util.ceil8 (b * numValues)) 0)

namespace BinaryBuffer

/-- indexing_buffer.rs:261-264, the loop of `append_from`: a step for each iteration. -/
def appendFromOffsetsC (p : Profile) (buf : BinaryBuffer) : Nat → Nat → Nat → Counted (List Nat)
  | 0, _, _ => lift (.ok [])
  | k + 1, i, last => do
    tick
    let l ← lift (buf.itemLen p i)
    let last ← lift (p.add 32 last l)
    let rest ← appendFromOffsetsC p buf k (i + 1) last
    return last :: rest

/-- indexing_buffer.rs:248-281 `append_from`: a step for each byte copied, besides the loops. -/
def appendFromC (p : Profile) (b buf : BinaryBuffer) (start «end» validityPos : Nat) : Counted (BinaryBuffer × Nat) := do
  let startOffset ← lift (index buf.offsets start)
  let endOffset ← lift (index buf.offsets «end»)
  let chunkLen ← lift (p.sub 64 «end» start)
  let last := (b.offsets.getLast?).getD 0
  let pushed ← appendFromOffsetsC p buf («end» - start) start last
  let chunk ← lift (slice buf.data startOffset endOffset)
  ticks chunk.length
  let data := b.data ++ chunk
  if U32_MAX > data.length then
    let (validity, pos) ← validityAppendFromC b.validity buf.validity validityPos chunkLen
    return ({ data := data, offsets := b.offsets ++ pushed, validity := validity }, pos)
  else
    lift (.error .assertion)

end BinaryBuffer

namespace BinaryEnc
open Varint
variable {S : Type}

/-- binary_enc.rs:235-237 `find_position`: a step for each offset looked at. -/
def findPositionC (p : Profile) (startOffset minSize : Nat) : List Nat → Nat → Counted (Option (Nat × Nat))
  | [], _ => lift (.ok none)
  | o :: os, pos => do
    tick
    let d ← lift (p.sub 32 o startOffset)
    if d ≥ minSize then return some (pos, o)
    else findPositionC p startOffset minSize os (pos + 1)

/-- binary_enc.rs:232-255 `chunk`. -/
def chunkC (p : Profile) (buffer : BinaryBuffer) (startPos minSize : Nat) : Counted BinaryChunk := do
  let startOffset ← lift (index buffer.offsets startPos)
  let found ← findPositionC p startOffset minSize (buffer.offsets.drop startPos) 0
  let (endPos, endOffset) ← lift (chunkEnd buffer found)
  let size ← lift (p.sub 32 endOffset startOffset)
  let len ← lift (p.sub 64 endPos startPos)
  return { startPos, endPos, startOffset, endOffset, size, len }

/-- binary_enc.rs:197-199: a step for each iteration. -/
def itemLensC (p : Profile) (buf : BinaryBuffer) : Nat → Nat → Counted (List Nat)
  | 0, _ => lift (.ok [])
  | k + 1, i => do
    tick
    let l ← lift (buf.itemLen p i)
    let rest ← itemLensC p buf k (i + 1)
    return l :: rest

/-- binary_enc.rs:179-220 `encode_binary_buffer`: a step for each byte of the size and each byte copied, besides the loops. -/
def encodeBinaryBufferC (p : Profile) (buf : BinaryBuffer) (c : BinaryChunk) (bitPos : Nat)
    (be : Rle.Encoder) : Counted Encoded := do
  let data ← lift (putVarint [] c.size)
  ticks data.length
  let content ← lift (slice buf.data c.startOffset c.endOffset)
  ticks content.length
  let deltas ← itemLensC p buf (c.endPos - c.startPos) c.startPos
  let (deltas, data) ← Offsets.encodeC p deltas (data ++ content)
  let (result, validity, be) ← PrimitiveEnc.encodeValidityC p buf.validity bitPos c.len be
  return { result, data := data ++ validity, deltas, bitmapEncoder := be }

/-- binary_enc.rs:61-84 `write_block`. -/
def writeBlockC (p : Profile) (k : Sink S) (buf : BinaryBuffer) (c : BinaryChunk) (bitPos : Nat) :
    Timed (Encoder × S) EncodeResult := do
  let e ← Timed.of Run.get
  let r ← Timed.lift (encodeBinaryBufferC p buf c bitPos e.bitmapEncoder)
  Timed.of (Run.set { e with encodedData := r.data, offsetDeltas := r.deltas, bitmapEncoder := r.bitmapEncoder })
  let numRows ← Timed.of (Run.lift (addRows e.numRows r.result.numRows))
  Timed.of (Run.set { e with encodedData := r.data, offsetDeltas := r.deltas, bitmapEncoder := r.bitmapEncoder,
                             numRows := numRows })
  let rowId ← Timed.of (Run.lift (p.sub 32 numRows 1))
  Timed.of (Run.emit k rowId r.data)
  return r.result

/-- binary_enc.rs:86-112 `write_remaining`. -/
def writeRemainingC (p : Profile) (k : Sink S) : Timed (Encoder × S) EncodeResult := do
  let e ← Timed.of Run.get
  let c ← Timed.of (Run.lift (wholeChunk e.remaining))
  writeBlockC p k e.remaining c 0

/-- binary_enc.rs:147-159, the `while` loop of `encode`: a step for each iteration. -/
def encodeLoopC (p : Profile) (k : Sink S) (buffer : BinaryBuffer) :
    Nat → Nat → Nat → Timed (Encoder × S) Unit
  | 0, _, _ => Timed.of (Run.lift (.error .diverge))
  | fuel + 1, bufPos, validityPos =>
    if bufPos < buffer.offsets.length then do
      Timed.tick
      let e ← Timed.of Run.get
      let c ← Timed.lift (chunkC p buffer bufPos e.minBlockSize)
      if c.size < e.minBlockSize then do
        let (rem, _) ← Timed.lift (e.remaining.appendFromC p buffer c.startPos c.endPos validityPos)
          (leaving (e.remaining.appendFromLeft p buffer c.startPos c.endPos validityPos))
        Timed.of (Run.set { e with remaining := rem })
      else do
        let result ← writeBlockC p k buffer c validityPos
        encodeLoopC p k buffer fuel c.endPos result.lastValidityPos
    else pure ()

/-- binary_enc.rs:124-162 `encode`. -/
def encodeC (p : Profile) (k : Sink S) (buffer : BinaryBuffer) : Timed (Encoder × S) Unit := do
  let e ← Timed.of Run.get
  if e.remaining.len > 0 then do
    let room ← Timed.of (Run.lift (p.sub 64 e.minBlockSize e.remaining.data.length))
    let c ← Timed.lift (chunkC p buffer 0 room)
    let (rem, validityPos) ← Timed.lift (e.remaining.appendFromC p buffer c.startPos c.endPos 0)
      (leaving (e.remaining.appendFromLeft p buffer c.startPos c.endPos 0))
    let e := { e with remaining := rem }
    Timed.of (Run.set e)
    if e.remaining.data.length < e.minBlockSize then pure ()
    else do
      let _ ← writeRemainingC p k
      let e ← Timed.of Run.get
      Timed.of (Run.set { e with remaining := e.remaining.clear })
      encodeLoopC p k buffer (buffer.offsets.length + 1) c.endPos validityPos
  else encodeLoopC p k buffer (buffer.offsets.length + 1) 0 0

/-- binary_enc.rs:164-170 `flush`. -/
def flushC (p : Profile) (k : Sink S) : Timed (Encoder × S) Unit := do
  let e ← Timed.of Run.get
  if e.remaining.len > 0 then do
    let _ ← writeRemainingC p k
    pure ()
  else pure ()

/-- `encode` for each buffer (segment_writer.rs:268-278). -/
def encodeAllC (p : Profile) (k : Sink S) : List BinaryBuffer → Timed (Encoder × S) Unit
  | [] => pure ()
  | b :: bs => do
    encodeC p k b
    encodeAllC p k bs

/-- `encode` for each buffer, then `flush`. -/
def encodeColumnC (p : Profile) (k : Sink S) (bufs : List BinaryBuffer) : Timed (Encoder × S) Unit := do
  encodeAllC p k bufs
  flushC p k

end BinaryEnc
end Meerkat
