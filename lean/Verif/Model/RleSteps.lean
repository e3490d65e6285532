import Verif.Model.Rle

set_option autoImplicit false

/-!
# The decoder of src/store/encoding/bitmap_rle.rs, counting its steps

The definitions are those of `Verif.Model.Rle` with one step counted for each iteration of each loop; what an
iteration does besides inner loops takes constant time (a varint has at most ten bytes). Steps made before a
panic count as well.
-/

namespace Meerkat

/-- A result and the number of steps made to get there. -/
def Counted (α : Type) : Type := Res α × Nat

namespace Counted
variable {α β : Type}

/-- One step. -/
def tick : Counted Unit := (.ok (), 1)

/-- Something that takes no step. -/
def lift (r : Res α) : Counted α := (r, 0)

/-- One after the other; nothing follows a panic. -/
def bind (m : Counted α) (f : α → Counted β) : Counted β :=
  match m with
  | (.ok a, n) => ((f a).1, n + (f a).2)
  | (.error e, n) => (.error e, n)

instance : Monad Counted where
  pure a := (.ok a, 0)
  bind := bind

/-- The result. -/
def result (m : Counted α) : Res α := m.1

/-- The number of steps. -/
def steps (m : Counted α) : Nat := m.2

end Counted

namespace Rle.Decoder
open Counted (tick lift)

/-- bitmap_rle.rs:295-303 `decode_byte`: a step for each mask. -/
def decodeByteC (p : Profile) (d : Decoder) (byte : Byte) : Counted Decoder :=
  BIT_MASK.foldlM (fun d mask => do tick; lift (decodeBit p byte d mask)) d

/-- bitmap_rle.rs:289-293 `decode_bitmap`; its iterations are calls of `decode_byte`. -/
def decodeBitmapC (p : Profile) (d : Decoder) (bitmap : Bytes) : Counted Decoder :=
  bitmap.foldlM (decodeByteC p) d

/-- bitmap_rle.rs:275-279: a step for each iteration. -/
def onesLoopC (p : Profile) : Nat → Decoder → Counted Decoder
  | 0, d => lift (.ok d)
  | n + 1, d => do
    tick
    let d ← lift d.store
    let pos ← lift (p.add 32 d.bitmapPos 1)
    onesLoopC p n { d with bitmapPos := pos, decodedDataPos := d.decodedDataPos + 1 }

/-- bitmap_rle.rs:282-284; its iterations are calls of `decode_byte`. -/
def bytesLoopC (p : Profile) (value : Byte) : Nat → Decoder → Counted Decoder
  | 0, d => lift (.ok d)
  | n + 1, d => do
    let d ← decodeByteC p d value
    bytesLoopC p value n d

/-- bitmap_rle.rs:270-287 `decode_run`. -/
def decodeRunC (p : Profile) (d : Decoder) (len : Nat) (value : Byte) : Counted Decoder :=
  if value = 0x00 then do
    let pos ← lift (p.add 32 d.bitmapPos (shl 32 len 3))
    lift (.ok { d with bitmapPos := pos })
  else if value = 0xFF then onesLoopC p (shl 32 len 3) d
  else bytesLoopC p value len d

/-- bitmap_rle.rs:232-235. -/
def decodeFrameC (p : Profile) (d : Decoder) (frame : Frame) : Counted Decoder :=
  match frame with
  | .run len value => d.decodeRunC p len value
  | .bitmap bytes => d.decodeBitmapC p bytes

/-- bitmap_rle.rs:231-236: a step for each frame, besides those of its decoding. -/
def decodeLoopC (p : Profile) : Nat → Decoder → Counted Decoder
  | 0, d => lift (if d.encodedDataPos < d.encodedData.length then .error .diverge else .ok d)
  | fuel + 1, d =>
    if d.encodedDataPos < d.encodedData.length then do
      tick
      let (d, frame) ← lift (d.readFrame p)
      let d ← d.decodeFrameC p frame
      decodeLoopC p fuel d
    else lift (.ok d)

end Rle.Decoder

/-- bitmap_rle.rs:306-309 `decode`, with its steps. -/
def Rle.decodeC (p : Profile) (encoded : Bytes) (decoded : List Nat) : Counted (List Nat) := do
  let d ← Decoder.decodeLoopC p encoded.length (Decoder.new encoded decoded)
  Counted.lift (.ok d.decodedData)

end Meerkat
