import Verif.Model.BinaryEnc
import Verif.Model.Metadata

set_option autoImplicit false

/-! # Model of the encoder constructors of src/store/encoding/mod.rs and of snappy_enc.rs -/

namespace Meerkat

variable {S : Type}

/-- `Box<dyn BlockEncoder<BinaryBuffer, S>>`: the two implementations for binary buffers. -/
inductive BinaryEncoder where
  | raw (e : BinaryEnc.Encoder)
  /-- snappy_enc.rs:21 `struct Encoder {}` -/
  | snappy

/-- encoding/mod.rs:106-123 `new_binary_encoder`. -/
def newBinaryEncoder (encoding : Encoding) (blockSize : Nat) (nullable : Bool) : Except Fault BinaryEncoder :=
  match encoding with
  | .snappy => .ok .snappy
  | .raw => .ok (.raw (BinaryEnc.Encoder.new blockSize nullable))
  | _ => .error .io

/-- encoding/mod.rs:42-104: `new_i32_encoder`, `new_i64_encoder`, `new_u64_encoder` and `new_f64_encoder`
have the same body. -/
def newPrimitiveEncoder {α : Type} [Element α] (encoding : Encoding) (blockSize : Nat) (nullable : Bool) :
    Except Fault (PrimitiveEnc.Encoder α) :=
  match encoding with
  | .raw => .ok (PrimitiveEnc.Encoder.new blockSize nullable)
  | _ => .error .io

/-- snappy_enc.rs:32, the bytes `b"snappy"`. -/
def SNAPPY_BLOCK : Bytes := [115, 110, 97, 112, 112, 121]

/-- Run a call of the raw encoder inside the box. -/
def BinaryEncoder.onRaw {α : Type} (e : BinaryEnc.Encoder) (m : Run (BinaryEnc.Encoder × S) α) :
    Run (BinaryEncoder × S) α := fun s =>
  match m (e, s.2) with
  | (r, (e', s')) => (r, (.raw e', s'))

/-- `encode` of the boxed encoder (binary_enc.rs:124-162; snappy_enc.rs:31-34, which writes the same block
whatever the buffer holds). -/
def BinaryEncoder.encode (p : Profile) (k : Sink S) (buffer : BinaryBuffer) : Run (BinaryEncoder × S) Unit := do
  match ← Run.get with
  | .raw e => onRaw e (BinaryEnc.encode p k buffer)
  | .snappy => Run.emit k 43243 SNAPPY_BLOCK

/-- `flush` of the boxed encoder (binary_enc.rs:164-170; snappy_enc.rs:36-38). -/
def BinaryEncoder.flush (p : Profile) (k : Sink S) : Run (BinaryEncoder × S) EncoderLayout := do
  match ← Run.get with
  | .raw e => do
    onRaw e (BinaryEnc.flush p k)
    return .plain
  | .snappy => return .snappy

end Meerkat
