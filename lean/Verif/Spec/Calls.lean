import Verif.Model.PrimitiveEnc
import Verif.Model.BinaryEnc

set_option autoImplicit false

/-! # Sequences of calls of an encoder -/

namespace Meerkat

/-- A call of an encoder of columns that are given as `β`. -/
inductive EncCall (β : Type) where
  | encode (b : β)
  | flush

/-- The calls one after the other, up to the first that fails. -/
def PrimitiveEnc.calls {α : Type} [Element α] {S : Type} (p : Profile) (k : Sink S) :
    List (EncCall (PrimitiveBuffer α)) → Run (PrimitiveEnc.Encoder α × S) Unit
  | [] => pure ()
  | .encode b :: cs => do
    PrimitiveEnc.encode p k b
    PrimitiveEnc.calls p k cs
  | .flush :: cs => do
    PrimitiveEnc.flush p k
    PrimitiveEnc.calls p k cs

/-- The calls one after the other, up to the first that fails. -/
def BinaryEnc.calls {S : Type} (p : Profile) (k : Sink S) :
    List (EncCall BinaryBuffer) → Run (BinaryEnc.Encoder × S) Unit
  | [] => pure ()
  | .encode b :: cs => do
    BinaryEnc.encode p k b
    BinaryEnc.calls p k cs
  | .flush :: cs => do
    BinaryEnc.flush p k
    BinaryEnc.calls p k cs

/-- Whether the call is not that of `encode` with a buffer of length 0. -/
def EncCall.notEmpty {β : Type} (len : β → Nat) : EncCall β → Bool
  | .encode b => len b != 0
  | .flush => true

end Meerkat
