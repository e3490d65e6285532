import Verif.Model.EncSteps

set_option autoImplicit false

/-!
# Filling the buffers of src/store/indexing_buffer.rs, counting the steps

The definitions are those of `Verif.Model.Bitmap` and `Buffers` with a step counted for each call on a buffer, each bit put into a
bitmap, each value or byte copied and, when the bytes of a bitmap are made more, each of them, the old ones as well since the
vector may have to be moved. `Vec::push` and `extend_from_slice` are taken to need constant time for each element, which is what
the standard library promises for many of them together. Steps made before a panic count as well.
-/

namespace Meerkat
open Counted (tick ticks lift)

/-- What it takes to bring a vector from `before` to `after` elements with `Vec::resize`. -/
def resizeSteps (before after : Nat) : Nat := if after ≤ before then 0 else after

namespace Bitmap

/-- indexing_buffer.rs:52-64 `append`: a step, and those of the `resize`. It panics only if the bitmap has no bytes, and then
nothing is resized. -/
def appendC (m : Bitmap) (set : Bool) : Counted Bitmap := do
  tick
  let m' ← lift (m.append set)
  ticks (resizeSteps m.values.length m'.values.length)
  return m'

/-- indexing_buffer.rs:87-90 `clear`: the steps of the `resize`. -/
def clearC (m : Bitmap) : Counted Bitmap := do
  ticks (resizeSteps m.values.length m.clear.values.length)
  return m.clear

/-- indexing_buffer.rs:69-75, the loop of `append_from`: the steps of `append` in each iteration. -/
def appendFromLoopG (dst src : Bitmap) (bitPos remaining : Nat) : Counted (Bitmap × Nat) :=
  if remaining = 0 then lift (.ok (dst, bitPos))
  else if _h : bitPos < src.len then do
    let b ← lift (src.isSet bitPos)
    let dst ← dst.appendC b
    appendFromLoopG dst src (bitPos + 1) (remaining - b.toNat)
  else lift (.error .assertion)
termination_by src.len - bitPos

end Bitmap

/-- indexing_buffer.rs:116-118, 231-233, 359-361. -/
def validityAppendTrueC (v : Option Bitmap) : Counted (Option Bitmap) :=
  match v with
  | some bm => do return some (← bm.appendC true)
  | none => lift (.ok none)

/-- indexing_buffer.rs:124-127, 238-241, 367-370. -/
def validityAppendFalseC (v : Option Bitmap) : Counted (Option Bitmap) :=
  match v with
  | some bm => do return some (← bm.appendC false)
  | none => lift (.error .expect)

/-- indexing_buffer.rs:197-199, 329-331, 404-406. -/
def validityClearC (v : Option Bitmap) : Counted (Option Bitmap) :=
  match v with
  | some bm => do return some (← bm.clearC)
  | none => lift (.ok none)

/-- indexing_buffer.rs:143-153 and 271-280. -/
def validityAppendFromG (dst src : Option Bitmap) (validityPos n : Nat) : Counted (Option Bitmap × Nat) :=
  match src with
  | some vsrc =>
    match dst with
    | some vdst => do
      let (d, pos) ← vdst.appendFromLoopG vsrc validityPos n
      return (some d, pos)
    | none => lift (.error .expect)
  | none =>
    match dst with
    | none => lift (.ok (none, n))
    | some _ => lift (.error .assertion)

/-- A call that fills or empties a buffer: `append(v)` is `push (some v)` and `append_null()` is `push none`. The buffers that
`append_from` copies from are of type `β`. -/
inductive FillCall (β α : Type) where
  | push (row : Option α)
  | appendFrom (src : β) (start «end» validityPos : Nat)
  | clear

namespace PrimitiveBuffer
variable {α : Type}

/-- indexing_buffer.rs:114-128 `append` and `append_null`. -/
def pushC (b : PrimitiveBuffer α) (row : Option α) : Counted (PrimitiveBuffer α) := do
  tick
  match row with
  | some v => do
    tick
    let validity ← validityAppendTrueC b.validity
    return { values := b.values ++ [v], validity := validity }
  | none => do
    let validity ← validityAppendFalseC b.validity
    return { b with validity := validity }

/-- indexing_buffer.rs:195-200 `clear`. -/
def clearC (b : PrimitiveBuffer α) : Counted (PrimitiveBuffer α) := do
  tick
  let validity ← validityClearC b.validity
  return { values := [], validity := validity }

/-- indexing_buffer.rs:130-154 `append_from`: a step for each value copied. -/
def appendFromG (b buf : PrimitiveBuffer α) (start «end» validityPos : Nat) : Counted (PrimitiveBuffer α × Nat) := do
  tick
  let chunk ← lift (slice buf.values start «end»)
  ticks chunk.length
  let values := b.values ++ chunk
  if U32_MAX > values.length then
    let numValues := «end» - start
    let (validity, pos) ← validityAppendFromG b.validity buf.validity validityPos numValues
    return ({ values := values, validity := validity }, pos)
  else
    lift (.error .assertion)

/-- One call. -/
def callC (b : PrimitiveBuffer α) : FillCall (PrimitiveBuffer α) α → Counted (PrimitiveBuffer α)
  | .push row => b.pushC row
  | .appendFrom src i j pos => do return (← b.appendFromG src i j pos).1
  | .clear => b.clearC

/-- The same call, not counted. -/
def call (b : PrimitiveBuffer α) : FillCall (PrimitiveBuffer α) α → Res (PrimitiveBuffer α)
  | .push row => b.push row
  | .appendFrom src i j pos => do return (← b.appendFrom src i j pos).1
  | .clear => .ok b.clear

end PrimitiveBuffer

namespace BinaryBuffer

/-- indexing_buffer.rs:227-242 `append` and `append_null`. -/
def pushC (b : BinaryBuffer) (row : Option Bytes) : Counted BinaryBuffer := do
  tick
  match row with
  | some v => do
    tick
    ticks v.length
    let data := b.data ++ v
    if data.length ≤ U32_MAX then
      let validity ← validityAppendTrueC b.validity
      return { data := data, offsets := b.offsets ++ [data.length], validity := validity }
    else
      lift (.error .expect)
  | none => do
    let validity ← validityAppendFalseC b.validity
    return { b with validity := validity }

/-- indexing_buffer.rs:326-332 `clear`. -/
def clearC (b : BinaryBuffer) : Counted BinaryBuffer := do
  tick
  let validity ← validityClearC b.validity
  return { data := [], offsets := b.offsets.take 1, validity := validity }

/-- indexing_buffer.rs:248-281 `append_from`: a step for each item and for each byte copied. -/
def appendFromG (p : Profile) (b buf : BinaryBuffer) (start «end» validityPos : Nat) : Counted (BinaryBuffer × Nat) := do
  tick
  let startOffset ← lift (index buf.offsets start)
  let endOffset ← lift (index buf.offsets «end»)
  let chunkLen ← lift (p.sub 64 «end» start)
  let last := (b.offsets.getLast?).getD 0
  ticks («end» - start)
  let pushed ← lift (appendFromOffsets p buf («end» - start) start last)
  let chunk ← lift (slice buf.data startOffset endOffset)
  ticks chunk.length
  let data := b.data ++ chunk
  if U32_MAX > data.length then
    let (validity, pos) ← validityAppendFromG b.validity buf.validity validityPos chunkLen
    return ({ data := data, offsets := b.offsets ++ pushed, validity := validity }, pos)
  else
    lift (.error .assertion)

/-- One call. -/
def callC (p : Profile) (b : BinaryBuffer) : FillCall BinaryBuffer Bytes → Counted BinaryBuffer
  | .push row => b.pushC row
  | .appendFrom src i j pos => do return (← b.appendFromG p src i j pos).1
  | .clear => b.clearC

/-- The same call, not counted. -/
def call (p : Profile) (b : BinaryBuffer) : FillCall BinaryBuffer Bytes → Res BinaryBuffer
  | .push row => b.push row
  | .appendFrom src i j pos => do return (← b.appendFrom p src i j pos).1
  | .clear => .ok b.clear

end BinaryBuffer

namespace BoolBuffer

/-- indexing_buffer.rs:357-372 `append` and `append_null`. -/
def pushC (b : BoolBuffer) (row : Option Bool) : Counted BoolBuffer := do
  tick
  match row with
  | some v => do
    let values ← b.values.appendC v
    let validity ← validityAppendTrueC b.validity
    return { values := values, validity := validity, len := b.len + 1 }
  | none => do
    let validity ← validityAppendFalseC b.validity
    return { b with validity := validity, len := b.len + 1 }

/-- indexing_buffer.rs:401-407 `clear`. -/
def clearC (b : BoolBuffer) : Counted BoolBuffer := do
  tick
  let values ← b.values.clearC
  let validity ← validityClearC b.validity
  return { values := values, validity := validity, len := 0 }

/-- One call. -/
def callC (b : BoolBuffer) : FillCall Empty Bool → Counted BoolBuffer
  | .push row => b.pushC row
  | .appendFrom src .. => nomatch src
  | .clear => b.clearC

/-- The same call, not counted. -/
def call (b : BoolBuffer) : FillCall Empty Bool → Res BoolBuffer
  | .push row => b.push row
  | .appendFrom src .. => nomatch src
  | .clear => .ok b.clear

end BoolBuffer
end Meerkat
