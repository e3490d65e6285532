import Verif.Model.Buffers
import Verif.Model.Sink

set_option autoImplicit false

/-!
# What a call on a buffer leaves when it panics

A panic unwinds: whoever holds the buffer and catches the panic (a task of the runtime, a thread that is joined) finds
it as the statements executed so far have left it. `Model/Bitmap.lean` and `Model/Buffers.lean` give the results of the
calls; here the same calls are state transformers that keep the state in both cases. `Proofs/Unwind.lean` proves that the
results are the same. `is_set` and the other accessors change nothing at all.
-/

namespace Meerkat

/-- indexing_buffer.rs:52-64 `Bitmap::append`: the vector is resized before the index can panic. -/
def Bitmap.appendRun (set : Bool) : Run Bitmap Unit := fun m =>
  let idx := m.len >>> 3
  let values := if idx = m.values.length then resize m.values (m.values.length * 2) 0 else m.values
  if set then
    match index values idx, index BIT_MASK (m.len &&& 7) with
    | .ok old, .ok mask => (.ok (), { values := values.set idx (old ||| mask), len := m.len + 1 })
    | .error x, _ => (.error (.panic x), { m with values := values })
    | .ok _, .error x => (.error (.panic x), { m with values := values })
  else (.ok (), { values := values, len := m.len + 1 })

/-- indexing_buffer.rs:66-76 `Bitmap::append_from`, as `Bitmap.appendFromLoop`: the bits appended before a panic stay. -/
def Bitmap.appendFromRun (src : Bitmap) (bitPos remaining : Nat) : Run Bitmap Nat := fun dst =>
  if remaining = 0 then (.ok bitPos, dst)
  else if _h : bitPos < src.len then
    match src.isSet bitPos with
    | .error x => (.error (.panic x), dst)
    | .ok b =>
      match appendRun b dst with
      | (.error x, dst) => (.error x, dst)
      | (.ok (), dst) => appendFromRun src (bitPos + 1) (remaining - b.toNat) dst
  else (.error (.panic .assertion), dst)
termination_by src.len - bitPos

/-- indexing_buffer.rs:143-153 and 271-280, the validity part of the two `append_from` methods. -/
def validityAppendFromRun (src : Option Bitmap) (validityPos n : Nat) : Run (Option Bitmap) Nat := fun dst =>
  match src, dst with
  | some vsrc, some vdst =>
    let (r, d) := vsrc.appendFromRun validityPos n vdst
    (r, some d)
  | some _, none => (.error (.panic .expect), none)
  | none, none => (.ok n, none)
  | none, some d => (.error (.panic .assertion), some d)

/-- indexing_buffer.rs:116-118, 231-233, 359-361, `if let Some(ref mut validity) = self.validity { validity.append(true); }`. -/
def validityAppendTrueRun : Run (Option Bitmap) Unit := fun v =>
  match v with
  | some bm =>
    let (r, bm) := Bitmap.appendRun true bm
    (r, some bm)
  | none => (.ok (), none)

/-- indexing_buffer.rs:124-127, 238-241, 367-370, `match self.validity { Some(ref mut v) => v.append(false), None => panic!(..) }`. -/
def validityAppendFalseRun : Run (Option Bitmap) Unit := fun v =>
  match v with
  | some bm =>
    let (r, bm) := Bitmap.appendRun false bm
    (r, some bm)
  | none => (.error (.panic .expect), none)

section
variable {α : Type}

/-- indexing_buffer.rs:123-128 `PrimitiveBuffer::append_null`. -/
def PrimitiveBuffer.appendNullRun : Run (PrimitiveBuffer α) Unit := fun b =>
  let (r, v) := validityAppendFalseRun b.validity
  (r, { b with validity := v })

/-- indexing_buffer.rs:114-119 `PrimitiveBuffer::append`: the value is pushed first. -/
def PrimitiveBuffer.appendRun (value : α) : Run (PrimitiveBuffer α) Unit := fun b =>
  let (r, v) := validityAppendTrueRun b.validity
  (r, { values := b.values ++ [value], validity := v })

/-- indexing_buffer.rs:130-154 `PrimitiveBuffer::append_from`: the values are copied before anything else is checked. -/
def PrimitiveBuffer.appendFromRun (buf : PrimitiveBuffer α) (start «end» validityPos : Nat) :
    Run (PrimitiveBuffer α) Nat := fun b =>
  match slice buf.values start «end» with
  | .error x => (.error (.panic x), b)
  | .ok chunk =>
    let b := { b with values := b.values ++ chunk }
    if U32_MAX > b.values.length then
      let (r, v) := validityAppendFromRun buf.validity validityPos («end» - start) b.validity
      (r, { b with validity := v })
    else (.error (.panic .assertion), b)

end

/-- indexing_buffer.rs:227-234 `BinaryBuffer::append`: the bytes are copied before their number is checked. -/
def BinaryBuffer.appendRun (value : Bytes) : Run BinaryBuffer Unit := fun b =>
  let data := b.data ++ value
  if data.length ≤ U32_MAX then
    let (r, v) := validityAppendTrueRun b.validity
    (r, { data := data, offsets := b.offsets ++ [data.length], validity := v })
  else (.error (.panic .expect), { b with data := data })

/-- indexing_buffer.rs:261-264, the loop of `BinaryBuffer::append_from` on the offsets of the destination. -/
def BinaryBuffer.appendFromOffsetsRun (p : Profile) (buf : BinaryBuffer) : Nat → Nat → Nat → Run (List Nat) Unit
  | 0, _, _ => fun os => (.ok (), os)
  | k + 1, i, last => fun os =>
    match buf.itemLen p i with
    | .error x => (.error (.panic x), os)
    | .ok l =>
      match p.add 32 last l with
      | .error x => (.error (.panic x), os)
      | .ok last => appendFromOffsetsRun p buf k (i + 1) last (os ++ [last])

/-- indexing_buffer.rs:248-281 `BinaryBuffer::append_from`: the offsets are pushed one by one, then the bytes are copied,
and only then their number and the validity are looked at. -/
def BinaryBuffer.appendFromRun (p : Profile) (buf : BinaryBuffer) (start «end» validityPos : Nat) :
    Run BinaryBuffer Nat := fun b =>
  match index buf.offsets start with
  | .error x => (.error (.panic x), b)
  | .ok startOffset =>
    match index buf.offsets «end» with
    | .error x => (.error (.panic x), b)
    | .ok endOffset =>
      match p.sub 64 «end» start with
      | .error x => (.error (.panic x), b)
      | .ok chunkLen =>
        match appendFromOffsetsRun p buf («end» - start) start ((b.offsets.getLast?).getD 0) b.offsets with
        | (.error x, os) => (.error x, { b with offsets := os })
        | (.ok (), os) =>
          let b := { b with offsets := os }
          match slice buf.data startOffset endOffset with
          | .error x => (.error (.panic x), b)
          | .ok chunk =>
            let b := { b with data := b.data ++ chunk }
            if U32_MAX > b.data.length then
              let (r, v) := validityAppendFromRun buf.validity validityPos chunkLen b.validity
              (r, { b with validity := v })
            else (.error (.panic .assertion), b)

/-- indexing_buffer.rs:357-363 `BoolBuffer::append`: the value is appended first, the length counted last. -/
def BoolBuffer.appendRun (value : Bool) : Run BoolBuffer Unit := fun b =>
  match Bitmap.appendRun value b.values with
  | (.error x, values) => (.error x, { b with values := values })
  | (.ok (), values) =>
    match validityAppendTrueRun b.validity with
    | (.error x, v) => (.error x, { b with values := values, validity := v })
    | (.ok (), v) => (.ok (), { values := values, validity := v, len := b.len + 1 })

/-- indexing_buffer.rs:237-242 `BinaryBuffer::append_null`. -/
def BinaryBuffer.appendNullRun : Run BinaryBuffer Unit := fun b =>
  let (r, v) := validityAppendFalseRun b.validity
  (r, { b with validity := v })

/-- indexing_buffer.rs:366-372 `BoolBuffer::append_null`. -/
def BoolBuffer.appendNullRun : Run BoolBuffer Unit := fun b =>
  match validityAppendFalseRun b.validity with
  | (.error x, v) => (.error x, { b with validity := v })
  | (.ok (), v) => (.ok (), { b with validity := v, len := b.len + 1 })

/-- What a panic in `append_from` leaves. -/
def PrimitiveBuffer.appendFromLeft {α : Type} (b buf : PrimitiveBuffer α) (start «end» validityPos : Nat) :
    PrimitiveBuffer α := (appendFromRun buf start «end» validityPos b).2

/-- What a panic in `append_from` leaves. -/
def BinaryBuffer.appendFromLeft (p : Profile) (b buf : BinaryBuffer) (start «end» validityPos : Nat) : BinaryBuffer :=
  (appendFromRun p buf start «end» validityPos b).2

end Meerkat
