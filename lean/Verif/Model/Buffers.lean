import Verif.Model.Bitmap

set_option autoImplicit false

/-! # Model of the column buffers (src/store/indexing_buffer.rs:93-408) -/

namespace Meerkat

/-- `u32::MAX`. -/
def U32_MAX : Nat := 2 ^ 32 - 1

/-- The `match nullable { true => Some(Bitmap::new()), false => None }` of the three constructors
(indexing_buffer.rs:102-105, 214-217, 344-347). -/
def newValidity (nullable : Bool) : Option Bitmap := if nullable then some Bitmap.new else none

/-- `if let Some(ref mut validity) = self.validity { validity.append(true); }`
(indexing_buffer.rs:116-118, 231-233, 359-361). -/
def validityAppendTrue (v : Option Bitmap) : Res (Option Bitmap) :=
  match v with
  | some bm => do return some (← bm.append true)
  | none => .ok none

/-- `match self.validity { Some(ref mut v) => v.append(false), None => panic!(..) }`
(indexing_buffer.rs:124-127, 238-241, 367-370). -/
def validityAppendFalse (v : Option Bitmap) : Res (Option Bitmap) :=
  match v with
  | some bm => do return some (← bm.append false)
  | none => .error .expect

/-- The validity part shared by the two `append_from` methods (indexing_buffer.rs:143-153 and
271-280). `n` is the number of items copied; returns the new validity and the returned position. -/
def validityAppendFrom (dst src : Option Bitmap) (validityPos n : Nat) :
    Res (Option Bitmap × Nat) :=
  match src with
  | some vsrc =>
    match dst with
    | some vdst => do
      let (d, pos) ← vdst.appendFrom vsrc validityPos n
      return (some d, pos)
    | none => .error .expect
  | none =>
    match dst with
    | none => .ok (none, n)
    | some _ => .error .assertion

/-- indexing_buffer.rs:95-98 `struct PrimitiveBuffer<T> { values: Vec<T>, validity: Option<Bitmap> }`. -/
structure PrimitiveBuffer (α : Type) where
  values : List α
  validity : Option Bitmap
  deriving DecidableEq, Repr

namespace PrimitiveBuffer
variable {α : Type}

/-- indexing_buffer.rs:101-111 `PrimitiveBuffer::new`. -/
def new (nullable : Bool) : PrimitiveBuffer α := { values := [], validity := newValidity nullable }

/-- indexing_buffer.rs:114-119 `append`. -/
def append (b : PrimitiveBuffer α) (value : α) : Res (PrimitiveBuffer α) := do
  let validity ← validityAppendTrue b.validity
  return { values := b.values ++ [value], validity := validity }

/-- indexing_buffer.rs:123-128 `append_null`. -/
def appendNull (b : PrimitiveBuffer α) : Res (PrimitiveBuffer α) := do
  let validity ← validityAppendFalse b.validity
  return { b with validity := validity }

/-- indexing_buffer.rs:130-154 `append_from(&mut self, buf, start, end, validity_pos)`. -/
def appendFrom (b : PrimitiveBuffer α) (buf : PrimitiveBuffer α) (start «end» validityPos : Nat) :
    Res (PrimitiveBuffer α × Nat) := do
  let chunk ← slice buf.values start «end»
  let values := b.values ++ chunk
  if U32_MAX > values.length then
    let numValues := «end» - start
    let (validity, pos) ← validityAppendFrom b.validity buf.validity validityPos numValues
    return ({ values := values, validity := validity }, pos)
  else
    .error .assertion

/-- indexing_buffer.rs:164-166 `validity` (despite its comment it does not panic). -/
def validityRef (b : PrimitiveBuffer α) : Res (Option Bitmap) := .ok b.validity

/-- indexing_buffer.rs:169-171 `len` (the number of non-null values, despite its comment). -/
def len (b : PrimitiveBuffer α) : Nat := b.values.length

/-- indexing_buffer.rs:174-179 `num_values`. -/
def numValues (b : PrimitiveBuffer α) : Nat :=
  match b.validity with
  | some v => v.len
  | none => b.values.length

/-- indexing_buffer.rs:182-184 `is_nullable`. -/
def isNullable (b : PrimitiveBuffer α) : Bool := b.validity.isSome

/-- indexing_buffer.rs:187-192 `has_nulls`; the subtraction is on `usize`. -/
def hasNulls (p : Profile) (b : PrimitiveBuffer α) : Res Bool :=
  match b.validity with
  | some v => do
    let d ← p.sub 64 v.len b.values.length
    return d != 0
  | none => .ok false

/-- indexing_buffer.rs:195-200 `clear`. -/
def clear (b : PrimitiveBuffer α) : PrimitiveBuffer α :=
  { values := [], validity := b.validity.map Bitmap.clear }

/-- One call: `append(v)` for `some v`, `append_null()` for `none`. -/
def push (b : PrimitiveBuffer α) (row : Option α) : Res (PrimitiveBuffer α) :=
  match row with
  | some v => b.append v
  | none => b.appendNull

/-- A sequence of calls. -/
def pushAll (b : PrimitiveBuffer α) (rows : List (Option α)) : Res (PrimitiveBuffer α) :=
  rows.foldlM push b

end PrimitiveBuffer

/-- indexing_buffer.rs:206-210 `struct BinaryBuffer`. Offsets are `u32` values. -/
structure BinaryBuffer where
  data : Bytes
  offsets : List Nat
  validity : Option Bitmap
  deriving DecidableEq, Repr

namespace BinaryBuffer

/-- indexing_buffer.rs:213-224 `BinaryBuffer::new`. -/
def new (nullable : Bool) : BinaryBuffer :=
  { data := [], offsets := [0], validity := newValidity nullable }

/-- indexing_buffer.rs:227-234 `append`: `try_into::<u32>().expect(..)` on the new data length. -/
def append (b : BinaryBuffer) (value : Bytes) : Res BinaryBuffer := do
  let data := b.data ++ value
  if data.length ≤ U32_MAX then
    let validity ← validityAppendTrue b.validity
    return { data := data, offsets := b.offsets ++ [data.length], validity := validity }
  else
    .error .expect

/-- indexing_buffer.rs:237-242 `append_null`. -/
def appendNull (b : BinaryBuffer) : Res BinaryBuffer := do
  let validity ← validityAppendFalse b.validity
  return { b with validity := validity }

/-- indexing_buffer.rs:244-246 `item_len`: a `u32` subtraction. -/
def itemLen (p : Profile) (b : BinaryBuffer) (idx : Nat) : Res Nat := do
  let hi ← index b.offsets (idx + 1)
  let lo ← index b.offsets idx
  p.sub 32 hi lo

/-- indexing_buffer.rs:261-264, the `for i in start..end` loop of `append_from`: `k` iterations
starting at item `i`; `last` is `last_item_offset`; returns the pushed offsets. -/
def appendFromOffsets (p : Profile) (buf : BinaryBuffer) : Nat → Nat → Nat → Res (List Nat)
  | 0, _, _ => .ok []
  | k + 1, i, last => do
    let l ← buf.itemLen p i
    let last ← p.add 32 last l
    let rest ← appendFromOffsets p buf k (i + 1) last
    return last :: rest

/-- indexing_buffer.rs:248-281 `append_from(&mut self, buf, start, end, validity_pos)`. -/
def appendFrom (p : Profile) (b buf : BinaryBuffer) (start «end» validityPos : Nat) :
    Res (BinaryBuffer × Nat) := do
  let startOffset ← index buf.offsets start
  let endOffset ← index buf.offsets «end»
  let chunkLen ← p.sub 64 «end» start
  let last := (b.offsets.getLast?).getD 0
  let pushed ← appendFromOffsets p buf («end» - start) start last
  let chunk ← slice buf.data startOffset endOffset
  let data := b.data ++ chunk
  if U32_MAX > data.length then
    let (validity, pos) ← validityAppendFrom b.validity buf.validity validityPos chunkLen
    return ({ data := data, offsets := b.offsets ++ pushed, validity := validity }, pos)
  else
    .error .assertion

/-- indexing_buffer.rs:300-302 `len` = `offsets.len() - 1` (a `usize` subtraction; the offsets
vector is never empty: `new` puts one element in it and `clear` keeps one). -/
def len (b : BinaryBuffer) : Nat := b.offsets.length - 1

/-- indexing_buffer.rs:295-297 `validity` (despite its comment it does not panic). -/
def validityRef (b : BinaryBuffer) : Res (Option Bitmap) := .ok b.validity

/-- indexing_buffer.rs:305-310 `num_values`. -/
def numValues (b : BinaryBuffer) : Nat :=
  match b.validity with
  | some v => v.len
  | none => b.len

/-- indexing_buffer.rs:313-315 `is_nullable`. -/
def isNullable (b : BinaryBuffer) : Bool := b.validity.isSome

/-- indexing_buffer.rs:318-323 `has_nulls`. -/
def hasNulls (p : Profile) (b : BinaryBuffer) : Res Bool :=
  match b.validity with
  | some v => do
    let d ← p.sub 64 v.len b.len
    return d != 0
  | none => .ok false

/-- indexing_buffer.rs:326-332 `clear`. -/
def clear (b : BinaryBuffer) : BinaryBuffer :=
  { data := [], offsets := b.offsets.take 1, validity := b.validity.map Bitmap.clear }

/-- One call: `append(v)` for `some v`, `append_null()` for `none`. -/
def push (b : BinaryBuffer) (row : Option Bytes) : Res BinaryBuffer :=
  match row with
  | some v => b.append v
  | none => b.appendNull

/-- A sequence of calls. -/
def pushAll (b : BinaryBuffer) (rows : List (Option Bytes)) : Res BinaryBuffer :=
  rows.foldlM push b

end BinaryBuffer

/-- indexing_buffer.rs:336-340 `struct BoolBuffer`. -/
structure BoolBuffer where
  values : Bitmap
  validity : Option Bitmap
  len : Nat
  deriving DecidableEq, Repr

namespace BoolBuffer

/-- indexing_buffer.rs:343-354 `BoolBuffer::new`. -/
def new (nullable : Bool) : BoolBuffer :=
  { values := Bitmap.new, validity := newValidity nullable, len := 0 }

/-- indexing_buffer.rs:357-363 `append`. -/
def append (b : BoolBuffer) (value : Bool) : Res BoolBuffer := do
  let values ← b.values.append value
  let validity ← validityAppendTrue b.validity
  return { values := values, validity := validity, len := b.len + 1 }

/-- indexing_buffer.rs:366-372 `append_null`. -/
def appendNull (b : BoolBuffer) : Res BoolBuffer := do
  let validity ← validityAppendFalse b.validity
  return { b with validity := validity, len := b.len + 1 }

/-- indexing_buffer.rs:391-393 `is_nullable`. -/
def isNullable (b : BoolBuffer) : Bool := b.validity.isSome

/-- indexing_buffer.rs:396-398 `has_nulls`. -/
def hasNulls (b : BoolBuffer) : Bool := !(b.values.len == b.len)

/-- indexing_buffer.rs:381-383 `validity`: panics if the buffer is not nullable. -/
def validityRef (b : BoolBuffer) : Res Bitmap :=
  match b.validity with
  | some v => .ok v
  | none => .error .expect

/-- indexing_buffer.rs:401-407 `clear`. -/
def clear (b : BoolBuffer) : BoolBuffer :=
  { values := b.values.clear, validity := b.validity.map Bitmap.clear, len := 0 }

/-- One call: `append(v)` for `some v`, `append_null()` for `none`. -/
def push (b : BoolBuffer) (row : Option Bool) : Res BoolBuffer :=
  match row with
  | some v => b.append v
  | none => b.appendNull

/-- A sequence of calls. -/
def pushAll (b : BoolBuffer) (rows : List (Option Bool)) : Res BoolBuffer :=
  rows.foldlM push b

end BoolBuffer
end Meerkat
