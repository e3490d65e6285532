import Verif.Model.Prelude

set_option autoImplicit false

/-! # Model of `Bitmap` (src/store/indexing_buffer.rs:23-91) -/

namespace Meerkat

/-- indexing_buffer.rs:23 (and bitmap_rle.rs:21) `const BIT_MASK: [u8; 8]`. -/
def BIT_MASK : List UInt8 := [1, 2, 4, 8, 16, 32, 64, 128]

/-- indexing_buffer.rs:24 `const INITIAL_BITMAP_CAP: usize = 1024` (bytes). -/
def INITIAL_BITMAP_CAP : Nat := 1024

/-- indexing_buffer.rs:32-35 `pub struct Bitmap { values: Vec<u8>, len: usize }`. -/
structure Bitmap where
  values : Bytes
  len : Nat
  deriving DecidableEq, Repr

namespace Bitmap

/-- indexing_buffer.rs:38-43 `Bitmap::new`. -/
def new : Bitmap := { values := List.replicate INITIAL_BITMAP_CAP 0, len := 0 }

/-- indexing_buffer.rs:45-50 `Bitmap::with_capacity`. -/
def withCapacity (cap : Nat) : Bitmap := { values := List.replicate (cap >>> 3) 0, len := 0 }

/-- indexing_buffer.rs:52-64 `Bitmap::append`. `self.len += 1` is on a `usize` counting bits held
in memory and is not checked for overflow here. -/
def append (m : Bitmap) (set : Bool) : Res Bitmap := do
  let idx := m.len >>> 3
  let values := if idx = m.values.length then resize m.values (m.values.length * 2) 0 else m.values
  if set then
    let old ← index values idx
    let mask ← index BIT_MASK (m.len &&& 7)
    return { values := values.set idx (old ||| mask), len := m.len + 1 }
  else
    return { values := values, len := m.len + 1 }

/-- indexing_buffer.rs:78-81 `Bitmap::is_set`: asserts `idx < len`, then indexes the byte. -/
def isSet (m : Bitmap) (idx : Nat) : Res Bool := do
  if idx < m.len then
    let b ← index m.values (idx >>> 3)
    let mask ← index BIT_MASK (idx &&& 7)
    return (b &&& mask) != 0
  else
    .error .assertion

/-- indexing_buffer.rs:69-75, the `while items < num_of_items` loop of `append_from`.
`remaining = num_of_items - items`. Each iteration either panics in `is_set` (position past the
end) or moves `bit_pos` forward, so `src.len - bit_pos` bounds the iterations. -/
def appendFromLoop (dst src : Bitmap) (bitPos remaining : Nat) : Res (Bitmap × Nat) :=
  if remaining = 0 then .ok (dst, bitPos)
  else if _h : bitPos < src.len then do
    let b ← src.isSet bitPos
    let dst ← dst.append b
    appendFromLoop dst src (bitPos + 1) (remaining - b.toNat)
  else .error .assertion
termination_by src.len - bitPos

/-- indexing_buffer.rs:66-76 `Bitmap::append_from(&mut self, src, start_pos, num_of_items)`;
returns the new destination and the returned position. -/
def appendFrom (dst src : Bitmap) (startPos numOfItems : Nat) : Res (Bitmap × Nat) :=
  appendFromLoop dst src startPos numOfItems

/-- indexing_buffer.rs:87-90 `Bitmap::clear`: the length is reset and the vector is resized, but
bytes that stay in the vector are not zeroed. -/
def clear (m : Bitmap) : Bitmap :=
  { len := 0, values := resize m.values INITIAL_BITMAP_CAP 0 }

/-- A sequence of `append` calls. -/
def appendAll (m : Bitmap) (bits : List Bool) : Res Bitmap := bits.foldlM append m

end Bitmap
end Meerkat
