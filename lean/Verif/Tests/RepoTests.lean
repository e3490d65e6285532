import Verif.Props.Segment

set_option autoImplicit false

/-!
# The tests of /repo, run on the model

Each `example` is one test of the code, transcribed: the calls are the same, the assertions are gathered
in one Boolean. They check the model, not the properties. The tests with random data (`bitmap_rnd_test`, `io_roundtrip`)
are instances of C01 and C45 and are left out.
-/

namespace Meerkat.RepoTests

open Varint

/-- `Result::unwrap` of a run, with the state it leaves. -/
def unwrapRun {σ : Type} (r : Except Fault Unit × σ) : Res σ :=
  match r with
  | (.ok (), s) => .ok s
  | (.error _, _) => .error .expect

/-! ## indexing_buffer.rs -/

/-- indexing_buffer.rs:436-457 `bitmap_append_from_test`. -/
example : (do
    let dst ← Bitmap.new.appendAll (List.replicate 6 true)
    let src ← Bitmap.new.appendAll [true, false, true, false, true]
    let (dst, numItems) ← dst.appendFrom src 0 2
    return dst.len = 9 && numItems = 3 && !(← dst.isSet 7) && (← dst.isSet 8) : Res Bool) = .ok true := by
  decide +kernel

/-- indexing_buffer.rs:459-479 `test_primitive_buffer`. -/
example : (do
    let b ← (PrimitiveBuffer.new false : PrimitiveBuffer Int32).append 1
    let b ← b.append 2
    let b ← b.append 3
    let ok := b.len = 3 && b.values.length = 3 && b.isNullable = false && (← b.hasNulls .debug) = false
    let b := b.clear
    return ok && b.len = 0 && b.values.length = 0 && b.isNullable = false && (← b.hasNulls .debug) = false
      : Res Bool) = .ok true := by
  decide +kernel

/-- indexing_buffer.rs:481-510 `test_primitive_nullable_buffer`. -/
example : (do
    let b ← (PrimitiveBuffer.new true : PrimitiveBuffer Int32).append 1
    let b ← b.append 2
    let b ← b.appendNull
    let b ← b.appendNull
    let b ← b.append 3
    let ok := b.len = 3 && b.numValues = 5 && b.isNullable = true && (← b.hasNulls .debug) = true
    let b := b.clear
    let ok := ok && b.len = 0 && b.values.length = 0 && b.isNullable = true && (← b.hasNulls .debug) = false
    let b ← b.append 10
    return ok && b.len = 1 && b.values.length = 1 && b.isNullable = true && (← b.hasNulls .debug) = false
      : Res Bool) = .ok true := by
  decide +kernel

/-- The bytes of an ASCII string. -/
def ascii (s : String) : Bytes := s.toList.map fun c => UInt8.ofNat c.toNat

/-- indexing_buffer.rs:512-539 `test_binary_buffer`. -/
example : (do
    let b ← (BinaryBuffer.new false).append (ascii "Liskov")
    let b ← b.append (ascii "Lamport")
    let b ← b.append (ascii "Gray")
    let ok := b.len = 3 && b.data.length = 17 && b.isNullable = false && (← b.hasNulls .debug) = false &&
      b.offsets = [0, 6, 13, 17]
    let b := b.clear
    let ok := ok && b.len = 0 && b.data.length = 0 && b.isNullable = false && (← b.hasNulls .debug) = false
    let _ ← b.append (ascii "Naur")
    return ok : Res Bool) = .ok true := by
  decide +kernel

/-- indexing_buffer.rs:541-571 `test_binary_nullable_buffer`. -/
example : (do
    let b ← (BinaryBuffer.new true).append (ascii "Liskov")
    let b ← b.appendNull
    let b ← b.appendNull
    let b ← b.append (ascii "Lamport")
    let b ← b.appendNull
    let b ← b.append (ascii "Gray")
    let ok := b.len = 3 && b.data.length = 17 && b.isNullable = true && (← b.hasNulls .debug) = true &&
      b.offsets = [0, 6, 13, 17]
    let b := b.clear
    let ok := ok && b.len = 0 && b.data.length = 0 && b.isNullable = true && (← b.hasNulls .debug) = false
    let _ ← b.append (ascii "Naur")
    return ok : Res Bool) = .ok true := by
  decide +kernel

/-- indexing_buffer.rs:573-604 `test_binary_append_from`. -/
example : (do
    let src ← (BinaryBuffer.new true).pushAll (List.replicate 10 none)
    let src ← src.append (ascii "Knuth")
    let dst ← (BinaryBuffer.new true).append (ascii "Liskov")
    let dst ← dst.appendNull
    let dst ← dst.appendNull
    let dst ← dst.append (ascii "Lamport")
    let dst ← dst.appendNull
    let dst ← dst.append (ascii "Gray")
    let dst ← dst.appendNull
    let (dst, _) ← dst.appendFrom .debug src 0 src.len 0
    return dst.len = 4 && dst.data.length = 22 && dst.isNullable = true && (← dst.hasNulls .debug) = true &&
      dst.offsets = [0, 6, 13, 17, 22] : Res Bool) = .ok true := by
  decide +kernel

/-- indexing_buffer.rs:606-627 `test_boolean_buffer`. -/
example : (do
    let b ← (BoolBuffer.new false).append true
    let b ← b.append true
    let b ← b.append false
    let b ← b.append true
    let ok := b.len = 4 && b.values.len = 4 && b.isNullable = false && b.hasNulls = false
    let b := b.clear
    let ok := ok && b.len = 0 && b.values.len = 0 && b.isNullable = false && b.hasNulls = false
    let _ ← b.append true
    return ok : Res Bool) = .ok true := by
  decide +kernel

/-- indexing_buffer.rs:629-651 `test_boolean_nullable_buffer`. -/
example : (do
    let b ← (BoolBuffer.new true).append true
    let b ← b.append true
    let b ← b.appendNull
    let b ← b.appendNull
    let b ← b.append false
    let b ← b.appendNull
    let b ← b.append true
    let ok := b.len = 7 && b.values.len = 4 && b.isNullable = true && b.hasNulls = true
    let b := b.clear
    let ok := ok && b.len = 0 && b.values.len = 0 && b.isNullable = true && b.hasNulls = false
    let _ ← b.append true
    return ok : Res Bool) = .ok true := by
  decide +kernel

/-! ## bitmap_rle.rs -/

/-- bitmap_rle.rs:315-322 `bit_positions`. -/
def bitPositions (values : List Bool) : List Nat :=
  (List.range values.length).filter fun i => values.getD i false

/-- bitmap_rle.rs:324-346 `roundtrip_test`, and the length asserted by its caller. -/
def roundtripTest (values : List Bool) (encodedLen : Nat) : Res Bool := do
  let e ← Rle.Encoder.new.putAll .debug values
  let e ← e.flush .debug
  let n := (bitPositions values).length
  let (d, numDecoded) ← (Rle.Decoder.new e.encodedValues (List.replicate n 0)).decode .debug
  return numDecoded = n && d.decodedData = bitPositions values && e.encodedValues.length = encodedLen

/-- bitmap_rle.rs:348-353 `test_roundtrip_run_1`. -/
example : roundtripTest (List.replicate 24 true) 2 = .ok true := by decide +kernel

/-- bitmap_rle.rs:355-360 `test_roundtrip_run_0`. -/
example : roundtripTest (List.replicate 24 false) 2 = .ok true := by decide +kernel

/-- bitmap_rle.rs:362-370 `test_test_literal`. -/
example : roundtripTest (List.replicate 8 false ++ List.replicate 8 true ++ List.replicate 8 false) 4 = .ok true := by
  decide +kernel

/-- bitmap_rle.rs:372-381 `test_test_literal_run_literal`. -/
example : roundtripTest (List.replicate 4 false ++ List.replicate 100 true ++ List.replicate 14 false ++
    List.replicate 14 true) 9 = .ok true := by
  decide +kernel

/-! ## varint.rs -/

/-- varint.rs:149-161 `check`. -/
def checkVarint (value : Nat) (expected : Bytes) : Res Bool := do
  let (buf, n) ← encodeVarint value (List.replicate MAX_VARINT_LEN 0)
  let ok := buf.take n = expected && encodedLenVarint value = n
  match ← decodeVarint .debug expected with
  | some (v, len) => return ok && v = value && len = expected.length
  | none => return false

/-- varint.rs:163-215 `varint`. -/
example : ([(0, [0x00]), (1, [0x01]), (2 ^ 7 - 1, [0x7F]), (2 ^ 7, [0x80, 0x01]), (300, [0xAC, 0x02]),
    (2 ^ 14 - 1, [0xFF, 0x7F]), (2 ^ 14, [0x80, 0x80, 0x01]),
    (2 ^ 21 - 1, [0xFF, 0xFF, 0x7F]), (2 ^ 21, [0x80, 0x80, 0x80, 0x01]),
    (2 ^ 28 - 1, [0xFF, 0xFF, 0xFF, 0x7F]), (2 ^ 28, [0x80, 0x80, 0x80, 0x80, 0x01]),
    (2 ^ 35 - 1, [0xFF, 0xFF, 0xFF, 0xFF, 0x7F]), (2 ^ 35, [0x80, 0x80, 0x80, 0x80, 0x80, 0x01]),
    (2 ^ 42 - 1, [0xFF, 0xFF, 0xFF, 0xFF, 0xFF, 0x7F]), (2 ^ 42, [0x80, 0x80, 0x80, 0x80, 0x80, 0x80, 0x01]),
    (2 ^ 49 - 1, [0xFF, 0xFF, 0xFF, 0xFF, 0xFF, 0xFF, 0x7F]),
    (2 ^ 49, [0x80, 0x80, 0x80, 0x80, 0x80, 0x80, 0x80, 0x01]),
    (2 ^ 56 - 1, [0xFF, 0xFF, 0xFF, 0xFF, 0xFF, 0xFF, 0xFF, 0x7F]),
    (2 ^ 56, [0x80, 0x80, 0x80, 0x80, 0x80, 0x80, 0x80, 0x80, 0x01]),
    (2 ^ 63 - 1, [0xFF, 0xFF, 0xFF, 0xFF, 0xFF, 0xFF, 0xFF, 0xFF, 0x7F]),
    (2 ^ 63, [0x80, 0x80, 0x80, 0x80, 0x80, 0x80, 0x80, 0x80, 0x80, 0x01]),
    (2 ^ 64 - 1, [0xFF, 0xFF, 0xFF, 0xFF, 0xFF, 0xFF, 0xFF, 0xFF, 0xFF, 0x01])] : List (Nat × Bytes)).all
      (fun c => checkVarint c.1 c.2 = .ok true) = true := by
  decide +kernel

/-! ## primitive_enc.rs and binary_enc.rs -/

/-- The numbers of blocks that the sink mock holds after `encode` and after `flush`. -/
def primitiveCounts (buf : PrimitiveBuffer Int32) (blockSize : Nat) : Res (Nat × Nat) := do
  let (e, l) ← unwrapRun (PrimitiveEnc.encode .debug recorder buf (PrimitiveEnc.Encoder.new blockSize true, []))
  let (_, l') ← unwrapRun (PrimitiveEnc.flush .debug recorder (e, l))
  return (l.length, l'.length)

/-- primitive_enc.rs:235-245 `test_remaining`. -/
example : (do primitiveCounts (← (PrimitiveBuffer.new true).append 10) 1000 : Res (Nat × Nat)) = .ok (0, 1) := by
  decide +kernel

/-- primitive_enc.rs:247-259 `test_encoder`, with 105 rows instead of 1005: the kernel takes a minute for 1005. -/
example : (do
    let buf ← (PrimitiveBuffer.new true).pushAll ((List.range 105).map fun i => some (Int32.ofNat i))
    primitiveCounts buf 100 : Res (Nat × Nat)) = .ok (4, 5) := by
  decide +kernel

/-- The same for the binary encoder. -/
def binaryCounts (buf : BinaryBuffer) (blockSize : Nat) : Res (Nat × Nat) := do
  let (e, l) ← unwrapRun (BinaryEnc.encode .debug recorder buf (BinaryEnc.Encoder.new blockSize true, []))
  let (_, l') ← unwrapRun (BinaryEnc.flush .debug recorder (e, l))
  return (l.length, l'.length)

/-- binary_enc.rs:262-272 `test_remaining`. -/
example : (do binaryCounts (← (BinaryBuffer.new true).append (ascii "test")) 1000 : Res (Nat × Nat)) = .ok (0, 1) := by
  decide +kernel

/-- binary_enc.rs:274-286 `test_encoder`. -/
example : (do
    let buf ← (BinaryBuffer.new true).pushAll [some (ascii "test1"), some (ascii "test2"), some (ascii "test3")]
    binaryCounts buf 10 : Res (Nat × Nat)) = .ok (1, 2) := by
  decide +kernel

/-! ## segment_writer.rs -/

/-- segment_writer.rs:337-372 `test_indexing_pipeline_scaffold`: no call fails. -/
example : (do
    let buf ← (BinaryBuffer.new false).append (ascii "test")
    let info : SegmentInfo :=
      { segmentId := List.replicate 16 7, databaseName := "test_db", tableName := "test_table", shardId := 4,
        numRows := 100000 }
    let col : ColumnInfo :=
      { encoding := .raw, nullable := false, name := "test columns", indexType := .noIndex, columnType := .string }
    match SegmentWriter.new .debug .reliable info with
    | .error _ => return false
    | .ok s =>
      match SegmentWriter.newBinaryColumnWriter col s with
      | (.error _, _) => return false
      | (.ok c, s) => do
        let (c, s) ← unwrapRun (ColumnWriter.write .debug .reliable buf (c, s))
        let (c, s) ← unwrapRun (ColumnWriter.write .debug .reliable buf (c, s))
        let (_, s) ← unwrapRun (ColumnWriter.close .debug .reliable (c, s))
        let s ← unwrapRun (SegmentWriter.close .debug .reliable .insertion s)
        let _ ← unwrapRun (SegmentWriter.sync .reliable s)
        return true : Res Bool) = .ok true := by
  decide +kernel

end Meerkat.RepoTests
