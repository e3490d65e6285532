import Verif.Model.SegmentWriter
import Verif.Spec.BlockWriter
import Verif.Spec.Sink

set_option autoImplicit false

/-! # Histories of a segment, and what the files should hold after them -/

namespace Meerkat

/-- Calls on a column writer. -/
inductive ColOp where
  | write (buf : BinaryBuffer)
  | close

/-- The call itself. -/
def ColOp.run (p : Profile) (os : SegmentOs) : ColOp → Run (ColumnWriter × SegmentWriter) Unit
  | .write b => ColumnWriter.write p os b
  | .close => ColumnWriter.close p os

/-- A caller that makes the calls one after the other, whatever they return, and keeps the results. -/
def runColOps (p : Profile) (os : SegmentOs) : List ColOp → ColumnWriter × SegmentWriter →
    List (ColOp × Except Fault Unit) × (ColumnWriter × SegmentWriter)
  | [], s => ([], s)
  | op :: ops, s =>
    let (r, s) := op.run p os s
    let (rs, s) := runColOps p os ops s
    ((op, r) :: rs, s)

/-- What can be done with a segment writer: write a column (make a column writer, call it, drop it), or
close the segment, the hash maps being iterated in some order. -/
inductive SegOp where
  | column (info : ColumnInfo) (ops : List ColOp)
  | close (order : HashOrder)

/-- What came of it. -/
inductive SegResult where
  /-- `new_binary_column_writer` failed -/
  | rejected (info : ColumnInfo)
  | column (info : ColumnInfo) (results : List (ColOp × Except Fault Unit))
  | closed (result : Except Fault Unit)

/-- One item of a history. -/
def SegOp.run (p : Profile) (os : SegmentOs) : SegOp → SegmentWriter → SegResult × SegmentWriter
  | .column info ops, s =>
    match SegmentWriter.newBinaryColumnWriter info s with
    | (.error _, s) => (.rejected info, s)
    | (.ok c, s) =>
      let (rs, (_, s)) := runColOps p os ops (c, s)
      (.column info rs, s)
  | .close order, s =>
    let (r, s) := SegmentWriter.close p os order s
    (.closed r, s)

/-- A history: the items are done one after the other, whatever comes of them. -/
def runSeg (p : Profile) (os : SegmentOs) : List SegOp → SegmentWriter → List SegResult × SegmentWriter
  | [], s => ([], s)
  | op :: ops, s =>
    let (r, s) := op.run p os s
    let (rs, s) := runSeg p os ops s
    (r :: rs, s)

/-- No call failed, except that an encoding may have been refused. -/
def SegResult.Good : SegResult → Prop
  | .rejected _ => True
  | .column _ rs => ∀ x ∈ rs, x.2 = .ok ()
  | .closed r => r = .ok ()

/-- The call with a sink that only records. -/
def ColOp.alone (p : Profile) : ColOp → Run (BinaryEncoder × List (Nat × Bytes)) Unit
  | .write b => BinaryEncoder.encode p recorder b
  | .close => do
    let _ ← BinaryEncoder.flush p recorder
    pure ()

/-- Calls with a sink that only records. -/
def aloneOps (p : Profile) : List ColOp → Run (BinaryEncoder × List (Nat × Bytes)) Unit
  | [] => pure ()
  | op :: ops => do
    op.alone p
    aloneOps p ops

/-- The blocks, with their row ids, that a column produces alone: none if its encoding is refused. -/
def blocksAlone (p : Profile) (info : ColumnInfo) (ops : List ColOp) : List (Nat × Bytes) :=
  match newBinaryEncoder info.encoding BLOCK_SIZE info.nullable with
  | .ok e => (aloneOps p ops (e, [])).2.2
  | .error _ => []

/-- The bytes of blocks, one after the other. -/
def concatBlocks (bs : List (Nat × Bytes)) : Bytes := (bs.map Prod.snd).flatten

/-- The bytes of the columns of a history, one after the other. -/
def columnBytes (p : Profile) : List SegOp → Bytes
  | [] => []
  | .column info ops :: rest => concatBlocks (blocksAlone p info ops) ++ columnBytes p rest
  | .close _ :: rest => columnBytes p rest

/-- The entries `(row id, offset)` describe the blocks of `file` from `start` on: each block is the bytes
between the offset of the entry before (or `start`) and its own offset. -/
def Brackets (file : Bytes) : Nat → List (Nat × Nat) → List (Nat × Bytes) → Prop
  | _, [], [] => True
  | start, e :: es, b :: bs =>
    e.1 = b.1 ∧ start ≤ e.2 ∧ e.2 ≤ file.length ∧ (file.drop start).take (e.2 - start) = b.2 ∧ Brackets file e.2 es bs
  | _, _, _ => False

/-- The entries of a block index. -/
def BlockIndex.entries (b : BlockIndex) : List (Nat × Nat) := b.blockRowId.zip b.blockOffset

/-- The number whose little-endian bytes are given. -/
def leNumber : Bytes → Nat
  | [] => 0
  | b :: bs => b.toNat + 256 * leNumber bs

/-- The column, once for each of its closes that succeeded. -/
def goodCloses (info : ColumnInfo) (rs : List (ColOp × Except Fault Unit)) : List ColumnInfo :=
  (rs.filter (fun x => (match x.1 with | .close => true | .write _ => false) && decide (x.2 = .ok ()))).map
    (fun _ => info)

/-- The columns closed in a history, in order; one may be closed several times. -/
def closedColumns : List SegResult → List ColumnInfo
  | [] => []
  | .column info rs :: rest => goodCloses info rs ++ closedColumns rest
  | _ :: rest => closedColumns rest

/-- The last column closed under a name. -/
def lastClosed (results : List SegResult) (name : String) : Option ColumnInfo :=
  (closedColumns results).reverse.find? (fun i => i.name = name)

/-- segment_metadata.proto:17-28, in the order of the numbers. -/
def protoColumnTypes : List ColumnType :=
  [.bool, .datetime, .decimal, .dynamic, .float64, .guid, .int32, .int64, .string, .timespan]

/-- segment_metadata.proto:30-36, in the order of the numbers. -/
def protoEncodings : List Encoding := [.raw, .bitPacked, .deltaBinaryPacked, .rleDictionary, .snappy]

/-- segment_metadata.proto:38-43, in the order of the numbers. -/
def protoIndexTypes : List IndexType := [.noIndex, .fullText, .brin, .kdtree]

/-- The metadata entry of a column: kinds are stored as their numbers in segment_metadata.proto. -/
def DescribesColumn (info : ColumnInfo) (m : ColumnMeta) : Prop :=
  m.name = info.name ∧ m.columnType.toInt = protoColumnTypes.idxOf info.columnType ∧ m.nullable = info.nullable ∧
  m.encoding.toInt = protoEncodings.idxOf info.encoding ∧ m.indexType.toInt = protoIndexTypes.idxOf info.indexType

/-- The bytes of a text of ASCII characters. -/
def ascii (s : String) : Bytes := s.toList.map fun c => c.toNat.toUInt8

/-- The layout entry of a column: it names the kind of encoder used and no column index. -/
def LaysOut (info : ColumnInfo) (l : ColumnLayout) : Prop :=
  l.columnIndexLayout = none ∧
  l.encoderLayout = some (if info.encoding = .snappy then .snappy else .plain) ∧
  l.blockIndexLayout.isSome

end Meerkat
