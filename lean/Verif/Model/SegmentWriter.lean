import Verif.Model.BlockSink
import Verif.Model.Encoders

set_option autoImplicit false

/-!
# Model of src/store/segment_writer.rs

`column_index` of a column writer is always `None` (line 216; no type implements `ColumnIndex`), so the
branches for `Some` are left out. A column writer borrows the segment writer: the two are the state of
its calls. The names of the files are in `Verif.Model.SegmentName`.
-/

namespace Meerkat

/-- segment_writer.rs:108 `DATA_FILE_SIGNATURE`: `b"MEERKAT_DATA1"`. -/
def DATA_FILE_SIGNATURE : Bytes := [77, 69, 69, 82, 75, 65, 84, 95, 68, 65, 84, 65, 49]

/-- segment_writer.rs:109 `INDEX_FILE_SIGNATURE`: `b"MEERKAT_IDX1"`. -/
def INDEX_FILE_SIGNATURE : Bytes := [77, 69, 69, 82, 75, 65, 84, 95, 73, 68, 88, 49]

/-- segment_writer.rs:112 `BLOCK_SIZE`. -/
def BLOCK_SIZE : Nat := 1 <<< 7

/-- segment_writer.rs:115-121 `struct ColumnInfo`. -/
structure ColumnInfo where
  name : String
  columnType : ColumnType
  encoding : Encoding
  indexType : IndexType
  nullable : Bool

/-- segment_writer.rs:124-130 `struct SegmentInfo`; the id is 16 bytes. -/
structure SegmentInfo where
  segmentId : Bytes
  databaseName : String
  tableName : String
  shardId : UInt32
  numRows : UInt32

/-- What the operating system does with the two files. -/
structure SegmentOs where
  data : Os
  index : Os

/-- The orders in which the two hash maps of the metadata are iterated when it is encoded. -/
structure HashOrder where
  columnsMeta : StringMap ColumnMeta → StringMap ColumnMeta
  columnsLayout : StringMap ColumnLayout → StringMap ColumnLayout
  columnsMeta_perm : ∀ m, (columnsMeta m).Perm m
  columnsLayout_perm : ∀ m, (columnsLayout m).Perm m

/-- The metadata with its maps in iteration order. -/
def HashOrder.apply (o : HashOrder) (m : Metadata) : Metadata :=
  { segmentMeta := m.segmentMeta.map fun s => { s with columnsMeta := o.columnsMeta s.columnsMeta },
    columnsLayout := o.columnsLayout m.columnsLayout }

/-- segment_writer.rs:133-138 `struct SegmentWriter`. -/
structure SegmentWriter where
  dataWriter : Writer
  indexWriter : Writer
  blockIndex : BlockIndex
  segmentMeta : Metadata

/-- segment_writer.rs:259-266 `struct ColumnWriter`, apart from what it borrows. -/
structure ColumnWriter where
  columnInfo : ColumnInfo
  encoder : BinaryEncoder

namespace SegmentWriter

/-- A call on the index writer. -/
def onIndex {α : Type} (m : Run Writer α) : Run SegmentWriter α := fun s =>
  match m s.indexWriter with
  | (r, w) => (r, { s with indexWriter := w })

/-- A call on the data writer. -/
def onData {α : Type} (m : Run Writer α) : Run SegmentWriter α := fun s =>
  match m s.dataWriter with
  | (r, w) => (r, { s with dataWriter := w })

/-- segment_writer.rs:186-196 `write_headers`. -/
def writeHeaders (p : Profile) (os : SegmentOs) : Run SegmentWriter Unit := do
  onIndex (Writer.writeBlock p os.index INDEX_FILE_SIGNATURE)
  onData (Writer.writeBlock p os.data DATA_FILE_SIGNATURE)

/-- segment_writer.rs:162-179, the segment writer before the headers are written. -/
def initial (info : SegmentInfo) (dataWriter indexWriter : Writer) : SegmentWriter :=
  { dataWriter, indexWriter, blockIndex := BlockIndex.new,
    segmentMeta :=
      { segmentMeta := some
          { segmentId := info.segmentId, tableName := info.tableName, databaseName := info.databaseName,
            shardId := info.shardId, compressedSize := 0, uncompressedSize := 0, numRows := info.numRows,
            columnsMeta := [] },
        columnsLayout := [] } }

/-- segment_writer.rs:144-184 `SegmentWriter::new`. -/
def new (p : Profile) (os : SegmentOs) (info : SegmentInfo) : Except Fault SegmentWriter := do
  let indexWriter ← Writer.new os.index
  let dataWriter ← Writer.new os.data
  match writeHeaders p os (initial info dataWriter indexWriter) with
  | (.ok (), s) => .ok s
  | (.error e, _) => .error e

/-- segment_writer.rs:199-218 `new_binary_column_writer`: the block index is cleared first. -/
def newBinaryColumnWriter (info : ColumnInfo) : Run SegmentWriter ColumnWriter := fun s =>
  let s := { s with blockIndex := s.blockIndex.clear }
  match newBinaryEncoder info.encoding BLOCK_SIZE info.nullable with
  | .ok e => (.ok { columnInfo := info, encoder := e }, s)
  | .error f => (.error f, s)

/-- `u64::to_le_bytes`. -/
def leBytes64 (n : Nat) : Bytes := (List.range 8).map fun i => UInt8.ofNat (n / 256 ^ i % 256)

/-- segment_writer.rs:221-243 `close`. -/
def close (p : Profile) (os : SegmentOs) (order : HashOrder) : Run SegmentWriter Unit := fun s =>
  let metadataBytes := Prost.encodeMetadata (order.apply s.segmentMeta)
  let metadataPos := s.indexWriter.pos
  (do
    onIndex (Writer.writeBlock p os.index metadataBytes)
    onIndex (Writer.writeBlock p os.index (leBytes64 metadataPos))
    onIndex (Writer.flush os.index)
    onData (Writer.flush os.data) : Run SegmentWriter Unit) s

/-- segment_writer.rs:246-255 `sync`. -/
def sync (os : SegmentOs) : Run SegmentWriter Unit := do
  onIndex (Writer.sync os.index)
  onData (Writer.sync os.data)

end SegmentWriter

namespace ColumnWriter

/-- A call of the encoder with the sink made of the data writer and the block index (line 208). -/
def onSink {α : Type} (m : Run (BinaryEncoder × (Writer × BlockIndex)) α) :
    Run (ColumnWriter × SegmentWriter) α := fun s =>
  match m (s.1.encoder, (s.2.dataWriter, s.2.blockIndex)) with
  | (r, (e, (w, b))) => (r, ({ s.1 with encoder := e }, { s.2 with dataWriter := w, blockIndex := b }))

/-- segment_writer.rs:270-278 `write`. -/
def write (p : Profile) (os : SegmentOs) (buf : BinaryBuffer) : Run (ColumnWriter × SegmentWriter) Unit :=
  onSink (BinaryEncoder.encode p (blockSink p os.data) buf)

/-- segment_writer.rs:284-288, flushing the block index to the index file. -/
def flushBlockIndex : Run (ColumnWriter × SegmentWriter) RangeMessage := fun s =>
  match s.2.blockIndex.flush s.2.indexWriter with
  | (r, w) => (r, (s.1, { s.2 with indexWriter := w }))

/-- segment_writer.rs:296-308. -/
def columnMeta (info : ColumnInfo) : ColumnMeta :=
  { name := info.name, columnType := info.columnType.toInt32, nullable := info.nullable,
    encoding := info.encoding.toInt32, cardinality := 0, indexType := info.indexType.toInt32, numValues := 0,
    numNulls := 0, compressedSize := 0, uncompressedSize := 0, stats := none }

/-- segment_writer.rs:316-325; the `unwrap` of line 319 panics if there is no segment metadata. -/
def insertColumn (m : Metadata) (name : String) (cm : ColumnMeta) (cl : ColumnLayout) : Res Metadata :=
  match m.segmentMeta with
  | none => .error .expect
  | some s => .ok { segmentMeta := some { s with columnsMeta := s.columnsMeta.insert name cm },
                    columnsLayout := m.columnsLayout.insert name cl }

/-- segment_writer.rs:295-325. -/
def recordColumn (encoderLayout : EncoderLayout) (blockIndexLayout : RangeMessage) :
    Run (ColumnWriter × SegmentWriter) Unit := fun s =>
  match insertColumn s.2.segmentMeta s.1.columnInfo.name (columnMeta s.1.columnInfo)
      { blockIndexLayout := some blockIndexLayout, columnIndexLayout := none,
        encoderLayout := some encoderLayout } with
  | .ok m => (.ok (), (s.1, { s.2 with segmentMeta := m }))
  | .error e => (.error (.panic e), s)

/-- segment_writer.rs:281-328 `close`. -/
def close (p : Profile) (os : SegmentOs) : Run (ColumnWriter × SegmentWriter) Unit := do
  let encoderLayout ← onSink (BinaryEncoder.flush p (blockSink p os.data))
  let blockIndexLayout ← flushBlockIndex
  recordColumn encoderLayout blockIndexLayout

end ColumnWriter
end Meerkat
