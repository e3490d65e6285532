import Verif.Model.SegmentWriter

set_option autoImplicit false

/-!
# Model of src/store/index/mod.rs and of a column writer that has a column index

Nothing implements `ColumnIndex`, and `new_binary_column_writer` always gives a column writer without one (line 216), so that
`Verif.Model.SegmentWriter` leaves out the branches for `Some`. Here they are, for any implementation. That the two models agree
on column writers without an index is part of C88.
-/

namespace Meerkat

/-- index/mod.rs:20-24 `trait ColumnIndex<BinaryBuffer>`: `ι` is the type that implements it. Both calls may fail or panic. -/
structure ColumnIndex (ι : Type) where
  index : BinaryBuffer → Run ι Unit
  flush : Run (ι × Writer) ColumnIndexLayout

/-- segment_writer.rs:259-266 `struct ColumnWriter` with its `column_index`. -/
structure IndexedColumnWriter (ι : Type) where
  column : ColumnWriter
  columnIndex : Option ι

namespace IndexedColumnWriter
variable {ι : Type}

/-- A call that has nothing to do with the column index. -/
def onColumn {α : Type} (m : Run (ColumnWriter × SegmentWriter) α) : Run (IndexedColumnWriter ι × SegmentWriter) α :=
  fun s =>
    match m (s.1.column, s.2) with
    | (r, (c, w)) => (r, ({ s.1 with column := c }, w))

/-- segment_writer.rs:273-275. -/
def indexBuffer (ix : ColumnIndex ι) (buf : BinaryBuffer) : Run (IndexedColumnWriter ι × SegmentWriter) Unit := fun s =>
  match s.1.columnIndex with
  | some i =>
    match ix.index buf i with
    | (r, i) => (r, ({ s.1 with columnIndex := some i }, s.2))
  | none => (.ok (), s)

/-- segment_writer.rs:270-278 `write`. -/
def write (p : Profile) (os : SegmentOs) (ix : ColumnIndex ι) (buf : BinaryBuffer) :
    Run (IndexedColumnWriter ι × SegmentWriter) Unit := do
  onColumn (ColumnWriter.onSink (BinaryEncoder.encode p (blockSink p os.data) buf))
  indexBuffer ix buf

/-- segment_writer.rs:290-293. -/
def flushIndex (ix : ColumnIndex ι) : Run (IndexedColumnWriter ι × SegmentWriter) (Option ColumnIndexLayout) := fun s =>
  match s.1.columnIndex with
  | some i =>
    match ix.flush (i, s.2.indexWriter) with
    | (.ok l, (i, w)) => (.ok (some l), ({ s.1 with columnIndex := some i }, { s.2 with indexWriter := w }))
    | (.error f, (i, w)) => (.error f, ({ s.1 with columnIndex := some i }, { s.2 with indexWriter := w }))
  | none => (.ok none, s)

/-- segment_writer.rs:295-325. -/
def recordColumn (encoderLayout : EncoderLayout) (blockIndexLayout : RangeMessage)
    (columnIndexLayout : Option ColumnIndexLayout) : Run (ColumnWriter × SegmentWriter) Unit := fun s =>
  match ColumnWriter.insertColumn s.2.segmentMeta s.1.columnInfo.name (ColumnWriter.columnMeta s.1.columnInfo)
      { blockIndexLayout := some blockIndexLayout, columnIndexLayout, encoderLayout := some encoderLayout } with
  | .ok m => (.ok (), (s.1, { s.2 with segmentMeta := m }))
  | .error e => (.error (.panic e), s)

/-- segment_writer.rs:281-328 `close`. -/
def close (p : Profile) (os : SegmentOs) (ix : ColumnIndex ι) : Run (IndexedColumnWriter ι × SegmentWriter) Unit := do
  let encoderLayout ← onColumn (ColumnWriter.onSink (BinaryEncoder.flush p (blockSink p os.data)))
  let blockIndexLayout ← onColumn ColumnWriter.flushBlockIndex
  let columnIndexLayout ← flushIndex ix
  onColumn (recordColumn encoderLayout blockIndexLayout columnIndexLayout)

end IndexedColumnWriter
end Meerkat
