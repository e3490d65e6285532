import Verif.Model.SegmentWriter

set_option autoImplicit false

/-!
# Calls whose future is dropped while it waits

A caller of an `async` function may drop the future it returned, for example when a timeout expires. The code then
stops at the `await` where the future was waiting. The only thing block writers wait for is the background write of
the `tokio::fs::File` (`TokioFile.complete`): `poll_write` returns without waiting if an error is kept or
nothing is pending. A future that was never polled did nothing at all. The background write goes on when the future
that waits for it is dropped.

For the futures of `sync`, `Writer::new` and `SegmentWriter::new` see Model/Interrupted.lean.
-/

namespace Meerkat

/-- The future waits for the background write. -/
def TokioFile.Waits (f : TokioFile) : Bool := !f.lastErr && f.inflight.isSome

/-- `AsyncWriteExt::write_all` dropped while its write number `j` (from 0) waits: the file as it is then. `none` if there is
no such write or if it does not wait. -/
def TokioFile.writeAllCut (os : Os) : Nat → Bytes → TokioFile → Option TokioFile
  | 0, src, f => if src ≠ [] ∧ f.Waits then some f else none
  | j + 1, src, f =>
    if src = [] then none
    else
      match TokioFile.write os src f with
      | (.ok n, f) => if n = 0 then none else writeAllCut os j (src.drop n) f
      | (.error _, _) => none

/-- default_block_writer.rs:37-40 `write_block`, dropped while the write number `j` of its `write_all` waits. -/
def Writer.writeBlockCut (p : Profile) (os : Os) (block : Bytes) (j : Nat) (w : Writer) : Option Writer :=
  match p.add 64 w.pos block.length with
  | .error _ => none
  | .ok pos => (TokioFile.writeAllCut os j block w.file).map fun f => { file := f, pos := pos }

/-- default_block_writer.rs:43-45 `flush`, dropped while it waits. -/
def Writer.flushCut (w : Writer) : Option Writer := if w.file.Waits then some w else none

/-- block_sink.rs:40-46 `write_block`; the call that offers the block number `n` is dropped while the write number `j` of
that block waits. The state has what is left of `n`, nothing once the future was dropped; the error stands for
not going on. -/
def cutSink (p : Profile) (os : Os) (j : Nat) : Sink ((Writer × BlockIndex) × Option Nat) where
  write s rowId data :=
    match s.2 with
    | some 0 =>
      match Writer.writeBlockCut p os data j s.1.1 with
      | some w => (.error .io, ((w, s.1.2), none))
      | none => (.error .io, s)
    | some (n + 1) =>
      match (blockSink p os).write s.1 rowId data with
      | (r, s') => (r, (s', some n))
    | none => (.error .io, s)

/-- segment_writer.rs:270-278 `ColumnWriter::write`, dropped while the write number `j` of its block number `n` waits. -/
def ColumnWriter.writeCut (p : Profile) (os : SegmentOs) (buf : BinaryBuffer) (n j : Nat)
    (s : ColumnWriter × SegmentWriter) : Option (ColumnWriter × SegmentWriter) :=
  match BinaryEncoder.encode p (cutSink p os.data j) buf (s.1.encoder, ((s.2.dataWriter, s.2.blockIndex), some n)) with
  | (_, (e, ((w, b), none))) => some ({ s.1 with encoder := e }, { s.2 with dataWriter := w, blockIndex := b })
  | _ => none

/-- segment_writer.rs:281-328 `ColumnWriter::close`, dropped while the write number `j` of the block offered by the encoder
waits. Nothing else in it waits: `BlockIndex::flush` writes nothing. -/
def ColumnWriter.closeCut (p : Profile) (os : SegmentOs) (j : Nat) (s : ColumnWriter × SegmentWriter) :
    Option (ColumnWriter × SegmentWriter) :=
  match BinaryEncoder.flush p (cutSink p os.data j) (s.1.encoder, ((s.2.dataWriter, s.2.blockIndex), some 0)) with
  | (_, (e, ((w, b), none))) => some ({ s.1 with encoder := e }, { s.2 with dataWriter := w, blockIndex := b })
  | _ => none

/-- Where `SegmentWriter::close` waits: at the write number `j` of the metadata or of the footer, or at one of the flushes. -/
inductive ClosePoint where
  | metadata (j : Nat)
  | footer (j : Nat)
  | flushIndex
  | flushData
  deriving DecidableEq

/-- segment_writer.rs:221-243 `SegmentWriter::close`, dropped while it waits. -/
def SegmentWriter.closeCut (p : Profile) (os : SegmentOs) (order : HashOrder) (s : SegmentWriter) :
    ClosePoint → Option SegmentWriter
  | .metadata j =>
    (Writer.writeBlockCut p os.index (Prost.encodeMetadata (order.apply s.segmentMeta)) j s.indexWriter).map
      fun w => { s with indexWriter := w }
  | .footer j =>
    match onIndex (Writer.writeBlock p os.index (Prost.encodeMetadata (order.apply s.segmentMeta))) s with
    | (.ok (), s1) => (Writer.writeBlockCut p os.index (leBytes64 s.indexWriter.pos) j s1.indexWriter).map
        fun w => { s1 with indexWriter := w }
    | (.error _, _) => none
  | .flushIndex =>
    match (do
      onIndex (Writer.writeBlock p os.index (Prost.encodeMetadata (order.apply s.segmentMeta)))
      onIndex (Writer.writeBlock p os.index (leBytes64 s.indexWriter.pos)) : Run SegmentWriter Unit) s with
    | (.ok (), s2) => (Writer.flushCut s2.indexWriter).map fun w => { s2 with indexWriter := w }
    | (.error _, _) => none
  | .flushData =>
    match (do
      onIndex (Writer.writeBlock p os.index (Prost.encodeMetadata (order.apply s.segmentMeta)))
      onIndex (Writer.writeBlock p os.index (leBytes64 s.indexWriter.pos))
      onIndex (Writer.flush os.index) : Run SegmentWriter Unit) s with
    | (.ok (), s3) => (Writer.flushCut s3.dataWriter).map fun w => { s3 with dataWriter := w }
    | (.error _, _) => none

end Meerkat
