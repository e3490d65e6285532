import Verif.Model.Cancel
import Verif.Model.Store

set_option autoImplicit false

/-!
# Creations and syncs that stop before their end

`SegmentWriter::new` and `SegmentWriter::sync` wait for the background threads too: for an open, a write or an fsync.
If their future is dropped meanwhile, that one goes on; it may also never have been started, when the runtime
shuts down. What was written in the background at the end of a file that was dropped is part of the file in the end.
-/

namespace Meerkat

/-- The file once its background write has taken place. -/
def TokioFile.settle (os : Os) (f : TokioFile) : TokioFile := (TokioFile.complete os f).2

/-- Both files of a segment once their background writes have taken place. -/
def SegmentWriter.settle (os : SegmentOs) (s : SegmentWriter) : SegmentWriter :=
  { s with
    dataWriter := { s.dataWriter with file := TokioFile.settle os.data s.dataWriter.file }
    indexWriter := { s.indexWriter with file := TokioFile.settle os.index s.indexWriter.file } }

/-- How a creation can stop: with an error; dropped while it waits for the open of the index file or of the data
file, which may take place all the same; or dropped at the write number `j` of one of the signatures. -/
inductive CreateStop where
  | failed
  | indexFile (opened : Bool)
  | dataFile (opened : Bool)
  | indexHeader (j : Nat)
  | dataHeader (j : Nat)

namespace Store

/-- segment_writer.rs:144-196 `SegmentWriter::new` that stops before its end: the directory it leaves once the background
writes have taken place. `none` if it cannot stop there. -/
def createStopped (p : Profile) (os : SegmentOs) (info : SegmentInfo) (dir : Dir) : CreateStop → Option Dir
  | .failed =>
    match Writer.new os.index with
    | .error _ => some dir
    | .ok indexWriter =>
      let dir := dir.set (indexFileName info.segmentId) []
      match Writer.new os.data with
      | .error _ => some dir
      | .ok dataWriter =>
        let dir := dir.set (dataFileName info.segmentId) []
        let s := SegmentWriter.initial info dataWriter indexWriter
        match SegmentWriter.writeHeaders p os s with
        | (.ok (), _) => none
        | (.error _, s') => some (trackSegment dir info.segmentId s (s'.settle os))
  | .indexFile opened =>
    some (if opened && os.index.creates then dir.set (indexFileName info.segmentId) [] else dir)
  | .dataFile opened =>
    match Writer.new os.index with
    | .error _ => none
    | .ok _ =>
      let dir := dir.set (indexFileName info.segmentId) []
      some (if opened && os.data.creates then dir.set (dataFileName info.segmentId) [] else dir)
  | .indexHeader j =>
    match Writer.new os.index, Writer.new os.data with
    | .ok indexWriter, .ok dataWriter =>
      let dir := (dir.set (indexFileName info.segmentId) []).set (dataFileName info.segmentId) []
      let s := SegmentWriter.initial info dataWriter indexWriter
      (Writer.writeBlockCut p os.index INDEX_FILE_SIGNATURE j s.indexWriter).map fun w =>
        trackSegment dir info.segmentId s ({ s with indexWriter := w }.settle os)
    | _, _ => none
  | .dataHeader j =>
    match Writer.new os.index, Writer.new os.data with
    | .ok indexWriter, .ok dataWriter =>
      let dir := (dir.set (indexFileName info.segmentId) []).set (dataFileName info.segmentId) []
      let s := SegmentWriter.initial info dataWriter indexWriter
      match SegmentWriter.onIndex (Writer.writeBlock p os.index INDEX_FILE_SIGNATURE) s with
      | (.error _, _) => none
      | (.ok (), s1) =>
        (Writer.writeBlockCut p os.data DATA_FILE_SIGNATURE j s1.dataWriter).map fun w =>
          trackSegment dir info.segmentId s ({ s1 with dataWriter := w }.settle os)
    | _, _ => none

end Store

/-- Where `SegmentWriter::sync` waits: for the pending write of a file, or for its fsync, which may take place all the
same. -/
inductive SyncPoint where
  | indexWrite
  | indexFsync (done : Bool)
  | dataWrite
  | dataFsync (done : Bool)

/-- `File::sync_all` dropped while it waits for the fsync: the pending write was waited for, its error kept. -/
def TokioFile.fsyncCut (os : Os) (done : Bool) (f : TokioFile) : TokioFile :=
  if done then (TokioFile.syncAll os f).2
  else
    match TokioFile.flush os f with
    | (.ok (), f) => f
    | (.error _, f) => { f with lastErr := true }

/-- segment_writer.rs:246-255 `sync`, dropped while it waits: the segment as it is then. -/
def SegmentWriter.syncCut (os : SegmentOs) (s : SegmentWriter) : SyncPoint → Option SegmentWriter
  | .indexWrite => if s.indexWriter.file.Waits then some s else none
  | .indexFsync done =>
    some { s with indexWriter := { s.indexWriter with file := TokioFile.fsyncCut os.index done s.indexWriter.file } }
  | .dataWrite =>
    match SegmentWriter.onIndex (Writer.sync os.index) s with
    | (.ok (), s1) => if s1.dataWriter.file.Waits then some s1 else none
    | (.error _, _) => none
  | .dataFsync done =>
    match SegmentWriter.onIndex (Writer.sync os.index) s with
    | (.ok (), s1) =>
      some { s1 with dataWriter := { s1.dataWriter with file := TokioFile.fsyncCut os.data done s1.dataWriter.file } }
    | (.error _, _) => none

end Meerkat
