import Verif.Model.SegmentName
import Verif.Spec.Segment

set_option autoImplicit false

/-!
# Several segments in one directory

A segment writer is given a directory (segment_writer.rs:144) and makes its two files there by
`File::create`, which opens with `O_CREAT | O_TRUNC` and without `O_APPEND`: an existing file of that name is emptied, and
each open file writes at its own offset, the number of bytes it has written so far. The `content` of a `TokioFile` is
what was written through it; here it is carried over to the directory. Not modelled: removing and renaming
files (the code does neither), and permissions.
-/

namespace Meerkat

/-- The files of a directory, by name. -/
abbrev Dir := List Char → Option Bytes

namespace Dir

/-- Replace the content of a file. -/
def set (dir : Dir) (name : List Char) (file : Bytes) : Dir := fun n => if n = name then some file else dir n

/-- `pwrite`: what is between the end of the file and the offset reads as 0; writing nothing does nothing. -/
def overwrite (file : Bytes) (off : Nat) (bs : Bytes) : Bytes :=
  if bs = [] then file
  else (file ++ List.replicate (off - file.length) 0).take off ++ bs ++ file.drop (off + bs.length)

/-- What was written through an open file of that name between two moments reaches the directory. -/
def track (dir : Dir) (name : List Char) (before after : TokioFile) : Dir :=
  match dir name with
  | none => dir
  | some file =>
    dir.set name (overwrite file before.content.length (after.content.drop before.content.length))

end Dir

/-- An open segment: its id, what the operating system does with its files, and its writer. -/
structure OpenSegment where
  id : Bytes
  os : SegmentOs
  writer : SegmentWriter

/-- A directory and the segments being written in it. A segment is `none` once it was synced, which consumes it. -/
structure Store where
  dir : Dir
  segments : List (Option OpenSegment)

namespace Store

/-- What a segment wrote between two moments reaches the directory. -/
def trackSegment (dir : Dir) (id : Bytes) (before after : SegmentWriter) : Dir :=
  (dir.track (indexFileName id) before.indexWriter.file after.indexWriter.file).track (dataFileName id)
    before.dataWriter.file after.dataWriter.file

/-- segment_writer.rs:144-184 `SegmentWriter::new` in a directory: the index file is created first. -/
def createSegment (p : Profile) (os : SegmentOs) (info : SegmentInfo) (dir : Dir) :
    Except Fault SegmentWriter × Dir :=
  match Writer.new os.index with
  | .error e => (.error e, dir)
  | .ok indexWriter =>
    let dir := dir.set (indexFileName info.segmentId) []
    match Writer.new os.data with
    | .error e => (.error e, dir)
    | .ok dataWriter =>
      let dir := dir.set (dataFileName info.segmentId) []
      let s := SegmentWriter.initial info dataWriter indexWriter
      match SegmentWriter.writeHeaders p os s with
      | (.ok (), s') => (.ok s', trackSegment dir info.segmentId s s')
      | (.error e, s') => (.error e, trackSegment dir info.segmentId s s')

/-- What can be done in a directory: create a segment, do something with the `i`-th one created, sync it. -/
inductive Op where
  | create (info : SegmentInfo) (os : SegmentOs)
  | on (i : Nat) (op : SegOp)
  | sync (i : Nat)

/-- One operation. Nothing happens to segments that do not exist or were synced; a segment that could not be created
takes no number. -/
def run (p : Profile) : Op → Store → Store
  | .create info os, t =>
    match createSegment p os info t.dir with
    | (.ok w, dir) => { dir := dir, segments := t.segments ++ [some { id := info.segmentId, os := os, writer := w }] }
    | (.error _, dir) => { t with dir := dir }
  | .on i op, t =>
    match t.segments[i]? with
    | some (some g) =>
      let w := (op.run p g.os g.writer).2
      { dir := trackSegment t.dir g.id g.writer w, segments := t.segments.set i (some { g with writer := w }) }
    | _ => t
  | .sync i, t =>
    match t.segments[i]? with
    | some (some g) =>
      let w := (SegmentWriter.sync g.os g.writer).2
      { dir := trackSegment t.dir g.id g.writer w, segments := t.segments.set i none }
    | _ => t

/-- A history. -/
def runAll (p : Profile) (ops : List Op) (t : Store) : Store := ops.foldl (fun t op => run p op t) t

end Store
end Meerkat
