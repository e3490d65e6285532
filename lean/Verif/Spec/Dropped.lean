import Verif.Model.Cancel
import Verif.Spec.Segment

set_option autoImplicit false

/-! # Histories of a segment in which calls may be dropped -/

namespace Meerkat

/-- A call on a column writer that is awaited to its end, whatever it returns, or dropped. -/
inductive CutColOp where
  | call (op : ColOp)
  | writeCut (buf : BinaryBuffer) (n j : Nat)
  | closeCut (j : Nat)

/-- There is no such history if a dropped call does not come to the place where it is dropped, or does not wait there. -/
def CutColOp.run (p : Profile) (os : SegmentOs) : CutColOp → ColumnWriter × SegmentWriter →
    Option (ColumnWriter × SegmentWriter)
  | .call op, s => some (op.run p os s).2
  | .writeCut buf n j, s => ColumnWriter.writeCut p os buf n j s
  | .closeCut j, s => ColumnWriter.closeCut p os j s

def runCutColOps (p : Profile) (os : SegmentOs) : List CutColOp → ColumnWriter × SegmentWriter →
    Option (ColumnWriter × SegmentWriter)
  | [], s => some s
  | op :: ops, s => (op.run p os s).bind (runCutColOps p os ops)

/-- What is done with a segment writer: a column is written (and its writer given up at some time), or the segment is
closed, or a call that would close it is dropped. -/
inductive CutSegOp where
  | column (info : ColumnInfo) (ops : List CutColOp)
  | close (order : HashOrder)
  | closeCut (order : HashOrder) (point : ClosePoint)

def CutSegOp.run (p : Profile) (os : SegmentOs) : CutSegOp → SegmentWriter → Option SegmentWriter
  | .column info ops, s =>
    match SegmentWriter.newBinaryColumnWriter info s with
    | (.error _, s) => some s
    | (.ok c, s) => (runCutColOps p os ops (c, s)).map Prod.snd
  | .close order, s => some (SegmentWriter.close p os order s).2
  | .closeCut order point, s => SegmentWriter.closeCut p os order s point

/-- A history: the segment after it. -/
def runCutSeg (p : Profile) (os : SegmentOs) : List CutSegOp → SegmentWriter → Option SegmentWriter
  | [], s => some s
  | op :: ops, s => (op.run p os s).bind (runCutSeg p os ops)

/-- A dropped call of a column writer. All of them were writing a block. -/
def CutColOp.Dropped : CutColOp → Prop
  | .call _ => False
  | .writeCut .. => True
  | .closeCut _ => True

/-- A call that was writing to the data file is dropped. If the encoding of the column is refused, no call is made. -/
def CutSegOp.DropsData : CutSegOp → Prop
  | .column info ops => (∃ e, newBinaryEncoder info.encoding BLOCK_SIZE info.nullable = .ok e) ∧ ∃ op ∈ ops, op.Dropped
  | _ => False

/-- A close() that was writing to the index file is dropped. -/
def CutSegOp.DropsIndex : CutSegOp → Prop
  | .closeCut _ (.metadata _) => True
  | .closeCut _ (.footer _) => True
  | _ => False

end Meerkat
