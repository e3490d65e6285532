import Verif.Spec.BlockReader
import Verif.Spec.Segment

set_option autoImplicit false

/-!
# What others see of a file while it is being written

A write that was handed to the background is done at any time, byte after byte. `SeenData` and `SeenIndex` list what can be seen
between the calls of a history; what can be seen during a call lies between what is seen before it and after it.
-/

namespace Meerkat

/-- Somebody who looks at the file may find `seen`: the pending background write is done up to some byte. -/
def Visible (os : Os) (f : TokioFile) (seen : Bytes) : Prop :=
  f.content <+: seen ∧ seen <+: syncedBytes os f

instance (os : Os) (f : TokioFile) (seen : Bytes) : Decidable (Visible os f seen) := by
  unfold Visible; infer_instance

/-- `seen` can be seen in the data file at some moment while `ops` are run from `s` on. -/
def SeenData (p : Profile) (os : SegmentOs) (ops : List SegOp) (s : SegmentWriter) (seen : Bytes) : Prop :=
  ∃ a b, ops = a ++ b ∧ Visible os.data (runSeg p os a s).2.dataWriter.file seen

/-- The same for the index file. -/
def SeenIndex (p : Profile) (os : SegmentOs) (ops : List SegOp) (s : SegmentWriter) (seen : Bytes) : Prop :=
  ∃ a b, ops = a ++ b ∧ Visible os.index (runSeg p os a s).2.indexWriter.file seen

end Meerkat
