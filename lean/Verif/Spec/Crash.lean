import Verif.Spec.BlockWriter

set_option autoImplicit false

/-!
# What a crash may leave of a file

The file is only appended to. What was there at the last successful fsync survives. Of what was
written later, the file system may have kept any length, and each byte may have reached the disk or not (it then
reads as 0). The pending background write may have taken place or not. The name of the file is taken to
survive with it; see Spec/DirCrash.lean for what may happen to it, as the code never syncs the directory.
-/

namespace Meerkat

/-- `disk` is a possible content of the file after a crash. -/
def AfterCrash (f : TokioFile) (disk : Bytes) : Prop :=
  f.synced <+: disk ∧ disk.length ≤ (f.content ++ f.pending).length ∧
  ∀ i, i < disk.length → disk[i]? = (f.content ++ f.pending)[i]? ∨ disk[i]? = some 0

end Meerkat
