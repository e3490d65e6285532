import Verif.Spec.Crash
import Verif.Model.Store

set_option autoImplicit false

/-!
# What a crash may leave of a directory

POSIX lets the name of a file get lost until the directory it was created in has been synced, which the code never does: the fsync
of the file is about its bytes. Many file systems write the name of a new file together with its bytes all the same; `keeps` says
that the file system is one of those.
-/

namespace Meerkat

/-- What may be found after a crash under a name that was created for the open file `f`. -/
def NameAfterCrash (keeps : Bool) (f : TokioFile) (found : Option Bytes) : Prop :=
  (found = none ∧ ¬ (keeps = true ∧ f.synced ≠ [])) ∨ ∃ disk, found = some disk ∧ AfterCrash f disk

/-- What may be found after a crash in the directory `dir` in which the files of the segment `id` were created; neither name
was in use before. -/
structure DirAfterCrash (keeps : Bool) (dir : Dir) (id : Bytes) (s : SegmentWriter) (found : Dir) : Prop where
  others : ∀ name, name ≠ indexFileName id → name ≠ dataFileName id → found name = dir name
  index : NameAfterCrash keeps s.indexWriter.file (found (indexFileName id))
  data : NameAfterCrash keeps s.dataWriter.file (found (dataFileName id))

end Meerkat
