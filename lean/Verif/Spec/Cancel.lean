import Verif.Model.Cancel
import Verif.Spec.BlockWriter

set_option autoImplicit false

/-! # Histories of a block writer in which calls may be dropped -/

namespace Meerkat

/-- A call that is awaited to its end, or dropped. -/
inductive CutOp where
  | call (op : WriterOp)
  | writeCut (block : Bytes) (j : Nat)
  | flushCut

/-- A history in which every write and flush that is not dropped succeeds, and every dropped call was waiting. -/
def runCut (p : Profile) (os : Os) : List CutOp → Writer → Option Writer
  | [], w => some w
  | .call op :: ops, w =>
    match op.run p os w with
    | (.ok (), w) => runCut p os ops w
    | _ => none
  | .writeCut block j :: ops, w => (Writer.writeBlockCut p os block j w).bind (runCut p os ops)
  | .flushCut :: ops, w => (Writer.flushCut w).bind (runCut p os ops)

/-- How far the position runs ahead of the file: each dropped write was for its whole block and wrote `j` buffers. -/
def missing (os : Os) : List CutOp → Nat
  | [] => 0
  | .writeCut block j :: ops => (block.length - j * os.maxBuf) + missing os ops
  | _ :: ops => missing os ops

/-- The bytes that reach the file. -/
def bytesReached (os : Os) : List CutOp → Bytes
  | [] => []
  | .call (.write b) :: ops => b ++ bytesReached os ops
  | .writeCut block j :: ops => block.take (j * os.maxBuf) ++ bytesReached os ops
  | _ :: ops => bytesReached os ops

end Meerkat
