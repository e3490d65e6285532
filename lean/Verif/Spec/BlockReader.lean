import Verif.Model.BlockReader
import Verif.Model.BlockWriter

set_option autoImplicit false

/-! # What the block reader should do -/

namespace Meerkat

/-- The file has the range. -/
def InFile (file : Bytes) (range : BlockRange) : Prop :=
  range.start ≤ range.end ∧ (range.start = range.end ∨ range.end ≤ file.length)

/-- The bytes of the range. -/
def bytesOf (file : Bytes) (range : BlockRange) : Bytes :=
  (file.drop range.start).take (range.end - range.start)

/-- A caller that notes the position of the writer before and after each write and makes a read op of
them. Returns the ops, the results of the writes and the writer. -/
def writeAndNote (p : Profile) (os : Os) :
    List (Bytes × OpInfo) → Writer → List ReadOp × List (Except Fault Unit) × Writer
  | [], w => ([], [], w)
  | (block, info) :: rest, w =>
    let (r, w') := Writer.writeBlock p os block w
    let (ops, rs, w'') := writeAndNote p os rest w'
    ({ blockRange := { start := w.pos, «end» := w'.pos }, opInfo := info } :: ops, r :: rs, w'')

end Meerkat
