import Verif.Model.BlockWriter
import Verif.Model.Metadata

set_option autoImplicit false

/-! # Model of src/store/block_index.rs and src/store/block_sink.rs -/

namespace Meerkat

/-- block_index.rs:20-23 `struct BlockIndex`. -/
structure BlockIndex where
  blockOffset : List Nat
  blockRowId : List Nat
  deriving DecidableEq

namespace BlockIndex

/-- block_index.rs:26-31 `BlockIndex::new`. -/
def new : BlockIndex := { blockOffset := [], blockRowId := [] }

/-- block_index.rs:34-37 `index_block`. -/
def indexBlock (b : BlockIndex) (rowId offset : Nat) : BlockIndex :=
  { blockOffset := b.blockOffset ++ [offset], blockRowId := b.blockRowId ++ [rowId] }

/-- block_index.rs:40-43 `clear`. -/
def clear (_ : BlockIndex) : BlockIndex := { blockOffset := [], blockRowId := [] }

/-- block_index.rs:46-50 `flush`: does not use the writer. -/
def flush (_ : BlockIndex) : Run Writer RangeMessage := pure { range := some { start := 0, «end» := 0 } }

end BlockIndex

/-- block_sink.rs:22-25 and 40-46 `BlockSinkImpl`: writes the block, then indexes the position reached. -/
def blockSink (p : Profile) (os : Os) : Sink (Writer × BlockIndex) where
  write s rowId data :=
    match Writer.writeBlock p os data s.1 with
    | (.ok (), w) => (.ok (), (w, s.2.indexBlock rowId w.pos))
    | (.error e, w) => (.error e, (w, s.2))

end Meerkat
