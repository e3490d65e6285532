import Verif.Model.TokioFile

set_option autoImplicit false

/-! # Model of src/store/io/default_block_writer.rs -/

namespace Meerkat

/-- default_block_writer.rs:25-28 `struct Writer { file: File, pos: u64 }`. -/
structure Writer where
  file : TokioFile
  pos : Nat

namespace Writer

/-- default_block_writer.rs:31-34 `Writer::new`. -/
def new (os : Os) : Except Fault Writer :=
  match TokioFile.create os with
  | .ok file => .ok { file := file, pos := 0 }
  | .error e => .error e

/-- A call on the file of the writer. -/
def onFile (m : Run TokioFile Unit) : Run Writer Unit := fun w =>
  match m w.file with
  | (r, f) => (r, { w with file := f })

/-- default_block_writer.rs:37-40 `write_block`: the position moves first, then the bytes are written. -/
def writeBlock (p : Profile) (os : Os) (block : Bytes) : Run Writer Unit := fun w =>
  match p.add 64 w.pos block.length with
  | .error e => (.error (.panic e), w)
  | .ok pos => onFile (TokioFile.writeAll os block) { w with pos := pos }

/-- default_block_writer.rs:43-45 `flush`. -/
def flush (os : Os) : Run Writer Unit := onFile (TokioFile.flush os)

/-- default_block_writer.rs:50-52 `sync`. -/
def sync (os : Os) : Run Writer Unit := onFile (TokioFile.syncAll os)

end Writer
end Meerkat
