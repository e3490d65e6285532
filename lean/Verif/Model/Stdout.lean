import Verif.Model.Server

set_option autoImplicit false

/-!
# The main function when the standard output cannot be written

`println!` panics when the write fails, except that a descriptor that is not open (`EBADF`) counts as a successful write. A line of the
subscriber (`tracing_subscriber::fmt`) that cannot be written is dropped.
-/

namespace Meerkat

/-- What becomes of a write to the standard output. -/
inductive Stdout where
  | works
  /-- the descriptor is not open -/
  | closed
  /-- any other error: a pipe nobody reads from, a full disk -/
  | fails
  deriving DecidableEq, Repr

/-- `println!`. -/
def Process.println (out : Stdout) (line : String) (s : Process) : Res Process :=
  match out with
  | .works => .ok { s with printed := s.printed ++ [line] }
  | .closed => .ok s
  | .fails => .error .expect

/-- main.rs:45-73 `main`, once the arguments are parsed. -/
def mainOn (out : Stdout) (b : BuiltInfo) (args : Args) (s : Process) : Res (Server × Process) := do
  let s ← s.println out ("meerkat " ++ shortInfo b)
  let server := Server.new (configOf args)
  let s ← server.start s
  pure (server, s)

end Meerkat
