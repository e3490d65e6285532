import Verif.Model.Seeds

set_option autoImplicit false

/-!
# Model of src/server/mod.rs, src/build/mod.rs and the rest of src/main.rs

Of the logging crates only this matters: a process has at most one global subscriber; `set_global_default` installs it
and fails if there is one already; `LogTracer::init` may fail and its result is dropped (server/mod.rs:53); `info!`
hands a line to the global subscriber, or does nothing if there is none. Parsing of the command line (structopt/clap) is not
modelled: `main` is given the parsed arguments. The build information is generated by the crate `built`; it is a
parameter. Printing to a standard output that cannot be written is in Model/Stdout.lean.
-/

namespace Meerkat

/-- server/mod.rs:20-25 `struct Config`. The path is a list of bytes. -/
structure Config where
  dbPath : Bytes
  gossipPort : UInt16
  seeds : List (List Char)
  deriving DecidableEq

/-- main.rs:25-37 `struct Args`. -/
structure Args where
  dbPath : Bytes
  gossipPort : UInt16
  seeds : Option (List Char)

/-- What a process shares between servers: whether a global subscriber is installed, and the lines it received or that
were printed. -/
structure Process where
  subscriber : Bool
  logged : List String
  printed : List String
  deriving DecidableEq

/-- `info!`. -/
def Process.info (msg : String) (s : Process) : Process :=
  if s.subscriber then { s with logged := s.logged ++ [msg] } else s

/-- server/mod.rs:27-29 `struct Meerkat`. -/
structure Server where
  conf : Config
  deriving DecidableEq

namespace Server

/-- server/mod.rs:32-34 `new`. -/
def new (conf : Config) : Server := { conf }

/-- server/mod.rs:49-56 `init_logging`: the `expect` panics if there is a global subscriber. -/
def initLogging (s : Process) : Res Process :=
  if s.subscriber then .error .expect else .ok { s with subscriber := true }

/-- server/mod.rs:36-41 `start`. -/
def start (_ : Server) (s : Process) : Res Process := do
  let s ← initLogging s
  pure (s.info "starting")

/-- server/mod.rs:43-47 `stop`. -/
def stop (_ : Server) (s : Process) : Res Process := pure (s.info "stopping")

end Server

/-- What the crate `built` generates (build/mod.rs:16-18). -/
structure BuiltInfo where
  gitVersion : Option String
  profile : String
  rustcVersion : String
  target : String
  builtTimeUtc : String

/-- build/mod.rs:14 `UNKNOWN`. -/
def UNKNOWN : String := "<unknown>"

/-- build/mod.rs:20-26 `short_info`. -/
def shortInfo (b : BuiltInfo) : String := b.gitVersion.getD UNKNOWN ++ " (" ++ b.profile ++ ") "

/-- build/mod.rs:28-37 `long_info`. -/
def longInfo (b : BuiltInfo) : String :=
  "version: " ++ b.gitVersion.getD UNKNOWN ++ " profile: " ++ b.profile ++ " rustc: " ++ b.rustcVersion ++ " target: " ++
    b.target ++ " built time: " ++ b.builtTimeUtc

/-- main.rs:57-66: the configuration made from the arguments. -/
def configOf (args : Args) : Config :=
  { dbPath := args.dbPath, gossipPort := args.gossipPort, seeds := parseSeeds args.seeds }

/-- main.rs:45-73 `main`, once the arguments are parsed: the server and the process it leaves. -/
def main (b : BuiltInfo) (args : Args) (s : Process) : Res (Server × Process) := do
  let s := { s with printed := s.printed ++ ["meerkat " ++ shortInfo b] }
  let server := Server.new (configOf args)
  let s ← server.start s
  pure (server, s)

end Meerkat
