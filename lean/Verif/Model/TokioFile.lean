import Verif.Model.Sink

set_option autoImplicit false

/-!
# `tokio::fs::File` as used by the block writer

The `tokio` crate (1.12, Cargo.lock) is not part of /repo; this is a model of its documented and
well-known behaviour. A write copies at most `maxBuf` bytes of its argument to a buffer, hands the
buffer to a background thread and returns; the result of the background write is seen by the next
write, flush or sync, each of which first waits for it. A write or flush reports the error of the
background write it waited for; a sync keeps it for the next write or flush. `write_all` repeats
`write` until its whole argument was taken, and does not call `write` at all on an empty argument.

What the operating system does is given by an arbitrary `Os`: each background write either writes its
whole buffer or fails after some bytes (never after all: `std::io::Write::write_all` returns when it has
written the last one), each fsync succeeds or fails. At most one background write is pending, and it may
take place at any time before something waits for it; it is applied to `content` at that moment.
Not modelled: the cancellation of the background task at runtime shutdown.
-/

namespace Meerkat

/-- What the operating system does with a background write. -/
inductive Outcome where
  | done
  /-- an error is returned after at most `written` bytes; at least one byte was not written then -/
  | failed (written : Nat)
  deriving DecidableEq, Repr

/-- What the operating system does with one file: the outcome of its successive background writes and
of its successive fsyncs; whether the file can be created; and the size of the write buffer. -/
structure Os where
  writes : Nat → Outcome
  syncs : Nat → Bool
  creates : Bool
  maxBuf : Nat

/-- A `tokio::fs::File` opened by `File::create` together with the file it refers to. -/
structure TokioFile where
  /-- bytes written to the file by background writes that were waited for -/
  content : Bytes
  /-- buffer of the background write that was not waited for yet -/
  inflight : Option Bytes
  /-- `last_write_err` -/
  lastErr : Bool
  /-- number of background writes waited for -/
  numWrites : Nat
  /-- number of fsyncs -/
  numSyncs : Nat
  /-- content of the file at the last successful fsync -/
  synced : Bytes

namespace TokioFile

/-- The file just after `File::create`: empty, whatever was there before. -/
def empty : TokioFile :=
  { content := [], inflight := none, lastErr := false, numWrites := 0, numSyncs := 0, synced := [] }

/-- `File::create`. -/
def create (os : Os) : Except Fault TokioFile := if os.creates then .ok empty else .error .io

/-- Wait for the pending background write, if any, and return its result. -/
def complete (os : Os) : Run TokioFile Unit := fun f =>
  match f.inflight with
  | none => (.ok (), f)
  | some chunk =>
    match os.writes f.numWrites with
    | .done => (.ok (), { f with content := f.content ++ chunk, inflight := none, numWrites := f.numWrites + 1 })
    | .failed k =>
      (.error .io, { f with content := f.content ++ chunk.dropLast.take k, inflight := none, numWrites := f.numWrites + 1 })

/-- The error kept by a sync, if any: returned once. -/
def takeErr : Run TokioFile Unit := fun f =>
  if f.lastErr then (.error .io, { f with lastErr := false }) else (.ok (), f)

/-- Start a background write of `chunk`. -/
def spawn (chunk : Bytes) : Run TokioFile Nat := fun f =>
  (.ok chunk.length, { f with inflight := some chunk })

/-- An `Err`. -/
def fail : Run TokioFile Unit := fun f => (.error .io, f)

/-- `poll_write` until it is ready: returns the number of bytes taken. -/
def write (os : Os) (src : Bytes) : Run TokioFile Nat := do
  takeErr
  complete os
  spawn (src.take os.maxBuf)

/-- `AsyncWriteExt::write_all`, at most `fuel` writes; taking no byte is the error `WriteZero`. -/
def writeAllFuel (os : Os) : Nat → Bytes → Run TokioFile Unit
  | 0, src => if src = [] then pure () else Run.lift (.error .diverge)
  | fuel + 1, src =>
    if src = [] then pure ()
    else do
      let n ← write os src
      if n = 0 then fail else writeAllFuel os fuel (src.drop n)

/-- `AsyncWriteExt::write_all`; every write takes at least a byte or ends the loop. -/
def writeAll (os : Os) (src : Bytes) : Run TokioFile Unit := writeAllFuel os src.length src

/-- `AsyncWriteExt::flush`. -/
def flush (os : Os) : Run TokioFile Unit := do
  takeErr
  complete os

/-- `File::sync_all`: waits for the pending write, keeps its error for the next write or flush, then
calls fsync and returns the result of that only. -/
def syncAll (os : Os) : Run TokioFile Unit := fun f =>
  let f := match flush os f with
    | (.ok (), f) => f
    | (.error _, f) => { f with lastErr := true }
  if os.syncs f.numSyncs then
    (.ok (), { f with numSyncs := f.numSyncs + 1, synced := f.content })
  else
    (.error .io, { f with numSyncs := f.numSyncs + 1 })

end TokioFile
end Meerkat
