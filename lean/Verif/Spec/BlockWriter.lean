import Verif.Model.BlockWriter

set_option autoImplicit false

/-! # What the block writer should do -/

namespace Meerkat

/-- The bytes of the pending background write. -/
def TokioFile.pending (f : TokioFile) : Bytes := f.inflight.getD []

/-- What the file holds when the background write `f.inflight`, if any, is over. -/
def syncedBytes (os : Os) (f : TokioFile) : Bytes :=
  match f.inflight, os.writes f.numWrites with
  | none, _ => f.content
  | some c, .done => f.content ++ c
  | some c, .failed k => f.content ++ c.dropLast.take k

/-- Calls on a block writer. -/
inductive WriterOp where
  | write (block : Bytes)
  | flush
  | sync
  deriving DecidableEq, Repr

/-- The call itself. -/
def WriterOp.run (p : Profile) (os : Os) : WriterOp → Run Writer Unit
  | .write b => Writer.writeBlock p os b
  | .flush => Writer.flush os
  | .sync => Writer.sync os

/-- A caller that makes the calls one after the other, whatever they return, and keeps the results. -/
def runOps (p : Profile) (os : Os) : List WriterOp → Writer → List (WriterOp × Except Fault Unit) × Writer
  | [], w => ([], w)
  | op :: ops, w =>
    let (r, w) := op.run p os w
    let (rs, w) := runOps p os ops w
    ((op, r) :: rs, w)

/-- The bytes of the blocks given to a list of calls. -/
def bytesGiven : List WriterOp → Bytes
  | [] => []
  | .write b :: ops => b ++ bytesGiven ops
  | _ :: ops => bytesGiven ops

/-- A write or a flush succeeded (what a sync returns does not matter). -/
def Accepted : WriterOp × Except Fault Unit → Prop
  | (.sync, _) => True
  | (_, r) => r = .ok ()

/-- Number of writes and flushes that returned an I/O error. -/
def reported : List (WriterOp × Except Fault Unit) → Nat
  | [] => 0
  | (.sync, _) :: rs => reported rs
  | (_, r) :: rs => (if r = .error .io then 1 else 0) + reported rs

/-- Number of background writes that failed, from the one with number `a` to the one before `b`. -/
def failedBetween (os : Os) (a b : Nat) : Nat :=
  ((List.range b).filter (fun i => a ≤ i ∧ os.writes i ≠ .done)).length

end Meerkat
