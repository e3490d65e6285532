import Verif.Model.Prelude

set_option autoImplicit false

/-!
# Block sinks and calls that use them

encoding/mod.rs:34-43: `BlockSink` receives a row id and the bytes of a block and may fail;
`BlockEncoder` methods get the sink as `&mut S`. Calls are modelled as state transformers that keep
the state reached when they fail, since a caller that gets an `Err` still holds the encoder and the
sink. `async` calls of one encoder run one after the other: every method takes `&mut self`.
-/

namespace Meerkat

/-- How a call fails: a panic, or an `Err` of `anyhow::Result`. -/
inductive Fault where
  | panic (p : Panic)
  | io
  deriving DecidableEq, Repr

/-- A call on a mutable state `σ`. -/
def Run (σ α : Type) : Type := σ → Except Fault α × σ

namespace Run
variable {σ α β : Type}

protected def pure (a : α) : Run σ α := fun s => (.ok a, s)

/-- Sequencing; a fault (panic or `?`) ends the call. -/
protected def bind (m : Run σ α) (f : α → Run σ β) : Run σ β := fun s =>
  match m s with
  | (.ok a, s') => f a s'
  | (.error e, s') => (.error e, s')

instance : Monad (Run σ) where
  pure := Run.pure
  bind := Run.bind

/-- Code that may panic, leaving the state changed by `left` (unchanged if not said otherwise). -/
def lift (r : Res α) (left : σ → σ := id) : Run σ α := fun s =>
  match r with
  | .ok a => (.ok a, s)
  | .error e => (.error (.panic e), left s)

end Run

/-- encoding/mod.rs:34-37 `trait BlockSink`: what `write_block(row_id, block_data)` does to the
sink. A sink may fail (or panic) on any call and is left in some state. -/
structure Sink (S : Type) where
  write : S → Nat → Bytes → Except Fault Unit × S

/-- encoding/mod.rs:127-154 `SinkMock`: records the blocks, never fails. -/
def recorder : Sink (List (Nat × Bytes)) where
  write l rowId data := (.ok (), l ++ [(rowId, data)])

namespace Run
variable {E S : Type}

/-- Reads the encoder. -/
def get : Run (E × S) E := fun s => (.ok s.1, s)

/-- Replaces the encoder. -/
def set (e : E) : Run (E × S) Unit := fun s => (.ok (), (e, s.2))

/-- `sink.write_block(row_id, data).await?`. -/
def emit (k : Sink S) (rowId : Nat) (data : Bytes) : Run (E × S) Unit := fun s =>
  let (r, s') := k.write s.2 rowId data
  (r, (s.1, s'))

end Run

end Meerkat
