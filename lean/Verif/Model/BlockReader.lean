import Verif.Model.Sink

set_option autoImplicit false

/-!
# Model of src/store/io/unix_disk_block_reader.rs and of the types of src/store/io/mod.rs

The reader only reads, so the file is a fixed byte string, unless somebody else is writing to it (`ReadExactLive`). `pread` may return any non-zero number of the
bytes asked for, be interrupted, or fail: `ReadExactAt` relates a call of `read_exact_at` to each result
it can have. `spawn_blocking` runs its closure to the end, or, when the runtime is shutting down (`faulty`), not at
all; a panic of the closure and a closure that is not run become an error (`asyncify`, io/mod.rs:110-123). Running out of memory when the
buffer is allocated is modelled apart (`ReadBlockWithin`).
-/

namespace Meerkat

/-- io/mod.rs:59-62 `struct BlockRange`. -/
structure BlockRange where
  start : Nat
  «end» : Nat
  deriving DecidableEq, Repr

/-- io/mod.rs:67-76 `enum OpInfo`. -/
inductive OpInfo where
  | genericBlock
  | indexBlock
  | dataBlock (firstRowId : Nat)
  deriving DecidableEq, Repr

/-- io/mod.rs:50-55 `struct ReadOp`. -/
structure ReadOp where
  blockRange : BlockRange
  opInfo : OpInfo
  deriving DecidableEq, Repr

/-- Errors of a read. -/
inductive ReadError where
  /-- `UnexpectedEof` -/
  | eof
  /-- any other error of `pread` -/
  | os
  /-- the background task panicked -/
  | task
  deriving DecidableEq, Repr

/-- `FileExt::read_exact_at` for `n` bytes at `off`: the results it can have. `faulty` says whether
`pread` may fail and whether the runtime may shut down. -/
inductive ReadExactAt (faulty : Bool) (file : Bytes) : Nat → Nat → Except ReadError Bytes → Prop where
  /-- the buffer is full -/
  | full (off : Nat) : ReadExactAt faulty file off 0 (.ok [])
  /-- `pread` returned no byte: only at or after the end of the file -/
  | eof (off n : Nat) (hn : 0 < n) (h : file.length ≤ off) : ReadExactAt faulty file off n (.error .eof)
  /-- `pread` returned `k` bytes -/
  | read (off n k : Nat) (hk : 0 < k) (hn : k ≤ n) (h : off + k ≤ file.length) (r : Except ReadError Bytes) :
      ReadExactAt faulty file (off + k) (n - k) r →
      ReadExactAt faulty file off n (r.map ((file.drop off).take k ++ ·))
  /-- `pread` was interrupted: it is called again -/
  | interrupted (off n : Nat) (hn : 0 < n) (r : Except ReadError Bytes) :
      ReadExactAt faulty file off n r → ReadExactAt faulty file off n r
  /-- the offset is not an `off_t`: `EINVAL` -/
  | offset (off n : Nat) (hn : 0 < n) (h : 2 ^ 63 ≤ off) : ReadExactAt faulty file off n (.error .os)
  /-- `pread` failed -/
  | failed (off n : Nat) (hn : 0 < n) (hf : faulty = true) : ReadExactAt faulty file off n (.error .os)

/-- unix_disk_block_reader.rs:62-71 `read_block`: the results it can have. The subtraction is on `u64`;
`vec![0; n]` panics when `n` is above `isize::MAX`. -/
inductive ReadBlock (p : Profile) (faulty : Bool) (file : Bytes) (range : BlockRange) :
    Except ReadError Bytes → Prop where
  | overflow (e : Panic) (h : p.sub 64 range.end range.start = .error e) :
      ReadBlock p faulty file range (.error .task)
  | capacity (n : Nat) (h : p.sub 64 range.end range.start = .ok n) (hn : 2 ^ 63 ≤ n) :
      ReadBlock p faulty file range (.error .task)
  | read (n : Nat) (h : p.sub 64 range.end range.start = .ok n) (hn : n < 2 ^ 63) (r : Except ReadError Bytes) :
      ReadExactAt faulty file range.start n r → ReadBlock p faulty file range r
  /-- the runtime is shutting down: the closure is dropped and never runs -/
  | cancelled (hf : faulty = true) : ReadBlock p faulty file range (.error .task)

/-- How a call can end when memory is limited: with a result, or with the end of the process, which is what the standard
library does when an allocation fails. -/
inductive ReadOutcome where
  | done (r : Except ReadError Bytes)
  | abort
  deriving DecidableEq

/-- unix_disk_block_reader.rs:62-71 `read_block` in a process that cannot allocate more than `memory` bytes at once. The
buffer is allocated before anything is read; a buffer of no bytes is not allocated. -/
inductive ReadBlockWithin (p : Profile) (faulty : Bool) (memory : Nat) (file : Bytes) (range : BlockRange) :
    ReadOutcome → Prop where
  | overflow (e : Panic) (h : p.sub 64 range.end range.start = .error e) :
      ReadBlockWithin p faulty memory file range (.done (.error .task))
  | capacity (n : Nat) (h : p.sub 64 range.end range.start = .ok n) (hn : 2 ^ 63 ≤ n) :
      ReadBlockWithin p faulty memory file range (.done (.error .task))
  | abort (n : Nat) (h : p.sub 64 range.end range.start = .ok n) (hn : n < 2 ^ 63) (hm : memory < n) :
      ReadBlockWithin p faulty memory file range .abort
  | read (n : Nat) (h : p.sub 64 range.end range.start = .ok n) (hn : n < 2 ^ 63) (hm : n ≤ memory)
      (r : Except ReadError Bytes) :
      ReadExactAt faulty file range.start n r → ReadBlockWithin p faulty memory file range (.done r)
  | cancelled (hf : faulty = true) : ReadBlockWithin p faulty memory file range (.done (.error .task))

/-- `FileExt::read_exact_at` of a file that somebody else is writing to: each `pread` sees one of the contents `sees`. -/
inductive ReadExactLive (faulty : Bool) (sees : Bytes → Prop) : Nat → Nat → Except ReadError Bytes → Prop where
  | full (off : Nat) : ReadExactLive faulty sees off 0 (.ok [])
  | eof (off n : Nat) (hn : 0 < n) (file : Bytes) (hf : sees file) (h : file.length ≤ off) :
      ReadExactLive faulty sees off n (.error .eof)
  | read (off n k : Nat) (hk : 0 < k) (hn : k ≤ n) (file : Bytes) (hf : sees file) (h : off + k ≤ file.length)
      (r : Except ReadError Bytes) : ReadExactLive faulty sees (off + k) (n - k) r →
      ReadExactLive faulty sees off n (r.map ((file.drop off).take k ++ ·))
  | interrupted (off n : Nat) (hn : 0 < n) (r : Except ReadError Bytes) :
      ReadExactLive faulty sees off n r → ReadExactLive faulty sees off n r
  | offset (off n : Nat) (hn : 0 < n) (h : 2 ^ 63 ≤ off) : ReadExactLive faulty sees off n (.error .os)
  | failed (off n : Nat) (hn : 0 < n) (hf : faulty = true) : ReadExactLive faulty sees off n (.error .os)

/-- unix_disk_block_reader.rs:62-71 `read_block` of such a file. -/
inductive ReadBlockLive (p : Profile) (faulty : Bool) (sees : Bytes → Prop) (range : BlockRange) :
    Except ReadError Bytes → Prop where
  | overflow (e : Panic) (h : p.sub 64 range.end range.start = .error e) :
      ReadBlockLive p faulty sees range (.error .task)
  | capacity (n : Nat) (h : p.sub 64 range.end range.start = .ok n) (hn : 2 ^ 63 ≤ n) :
      ReadBlockLive p faulty sees range (.error .task)
  | read (n : Nat) (h : p.sub 64 range.end range.start = .ok n) (hn : n < 2 ^ 63) (r : Except ReadError Bytes) :
      ReadExactLive faulty sees range.start n r → ReadBlockLive p faulty sees range r
  | cancelled (hf : faulty = true) : ReadBlockLive p faulty sees range (.error .task)

/-- unix_disk_block_reader.rs:40-43 `struct Reader { file, len }`; the file is an argument of the calls here. -/
structure Reader where
  len : Nat
  deriving DecidableEq, Repr

/-- unix_disk_block_reader.rs:46-55 `Reader::new`: opens the file, asks for its length, each of which may fail; `file` is
the content at that moment. `len()` (unix_disk_block_reader.rs:93-95) returns this length ever after. -/
def Reader.new (opens stats : Bool) (file : Bytes) : Except ReadError Reader :=
  if opens ∧ stats then .ok { len := file.length } else .error .os

/-- unix_disk_block_reader.rs:30 `BLOCK_BUFFER_SIZE`. -/
def BLOCK_BUFFER_SIZE : Nat := 2

/-- io/mod.rs:79-91: what the stream yields for an op: `Block` or `BlockError`, both with the op_info. -/
structure Yield where
  opInfo : OpInfo
  result : Except ReadError Bytes

/-- State of the stream returned by `read_blocks` (unix_disk_block_reader.rs:73-91): a `buffered`
stream over the ops (crate `futures` 0.3). `FuturesOrdered` numbers the futures it is given; futures
complete in any order; an output with the next number to go out is yielded, others are put in a heap. -/
structure ReadStream where
  /-- ops not started -/
  todo : List ReadOp
  /-- futures started and not completed, with their numbers -/
  running : List (Nat × ReadOp)
  /-- outputs completed out of order -/
  queued : List (Nat × ReadOp × Except ReadError Bytes)
  nextIncoming : Nat
  nextOutgoing : Nat
  /-- what was yielded so far -/
  out : List Yield

namespace ReadStream

/-- unix_disk_block_reader.rs:73-91 `read_blocks`. -/
def start (ops : List ReadOp) : ReadStream :=
  { todo := ops, running := [], queued := [], nextIncoming := 0, nextOutgoing := 0, out := [] }

/-- unix_disk_block_reader.rs:80-89, the last `map`. -/
def yieldOf (op : ReadOp) (r : Except ReadError Bytes) : Yield := { opInfo := op.opInfo, result := r }

/-- One step of the stream. The steps `fill`, `pop`, `finishNext` and `finishLater` are those of
`Buffered::poll_next` and `FuturesOrdered::poll_next`; any order of steps is allowed here. `reads` says which results
`read_block` can have: `ReadBlock p faulty file`, or `ReadBlockLive p faulty sees` for a file somebody is writing to. -/
inductive Step (reads : BlockRange → Except ReadError Bytes → Prop) : ReadStream → ReadStream → Prop where
  /-- a future is started when fewer than `BLOCK_BUFFER_SIZE` are running or queued -/
  | fill (s : ReadStream) (op : ReadOp) (rest : List ReadOp) (htodo : s.todo = op :: rest)
      (hroom : s.running.length + s.queued.length < BLOCK_BUFFER_SIZE) :
      Step reads s { s with todo := rest, running := s.running ++ [(s.nextIncoming, op)],
                                    nextIncoming := s.nextIncoming + 1 }
  /-- the output with the next number was already queued -/
  | pop (s : ReadStream) (a b : List (Nat × ReadOp × Except ReadError Bytes)) (op : ReadOp)
      (r : Except ReadError Bytes) (hq : s.queued = a ++ (s.nextOutgoing, op, r) :: b) :
      Step reads s { s with queued := a ++ b, nextOutgoing := s.nextOutgoing + 1,
                                    out := s.out ++ [yieldOf op r] }
  /-- the future with the next number completes -/
  | finishNext (s : ReadStream) (a b : List (Nat × ReadOp)) (op : ReadOp) (r : Except ReadError Bytes)
      (hrun : s.running = a ++ (s.nextOutgoing, op) :: b) (hr : reads op.blockRange r) :
      Step reads s { s with running := a ++ b, nextOutgoing := s.nextOutgoing + 1,
                                    out := s.out ++ [yieldOf op r] }
  /-- another future completes -/
  | finishLater (s : ReadStream) (a b : List (Nat × ReadOp)) (i : Nat) (op : ReadOp)
      (r : Except ReadError Bytes) (hrun : s.running = a ++ (i, op) :: b) (hi : i ≠ s.nextOutgoing)
      (hr : reads op.blockRange r) :
      Step reads s { s with running := a ++ b, queued := s.queued ++ [(i, op, r)] }

/-- Any number of steps. -/
inductive Steps (reads : BlockRange → Except ReadError Bytes → Prop) : Nat → ReadStream → ReadStream → Prop where
  | refl (s : ReadStream) : Steps reads 0 s s
  | step {n : Nat} {s t u : ReadStream} : Steps reads n s t → Step reads t u →
      Steps reads (n + 1) s u

/-- `poll_next` returns `None`: no op left, no future running, no output queued. -/
def Ended (s : ReadStream) : Prop := s.todo = [] ∧ s.running = [] ∧ s.queued = []

end ReadStream
end Meerkat
