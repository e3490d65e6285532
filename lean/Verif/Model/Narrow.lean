import Verif.Model.BlockReader

set_option autoImplicit false

/-!
# The block reader on a 32-bit machine

Everything else in the model is about machines whose `usize` has 64 bits. The length of a range is an `u64`, and
`read_block` casts it to `usize` without a check; this is the only cast of the code that loses something when `usize` has 32 bits.
-/

namespace Meerkat

/-- unix_disk_block_reader.rs:62-71 `read_block` where `usize` has 32 bits: `buf_len as usize` keeps the low 32 bits, and
`vec![0; n]` panics when `n` is above `isize::MAX`. -/
inductive ReadBlock32 (p : Profile) (faulty : Bool) (file : Bytes) (range : BlockRange) :
    Except ReadError Bytes → Prop where
  | overflow (e : Panic) (h : p.sub 64 range.end range.start = .error e) :
      ReadBlock32 p faulty file range (.error .task)
  | capacity (n : Nat) (h : p.sub 64 range.end range.start = .ok n) (hn : 2 ^ 31 ≤ n % 2 ^ 32) :
      ReadBlock32 p faulty file range (.error .task)
  | read (n : Nat) (h : p.sub 64 range.end range.start = .ok n) (hn : n % 2 ^ 32 < 2 ^ 31) (r : Except ReadError Bytes) :
      ReadExactAt faulty file range.start (n % 2 ^ 32) r → ReadBlock32 p faulty file range r
  | cancelled (hf : faulty = true) : ReadBlock32 p faulty file range (.error .task)

end Meerkat
