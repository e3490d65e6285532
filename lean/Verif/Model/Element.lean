import Verif.Model.Prelude

set_option autoImplicit false

/-!
# Element types of primitive columns

indexing_buffer.rs:26-29: `PrimitiveBuffer` is used with `i32`, `i64`, `u64` and `f64`. The encoder
looks at an element only through `size_of::<T>()` and, in `to_byte_slice`
(raw/primitive_enc.rs:219-226), through the bytes it has in memory. The target is little endian.
-/

namespace Meerkat

/-- An element type: its size in bytes and the bytes of each value in memory. -/
class Element (α : Type) where
  size : Nat
  bytes : α → Bytes
  size_eq : size = 4 ∨ size = 8
  bytes_length : ∀ x, (bytes x).length = size
  /-- what a reader makes of `size` bytes -/
  ofBytes : Bytes → α
  ofBytes_bytes : ∀ x, ofBytes (bytes x) = x

/-- The `n` low bytes of a number, lowest first. -/
def leBytes : Nat → Nat → Bytes
  | 0, _ => []
  | n + 1, v => UInt8.ofNat v :: leBytes n (v / 256)

@[simp] theorem leBytes_length (n v : Nat) : (leBytes n v).length = n := by
  induction n generalizing v with
  | zero => rfl
  | succ n ih => simp [leBytes, ih]

/-- The number with the given bytes, lowest first. -/
def leNat : Bytes → Nat
  | [] => 0
  | b :: bs => b.toNat + 256 * leNat bs

theorem leNat_leBytes (n v : Nat) (h : v < 256 ^ n) : leNat (leBytes n v) = v := by
  induction n generalizing v with
  | zero => simp at h; simp [leBytes, leNat, h]
  | succ n ih =>
    have : v / 256 < 256 ^ n := by
      rw [Nat.pow_succ] at h; omega
    simp only [leBytes, leNat, ih _ this, UInt8.toNat_ofNat']
    omega

/-- `i32`. -/
instance : Element Int32 where
  size := 4
  bytes x := leBytes 4 x.toUInt32.toNat
  size_eq := by decide
  bytes_length _ := by simp
  ofBytes b := ⟨UInt32.ofNat (leNat b)⟩
  ofBytes_bytes x := by
    rw [leNat_leBytes _ _ (by simpa using x.toUInt32.toNat_lt)]; cases x; simp

/-- `i64`. -/
instance : Element Int64 where
  size := 8
  bytes x := leBytes 8 x.toUInt64.toNat
  size_eq := by decide
  bytes_length _ := by simp
  ofBytes b := ⟨UInt64.ofNat (leNat b)⟩
  ofBytes_bytes x := by
    rw [leNat_leBytes _ _ (by simpa using x.toUInt64.toNat_lt)]; cases x; simp

/-- `u64`, and `f64` seen as its 64 bits. -/
instance : Element UInt64 where
  size := 8
  bytes x := leBytes 8 x.toNat
  size_eq := by decide
  bytes_length _ := by simp
  ofBytes b := UInt64.ofNat (leNat b)
  ofBytes_bytes x := by
    rw [leNat_leBytes _ _ (by simpa using x.toNat_lt)]; simp

end Meerkat
