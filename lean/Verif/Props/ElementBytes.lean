import Verif.Props.PrimitiveEnc

set_option autoImplicit false

/-! # C25: the bytes of the elements

C25 holds for any type with a size and bytes. These are the sizes and bytes of the types in use:
two's complement, lowest byte first.
-/

namespace Meerkat

theorem leBytes_get (n v i : Nat) (h : i < n) : (leBytes n v)[i]? = some (UInt8.ofNat (v / 256 ^ i)) := by
  induction n generalizing v i with
  | zero => omega
  | succ n ih =>
    cases i with
    | zero => simp [leBytes]
    | succ i =>
      rw [leBytes, List.getElem?_cons_succ, ih _ _ (by omega), Nat.div_div_eq_div_mul, Nat.pow_succ, Nat.mul_comm]

/-- The bytes of a residue modulo `2 ^ (8 w)` are those of the number itself. -/
theorem byte_of_residue (z : Int) (w u i : Nat) (hu : (u : Int) = z % 2 ^ (8 * w)) (h : i < w) :
    ((UInt8.ofNat (u / 256 ^ i)).toNat : Int) = z / 256 ^ i % 256 := by
  have h1 : (u : Int) / 256 ^ i % 256 = z / 256 ^ i % 256 := by
    have h2 : z = u + 256 ^ i * (256 * (256 ^ (w - i - 1) * (z / 2 ^ (8 * w)))) := by
      have : (256 : Int) ^ i * (256 * (256 ^ (w - i - 1) * (z / 2 ^ (8 * w)))) = 2 ^ (8 * w) * (z / 2 ^ (8 * w)) := by
        rw [← Int.mul_assoc, ← Int.mul_assoc, ← Int.pow_succ, ← Int.pow_add, show i + 1 + (w - i - 1) = w by omega,
          Int.pow_mul]
        rfl
      rw [this, hu, Int.emod_add_mul_ediv]
    have hne : (256 : Int) ^ i ≠ 0 := Int.pow_ne_zero (by decide)
    rw [h2, Int.add_mul_ediv_left _ _ hne, Int.add_mul_emod_self_left]
  rw [← h1, UInt8.toNat_ofNat']
  simp

/-- The bytes of `i32`, `i64` and `u64` values: byte `i` is digit `i` in base 256, lowest first. -/
theorem C25_element_bytes :
    (∀ x : Int32, Element.size Int32 = 4 ∧ (Element.bytes x).length = 4 ∧
      ∀ i b, (Element.bytes x)[i]? = some b → (b.toNat : Int) = x.toInt / 256 ^ i % 256) ∧
    (∀ x : Int64, Element.size Int64 = 8 ∧ (Element.bytes x).length = 8 ∧
      ∀ i b, (Element.bytes x)[i]? = some b → (b.toNat : Int) = x.toInt / 256 ^ i % 256) ∧
    (∀ x : UInt64, Element.size UInt64 = 8 ∧ (Element.bytes x).length = 8 ∧
      ∀ i b, (Element.bytes x)[i]? = some b → b.toNat = x.toNat / 256 ^ i % 256) := by
  refine ⟨fun x => ⟨rfl, Element.bytes_length x, fun i b h => ?_⟩, fun x => ⟨rfl, Element.bytes_length x, fun i b h => ?_⟩,
    fun x => ⟨rfl, Element.bytes_length x, fun i b h => ?_⟩⟩
  · have hi : i < 4 := by have := (List.getElem?_eq_some_iff.mp h).1; rwa [Element.bytes_length] at this
    rw [show Element.bytes x = leBytes 4 x.toUInt32.toNat from rfl, leBytes_get _ _ _ hi] at h
    cases h
    refine byte_of_residue _ 4 _ _ ?_ hi
    have := x.toUInt32.toNat_lt
    have e : x.toUInt32.toNat = x.toBitVec.toNat := rfl
    rw [e] at this ⊢
    rw [Int32.toInt, BitVec.toInt_eq_toNat_bmod, show (2 : Int) ^ (8 * 4) = ((2 ^ 32 : Nat) : Int) from rfl, Int.bmod_emod]
    omega
  · have hi : i < 8 := by have := (List.getElem?_eq_some_iff.mp h).1; rwa [Element.bytes_length] at this
    rw [show Element.bytes x = leBytes 8 x.toUInt64.toNat from rfl, leBytes_get _ _ _ hi] at h
    cases h
    refine byte_of_residue _ 8 _ _ ?_ hi
    have := x.toUInt64.toNat_lt
    have e : x.toUInt64.toNat = x.toBitVec.toNat := rfl
    rw [e] at this ⊢
    rw [Int64.toInt, BitVec.toInt_eq_toNat_bmod, show (2 : Int) ^ (8 * 8) = ((2 ^ 64 : Nat) : Int) from rfl, Int.bmod_emod]
    omega
  · have hi : i < 8 := by have := (List.getElem?_eq_some_iff.mp h).1; rwa [Element.bytes_length] at this
    rw [show Element.bytes x = leBytes 8 x.toNat from rfl, leBytes_get _ _ _ hi] at h
    cases h
    simp

example : Element.bytes (-2 : Int32) = [254, 255, 255, 255] := by decide

end Meerkat
