import Verif.Model.Prelude

set_option autoImplicit false

/-! # Model of src/store/encoding/util.rs -/

namespace Meerkat.Util

/-- util.rs:21-23 `ceil8`. -/
def ceil8 (value : Nat) : Nat := value / 8 + (if value % 8 ≠ 0 then 1 else 0)

/-- Bitwise complement of a `usize`. -/
def not64 (a : Nat) : Nat := 2 ^ 64 - 1 - a

/-- util.rs:16-19 `round_upto_power_of_2`. `debug_assert!` is compiled only in the debug profile. -/
def roundUptoPowerOf2 (p : Profile) (num factor : Nat) : Res Nat :=
  if p = .debug ∧ ¬ (factor > 0 ∧ factor &&& (factor - 1) = 0) then .error .assertion
  else do
    let mask ← p.sub 64 factor 1
    let sum ← p.add 64 num mask
    return sum &&& not64 mask

end Meerkat.Util
