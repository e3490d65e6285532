import Verif.Spec.Column
import Verif.Model.Prelude

set_option autoImplicit false

/-! # Damaged files -/

namespace Meerkat.Spec

/-- The number of places where two byte strings differ. -/
def distance : Bytes → Bytes → Nat
  | a :: as, b :: bs => (if a = b then 0 else 1) + distance as bs
  | as, bs => as.length + bs.length

/-- Which rows are null, and the lengths of the others. -/
def shape (rows : List (Option Bytes)) : List (Option Nat) := rows.map (Option.map List.length)

/-- All bytes of the values of a column, in order. -/
def dataOf (bufs : List (List (Option Bytes))) : Bytes := (valuesOf bufs.flatten).flatten

end Meerkat.Spec
