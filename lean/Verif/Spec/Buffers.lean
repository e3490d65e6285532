import Verif.Model.Buffers
import Verif.Spec.Bitmap
import Verif.Spec.Column

set_option autoImplicit false

/-! # What it means for a buffer to hold a column, through its public API only -/

namespace Meerkat
open Spec

/-- The validity bitmap exists exactly for nullable buffers and reads as `bits`. -/
def ValidityShows (v : Option Bitmap) (nullable : Bool) (bits : List Bool) : Prop :=
  if nullable then ∃ bm, v = some bm ∧ bm.Reads bits else v = none

/-- Through its API, the buffer shows the column `rows`. -/
structure PrimitiveBuffer.Shows {α : Type} (b : PrimitiveBuffer α) (nullable : Bool)
    (rows : List (Option α)) : Prop where
  values : b.values = valuesOf rows
  len : b.len = (valuesOf rows).length
  numValues : b.numValues = rows.length
  isNullable : b.isNullable = nullable
  hasNulls : ∀ p, b.hasNulls p = .ok (rows.any Option.isNone)
  validity : ValidityShows b.validity nullable (validityOf rows)

/-- Through its API, the buffer shows the column of byte strings `rows`. -/
structure BinaryBuffer.Shows (b : BinaryBuffer) (nullable : Bool)
    (rows : List (Option Bytes)) : Prop where
  len : b.len = (valuesOf rows).length
  offsetsLen : b.offsets.length = b.len + 1
  first : b.offsets[0]? = some 0
  monotone : b.offsets.Pairwise (· ≤ ·)
  items : ∀ (i : Nat) (h : i < (valuesOf rows).length), ∃ lo hi,
    b.offsets[i]? = some lo ∧ b.offsets[i + 1]? = some hi ∧
    slice b.data lo hi = .ok (valuesOf rows)[i]
  allData : b.data = (valuesOf rows).flatten
  itemLen : ∀ p (i : Nat) (h : i < (valuesOf rows).length),
    b.itemLen p i = .ok ((valuesOf rows)[i]).length
  numValues : b.numValues = rows.length
  isNullable : b.isNullable = nullable
  hasNulls : ∀ p, b.hasNulls p = .ok (rows.any Option.isNone)
  validity : ValidityShows b.validity nullable (validityOf rows)

/-- Through its API, the buffer shows the column of booleans `rows`. -/
structure BoolBuffer.Shows (b : BoolBuffer) (nullable : Bool)
    (rows : List (Option Bool)) : Prop where
  len : b.len = rows.length
  values : b.values.Reads (valuesOf rows)
  isNullable : b.isNullable = nullable
  hasNulls : b.hasNulls = rows.any Option.isNone
  validity : ValidityShows b.validity nullable (validityOf rows)
  validityRef : if nullable then ∃ bm, b.validityRef = .ok bm ∧ bm.Reads (validityOf rows)
    else b.validityRef = .error .expect

/-- Rows that a buffer of the given nullability accepts. -/
def Accepts {α : Type} (nullable : Bool) (rows : List (Option α)) : Prop :=
  nullable = true ∨ none ∉ rows

end Meerkat
