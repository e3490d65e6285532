import Verif.Spec.RleReflush

set_option autoImplicit false

/-! # Columns that differ only in their values -/

namespace Meerkat.Spec

/-- Two lists of the same length whose members are related one by one. -/
def Matched {α β : Type} (R : α → β → Prop) (xs : List α) (ys : List β) : Prop :=
  xs.length = ys.length ∧ ∀ (i : Nat) x y, xs[i]? = some x → ys[i]? = some y → R x y

/-- Two rows that are both null, or hold related values. -/
def RowAlike {α β : Type} (R : α → β → Prop) : Option α → Option β → Prop
  | none, none => True
  | some x, some y => R x y
  | _, _ => False

/-- Two byte strings with the same number of bytes. -/
def SameLength (x y : Bytes) : Prop := x.length = y.length

/-- Two blocks with the same row id that differ only in the middle, where they hold the bytes of related lists. -/
def BlockAlike {α β : Type} (R : α → β → Prop) (f : α → Bytes) (g : β → Bytes) (x y : Nat × Bytes) : Prop :=
  x.1 = y.1 ∧ ∃ before xs ys after, Matched R xs ys ∧ x.2 = before ++ xs.flatMap f ++ after ∧
    y.2 = before ++ ys.flatMap g ++ after

/-- The bytes are the compressed form of the validity of fewer than 2^32 rows; `full`: none of them is null. -/
def IsValidity (full : Bool) (validity : Bytes) : Prop :=
  ∃ rows : List Bool, rows.length < 2 ^ 32 ∧ CompressedBits rows validity ∧ (full = true → false ∉ rows)

/-- A block of a nullable column beside the one of the column of its values: the same bytes, followed by the validity; its row
id, which counts the nulls too, is not smaller. `full`: the column has no nulls. -/
def WithValidity (full : Bool) (x y : Nat × Bytes) : Prop :=
  y.1 ≤ x.1 ∧ ∃ validity, x.2 = y.2 ++ validity ∧ IsValidity full validity

/-- The column that has the values of `bufs` and no nulls. -/
def withoutNulls {α : Type} (bufs : List (List (Option α))) : List (List (Option α)) :=
  bufs.map fun rows => rows.filter Option.isSome

end Meerkat.Spec
