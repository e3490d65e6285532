
set_option autoImplicit false
/-!
# Specification vocabulary for nullable columns

A column is a list of rows, each `some v` or null (`none`). Independent of the model.
-/

namespace Meerkat.Spec

/-- The non-null values of a column, in order. -/
def valuesOf {α : Type} (rows : List (Option α)) : List α := rows.filterMap id

/-- For each row, whether it is non-null. -/
def validityOf {α : Type} (rows : List (Option α)) : List Bool := rows.map Option.isSome

/-- Put a column back together from its validity bits and its non-null values; `none` when the
number of set bits is not the number of values. -/
def rebuild {α : Type} : List Bool → List α → Option (List (Option α))
  | [], [] => some []
  | [], _ :: _ => none
  | false :: bs, vs => (rebuild bs vs).map (none :: ·)
  | true :: _, [] => none
  | true :: bs, v :: vs => (rebuild bs vs).map (some v :: ·)

/-- Validity bits and values determine the column. -/
theorem rebuild_eq {α : Type} (rows : List (Option α)) :
    rebuild (validityOf rows) (valuesOf rows) = some rows := by
  induction rows with
  | nil => rfl
  | cons r rows ih =>
    cases r <;> simp_all [rebuild, validityOf, valuesOf]

/-- The column without its trailing nulls. -/
def dropTrailingNulls {α : Type} (rows : List (Option α)) : List (Option α) :=
  (rows.reverse.dropWhile Option.isNone).reverse

/-- The rows up to the `n`-th value; all rows when there are fewer. -/
def takeVals {α : Type} : Nat → List (Option α) → List (Option α)
  | 0, _ => []
  | _ + 1, [] => []
  | n + 1, some v :: l => some v :: takeVals n l
  | n + 1, none :: l => none :: takeVals (n + 1) l

/-- How many of the values given to a column encoder that works in blocks of `c` values end up in
blocks when it forgets what does not complete the block it holds back: `lens` are the numbers of
values of the successive buffers. Buffers that are multiples of a block pass; the first other one
also passes, but of what follows only as much as completes its last block. -/
def kept (c : Nat) : List Nat → Nat
  | [] => 0
  | l :: ls => if l % c = 0 then l + kept c ls else l + min (c - l % c) ls.sum

/-- What the row counter of a nullable column reaches when every block adds to it the rows of its buffer up to its last one,
not only its own: for each buffer the ends of its blocks of `c` values, counted from the start of the buffer; for the
last block, made of what is left of the first buffer that is not a multiple and of what completes it, its rows. -/
def countedRows {α : Type} (c : Nat) : List (List (Option α)) → Nat
  | [] => 0
  | b :: bs =>
    ((List.range ((valuesOf b).length / c)).map fun k => (takeVals ((k + 1) * c) b).length).sum +
    (if (valuesOf b).length % c = 0 then countedRows c bs
     else (dropTrailingNulls b).length - (takeVals ((valuesOf b).length / c * c) b).length +
       (takeVals (c - (valuesOf b).length % c) (bs.flatMap dropTrailingNulls)).length)

/-- A call finds a whole block of `c` values held back, `r` being held back before the first call: what is held back is never
written before the end once it is not empty. -/
def Crowded (c : Nat) : Nat → List Nat → Prop
  | _, [] => False
  | r, l :: ls => if r = 0 then Crowded c (l % c) ls else c ≤ r ∨ Crowded c (min c (r + l)) ls

/-- The groups of values in the blocks of a column that is not nullable, `R` being held back, when blocks of at least `m` bytes
have `c` values, a block of `c` values is larger than `m` bytes and subtraction wraps around: whatever is held back is
completed to `c` values, dropping the rest of that buffer; once there are `c`, whole buffers are added until `m` values, not
bytes, are reached. -/
def wrappedGroups {α : Type} (c m : Nat) : List α → List (List α) → List (List α)
  | R, [] => if R.length = 0 then [] else [R]
  | R, b :: bs =>
    if R.length = 0 then
      ((List.range (b.length / c)).map fun k => (b.drop (k * c)).take c) ++
        wrappedGroups c m (b.drop (b.length / c * c)) bs
    else if R.length < c then wrappedGroups c m (R ++ b.take (c - R.length)) bs
    else if R.length + b.length < m then wrappedGroups c m (R ++ b) bs
    else (R ++ b) :: wrappedGroups c m [] bs

/-- How many values that drops, `r` being held back, for buffers of the given numbers of values. -/
def wrappedLoss (c m : Nat) : Nat → List Nat → Nat
  | _, [] => 0
  | r, l :: ls =>
    if r = 0 then wrappedLoss c m (l % c) ls
    else if r < c then (l - (c - r)) + wrappedLoss c m (min c (r + l)) ls
    else wrappedLoss c m (if r + l < m then r + l else 0) ls

/-- For consecutive groups of rows, `n` rows coming before: the index of the last row of each. -/
def lastRowIds {β : Type} : Nat → List (List β) → List Nat
  | _, [] => []
  | n, m :: ms => (n + m.length - 1) :: lastRowIds (n + m.length) ms

end Meerkat.Spec
