import Verif.Spec.BinaryBlock

set_option autoImplicit false

/-!
# Which sequences of buffers the binary encoder gets through

The loop of `encode` cuts the items of a buffer into blocks. The end of every block is found by counting items from its start, but
is then taken as an index in the buffer: after a block that starts at item `pos` and needs `j` items, the loop goes on at
item `j` instead of `pos + j`, with the items `pos` to `j - 1` as those of the block.
-/

namespace Meerkat.Spec

/-- From which item on the rest of the buffer is held back when the loop starts at item `pos`; `none` when the loop does not
come to an end: a block would have no item, or more than 128. There are at most `n` steps (as many as items, and two more, are
always enough). -/
def loopEnd (m : Nat) (items : List Bytes) : Nat → Nat → Option Nat
  | 0, _ => none
  | n + 1, pos =>
    match fill m (items.drop pos) with
    | none => some pos
    | some j => if pos < j ∧ j - pos ≤ 128 then loopEnd m items n j else none

/-- The items held back after a call with the items of one buffer when `held` were held back before; `none` when the call does
not return, which besides happens when the block completed has too many bytes for the leftover buffer. -/
def heldAfter (m : Nat) (held items : List Bytes) : Option (List Bytes) :=
  if held = [] then (loopEnd m items (items.length + 2) 0).map items.drop
  else
    match fill (m - held.flatten.length) items with
    | none => some (held ++ items)
    | some j =>
      if held.length + j ≤ 128 ∧ (held ++ items.take j).flatten.length < 2 ^ 32 - 1 then
        (loopEnd m items (items.length + 2) j).map items.drop else none

/-- The calls for all the buffers return, and so does the last one, which writes what is held back. -/
def Completes (m : Nat) : List Bytes → List (List Bytes) → Prop
  | held, [] => held.length ≤ 128
  | held, b :: bs =>
    match heldAfter m held b with
    | none => False
    | some held => Completes m held bs

instance Completes.decide (m : Nat) : ∀ (held : List Bytes) (bufs : List (List Bytes)), Decidable (Completes m held bufs)
  | held, [] => inferInstanceAs (Decidable (held.length ≤ 128))
  | held, b :: bs =>
    match h : heldAfter m held b with
    | none => isFalse (by simp [Completes, h])
    | some held' =>
      have := Completes.decide m held' bs
      decidable_of_iff (Completes m held' bs) (by simp [Completes, h])

end Meerkat.Spec
