import Verif.Model.Sink

set_option autoImplicit false

/-! # Offering a list of blocks to a sink -/

namespace Meerkat

/-- Offer blocks to a sink one after the other, stopping at the first failure. -/
def feed {S : Type} (k : Sink S) : S → List (Nat × Bytes) → Except Fault Unit × S
  | s, [] => (.ok (), s)
  | s, b :: bs =>
    match k.write s b.1 b.2 with
    | (.ok (), s') => feed k s' bs
    | (.error f, s') => (.error f, s')

/-- `m` used with the sink `k` behaves as the recorded run says: with a sink that only records, the
call offers some blocks `bs` and ends in some way that does not depend on what was recorded before;
with `k`, it offers the same blocks, in the same order, up to the first one `k` fails on. If `k`
accepts all of them the call ends in the same way with the same encoder state; otherwise it ends
with `k`'s fault, nothing more being offered. -/
def Follows {E S α : Type} (k : Sink S) (m : Run (E × S) α)
    (mr : Run (E × List (Nat × Bytes)) α) : Prop :=
  ∀ e, ∃ bs r e', (∀ l, mr (e, l) = (r, (e', l ++ bs))) ∧
    ∀ s, match feed k s bs with
      | (.ok (), s') => m (e, s) = (r, (e', s'))
      | (.error f, s') => ∃ e'', m (e, s) = (.error f, (e'', s'))

end Meerkat
