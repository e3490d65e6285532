import Verif.Model.Element
import Verif.Model.Varint
import Verif.Model.Rle
import Verif.Spec.Column

set_option autoImplicit false

/-!
# A reader of primitive blocks

The repository has no block reader. This one follows the layout documented at
raw/primitive_enc.rs:14-21 (data length, data, RLE validity) and uses the repository's own varint and
RLE decoders. It never looks at the encoder.
-/

namespace Meerkat.Spec
variable {α : Type}

/-- Cut a byte string in pieces of `n` bytes, the last one possibly shorter. -/
def pieces (n : Nat) : Nat → Bytes → List Bytes
  | 0, _ => []
  | fuel + 1, bs => if bs = [] then [] else bs.take n :: pieces n fuel (bs.drop n)

/-- Place the values at the given increasing row positions, counting from `at`, nulls elsewhere;
`none` when there are not as many positions as values or they do not increase. -/
def placeRows : Nat → List Nat → List α → Option (List (Option α))
  | _, [], [] => some []
  | at_, p :: ps, v :: vs =>
    if at_ ≤ p then
      (placeRows (p + 1) ps vs).map (List.replicate (p - at_) none ++ some v :: ·)
    else none
  | _, _, _ => none

/-- The rows of a primitive block, as read by profile `q`, up to the last non-null one. -/
def readPrimitive [Element α] (q : Profile) (nullable : Bool) (block : Bytes) :
    Option (List (Option α)) :=
  match Varint.decodeVarint q block with
  | .ok (some (n, k)) =>
    let data := (block.drop k).take n
    let validity := block.drop (k + n)
    let vals : List α := (pieces (Element.size α) data.length data).map Element.ofBytes
    if nullable then
      match Rle.decode q validity (List.replicate vals.length 0) with
      | .ok positions => placeRows 0 positions vals
      | .error _ => none
    else if validity = [] then some (vals.map some)
    else none
  | _ => none

/-- The rows described by a sequence of blocks; `none` when some block cannot be read. -/
def readColumn [Element α] (q : Profile) (nullable : Bool) (blocks : List Bytes) :
    Option (List (Option α)) :=
  (blocks.mapM (readPrimitive q nullable)).map List.flatten

end Meerkat.Spec
