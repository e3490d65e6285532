import Verif.Model.Prelude

set_option autoImplicit false

/-!
# Model of the configuration made by src/main.rs

Only the list of seeds is computed (main.rs:57-66); the other fields of `Config` are copied. A string is a list
of characters.
-/

namespace Meerkat

/-- `char::is_whitespace` of the Rust standard library: the Unicode property White_Space. -/
def isWhitespace (c : Char) : Bool :=
  let n := c.toNat
  (9 ≤ n && n ≤ 13) || n = 32 || n = 0x85 || n = 0xA0 || n = 0x1680 || (0x2000 ≤ n && n ≤ 0x200A) ||
  n = 0x2028 || n = 0x2029 || n = 0x202F || n = 0x205F || n = 0x3000

/-- `str::split(sep)`: the pieces between the separators, one more than there are separators. -/
def splitAtChar (sep : Char) : List Char → List (List Char)
  | [] => [[]]
  | c :: cs =>
    if c = sep then [] :: splitAtChar sep cs
    else
      match splitAtChar sep cs with
      | [] => [[c]]
      | p :: ps => (c :: p) :: ps

/-- `str::trim`. -/
def trim (s : List Char) : List Char := ((s.dropWhile isWhitespace).reverse.dropWhile isWhitespace).reverse

/-- main.rs:60-65 `seeds`. -/
def parseSeeds (seeds : Option (List Char)) : List (List Char) :=
  (splitAtChar ',' (seeds.getD [])).map trim

end Meerkat
