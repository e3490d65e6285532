set_option autoImplicit false

/-! # What the list of seeds is about -/

namespace Meerkat

/-- The code points with the property White_Space of Unicode. -/
def blankCodes : List Nat :=
  [0x9, 0xA, 0xB, 0xC, 0xD, 0x20, 0x85, 0xA0, 0x1680, 0x2000, 0x2001, 0x2002, 0x2003, 0x2004, 0x2005, 0x2006, 0x2007,
   0x2008, 0x2009, 0x200A, 0x2028, 0x2029, 0x202F, 0x205F, 0x3000]

/-- A blank character. -/
def Blank (c : Char) : Prop := c.toNat ∈ blankCodes

/-- The option that a list of entries, each with the blanks around it, stands for. -/
def joinSeeds (entries : List (List Char × List Char × List Char)) : List Char :=
  [','].intercalate (entries.map fun e => e.1 ++ e.2.1 ++ e.2.2)

end Meerkat
