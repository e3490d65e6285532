import Verif.Spec.Varint

set_option autoImplicit false

/-!
# The one compressed form of a bitmap

The bytes are divided into their longest runs of three or more equal bytes and what lies between these.
-/

namespace Meerkat.Spec

/-- A piece of a bitmap. -/
inductive RlePiece where
  | run (n : Nat) (b : UInt8)
  | literal (bs : Bytes)
  deriving DecidableEq, Repr

namespace RlePiece

/-- The bytes a piece stands for. -/
def bytes : RlePiece → Bytes
  | run n b => List.replicate n b
  | literal bs => bs

/-- Runs have three bytes or more; other pieces have at least one byte and no three equal ones in a row. -/
def Good : RlePiece → Prop
  | run n _ => 3 ≤ n
  | literal bs => bs ≠ [] ∧ ∀ pre b post, bs ≠ pre ++ b :: b :: b :: post

/-- `y` may follow `x`: one of the two is a run, and it cannot be made longer. -/
def Next (x y : RlePiece) : Prop :=
  ((∃ n b, x = run n b) ∨ ∃ n b, y = run n b) ∧ x.bytes.getLast? ≠ y.bytes.head?

/-- How a piece is written: a header as short as possible, and the byte of the run or all bytes. -/
def Written (x : RlePiece) (enc : Bytes) : Prop :=
  ∃ h, IsVarint h ∧ (∀ h', IsVarint h' → leb128 h' = leb128 h → h.length ≤ h'.length) ∧
    match x with
    | run n b => leb128 h = 2 * n ∧ enc = h ++ [b]
    | literal bs => leb128 h = 2 * bs.length + 1 ∧ enc = h ++ bs

end RlePiece

/-- `ps` are the pieces of the bytes they stand for. -/
def Divided : List RlePiece → Prop
  | [] => True
  | [x] => x.Good
  | x :: y :: ps => x.Good ∧ x.Next y ∧ Divided (y :: ps)

/-- `enc` is how the pieces are written, one after the other. -/
def AllWritten : List RlePiece → Bytes → Prop
  | [], enc => enc = []
  | x :: ps, enc => ∃ a b, enc = a ++ b ∧ x.Written a ∧ AllWritten ps b

/-- `enc` is the compressed form of `bytes`. -/
def Compressed (bytes enc : Bytes) : Prop :=
  ∃ ps, Divided ps ∧ ps.flatMap RlePiece.bytes = bytes ∧ AllWritten ps enc

end Meerkat.Spec
