set_option autoImplicit false

/-!
# Shared vocabulary of the model

Rust values as Lean values. Nothing here models a particular function of /repo; it fixes how
Rust's panics, fixed-width arithmetic and `Vec` operations are written down.
-/

namespace Meerkat

/-- A byte (`u8`). -/
abbrev Byte := UInt8

/-- `Vec<u8>` / `&[u8]`. -/
abbrev Bytes := List UInt8

/-- Why a call panicked. -/
inductive Panic where
  /-- arithmetic overflow in a build with overflow checks -/
  | overflow
  /-- index or range out of bounds -/
  | index
  /-- failed `assert!` -/
  | assertion
  /-- failed `expect`/`unwrap`, or an explicit `panic!` -/
  | expect
  /-- not a panic: the bound the model puts on a loop was reached; proved unreachable where used -/
  | diverge
  deriving DecidableEq, Repr

/-- Result of code that can panic. -/
abbrev Res (α : Type _) := Except Panic α

deriving instance DecidableEq for Except

/-- Build profile: with (debug) or without (release) arithmetic overflow checks. -/
inductive Profile where
  | debug
  | release
  deriving DecidableEq, Repr

/-- `a + b` on a `w`-bit unsigned type: panics on overflow in debug, wraps in release. -/
def Profile.add (p : Profile) (w a b : Nat) : Res Nat :=
  if a + b < 2 ^ w then .ok (a + b)
  else match p with
    | .debug => .error .overflow
    | .release => .ok ((a + b) % 2 ^ w)

/-- `a - b` on a `w`-bit unsigned type: panics on underflow in debug, wraps in release. -/
def Profile.sub (p : Profile) (w a b : Nat) : Res Nat :=
  if b ≤ a then .ok (a - b)
  else match p with
    | .debug => .error .overflow
    | .release => .ok ((a + 2 ^ w - b) % 2 ^ w)

/-- `a << k` on a `w`-bit unsigned type with `k < w`: Rust drops the high bits in every profile. -/
def shl (w a k : Nat) : Nat := (a <<< k) % 2 ^ w

/-- `v[i]`: panics when out of bounds. -/
def index {α} (v : List α) (i : Nat) : Res α :=
  match v[i]? with
  | some x => .ok x
  | none => .error .index

/-- `&v[a..b]`: panics unless `a ≤ b ≤ v.len()`. -/
def slice {α} (v : List α) (a b : Nat) : Res (List α) :=
  if a ≤ b ∧ b ≤ v.length then .ok ((v.drop a).take (b - a)) else .error .index

/-- `Vec::resize(n, x)`: truncates, or pads with `x`. -/
def resize {α} (v : List α) (n : Nat) (x : α) : List α :=
  v.take n ++ List.replicate (n - v.length) x

@[simp] theorem resize_length {α} (v : List α) (n : Nat) (x : α) : (resize v n x).length = n := by
  simp [resize]; omega

theorem Profile.add_ok (p : Profile) {w a b : Nat} (h : a + b < 2 ^ w) :
    p.add w a b = .ok (a + b) := by simp [Profile.add, h]

theorem Profile.sub_ok (p : Profile) {w a b : Nat} (h : b ≤ a) :
    p.sub w a b = .ok (a - b) := by simp [Profile.sub, h]

theorem index_ok {α} {v : List α} {i : Nat} (h : i < v.length) : index v i = .ok v[i] := by
  simp [index, h]

theorem index_err {α} {v : List α} {i : Nat} (h : v.length ≤ i) : index v i = .error .index := by
  simp [index, h]

@[simp] theorem ok_bind {ε α β} (a : α) (f : α → Except ε β) : (Except.ok a >>= f) = f a := (rfl)
@[simp] theorem error_bind {ε α β} (e : ε) (f : α → Except ε β) :
    ((Except.error e : Except ε α) >>= f) = .error e := (rfl)
@[simp] theorem pure_eq_ok {ε α} (a : α) : (pure a : Except ε α) = .ok a := (rfl)

end Meerkat
