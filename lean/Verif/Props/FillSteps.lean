import Verif.Model.FillSteps
import Verif.Proofs.EncSteps
import Verif.Proofs.Bitmap
import Verif.Proofs.BinaryInv

set_option autoImplicit false

/-! # C116: filling a buffer takes time in proportion to its rows -/

namespace Meerkat

namespace FillSteps
open Bitmap

theorem lift_ok_bind {α β : Type} (a : α) (f : α → Counted β) : (Counted.lift (.ok a) >>= f) = f a := by
  show ((f a).1, 0 + (f a).2) = f a
  rw [Nat.zero_add]
  rfl

theorem append_size {m m' : Bitmap} {b : Bool} (h : m.append b = .ok m') :
    m'.values.length = if m.len / 8 = m.values.length then m.values.length * 2 else m.values.length := by
  simp only [Bitmap.append] at h
  rw [Nat.shiftRight_eq_div_pow] at h
  have hs : (if m.len / 2 ^ 3 = m.values.length then resize m.values (m.values.length * 2) 0 else m.values).length =
      if m.len / 8 = m.values.length then m.values.length * 2 else m.values.length := by
    show List.length (if m.len / 8 = m.values.length then resize m.values (m.values.length * 2) 0 else m.values) = _
    split
    · rw [resize_length]
    · rfl
  rw [← hs]
  generalize (if m.len / 2 ^ 3 = m.values.length then resize m.values (m.values.length * 2) 0 else m.values) = values at h ⊢
  cases b with
  | false => simp only [Bool.false_eq_true, if_false] at h; cases h; rfl
  | true =>
    simp only [if_true] at h
    rcases ho : index values (m.len / 2 ^ 3) with e | old
    · rw [ho] at h; cases h
    rcases hk : index BIT_MASK (m.len &&& 7) with e | mask
    · rw [ho, hk] at h; cases h
    rw [ho, hk] at h
    cases h
    exact List.length_set ..

/-- `B` bits were put into the bitmap since it was made, in `S` steps: there are at most three steps for two bits, and those
of the next `resize` are saved up. -/
structure Paid (m : Bitmap) (B S : Nat) : Prop where
  inv : Inv m
  least : 1024 ≤ m.values.length
  grown : 4 * m.values.length ≤ m.len + 4096
  put : m.len ≤ B
  saved : 2 * S + m.len + 4096 ≤ 3 * B + 4 * m.values.length

theorem Paid.bound {m : Bitmap} {B S : Nat} (h : Paid m B S) : 2 * S ≤ 3 * B := by
  have := h.grown; have := h.saved; omega

theorem new_paid : Paid Bitmap.new 0 0 := by
  have h : Bitmap.new.values.length = 1024 := List.length_replicate ..
  have h2 : Bitmap.new.len = 0 := rfl
  exact ⟨new_inv, by omega, by omega, by omega, by omega⟩

theorem append_paid {m : Bitmap} {B S : Nat} (h : Paid m B S) (b : Bool) :
    ∃ m' n, m.appendC b = (.ok m', n) ∧ m.append b = .ok m' ∧ Paid m' (B + 1) (S + n) := by
  obtain ⟨m', h1, h2, h3, -⟩ := append_spec h.inv b
  refine ⟨m', 1 + (0 + (resizeSteps m.values.length m'.values.length + 0)), ?_, h1, ?_⟩
  · simp only [appendC, h1]; rfl
  · have h4 := append_size h1
    obtain ⟨⟨i1, i2⟩, g1, g2, g3, g4⟩ := h
    split at h4
    · have : resizeSteps m.values.length m'.values.length = m'.values.length := by
        rw [resizeSteps, if_neg (by omega)]
      exact ⟨h3, by omega, by omega, by omega, by omega⟩
    · have : resizeSteps m.values.length m'.values.length = 0 := by
        rw [resizeSteps, if_pos (by omega)]
      exact ⟨h3, by omega, by omega, by omega, by omega⟩

theorem clear_paid {m : Bitmap} {B S : Nat} (h : Paid m B S) :
    m.clearC = (.ok m.clear, 0) ∧ Paid m.clear B S := by
  have hl : m.clear.values.length = 1024 := resize_length ..
  have h0 : m.clear.len = 0 := rfl
  have := h.bound
  have := h.least
  refine ⟨?_, clear_inv m, by omega, by omega, by omega, by omega⟩
  have : resizeSteps m.values.length m.clear.values.length = 0 := by rw [resizeSteps, if_pos (by omega)]
  simp only [clearC, this]; rfl

/-- The same for the validity of a buffer. -/
def PaidV (v : Option Bitmap) (B S : Nat) : Prop :=
  match v with
  | some m => Paid m B S
  | none => S = 0

theorem PaidV.bound {v : Option Bitmap} {B S : Nat} (h : PaidV v B S) : 2 * S ≤ 3 * B := by
  cases v with
  | none => have h : S = 0 := h; omega
  | some m => exact Paid.bound h

theorem new_paidV (nullable : Bool) : PaidV (newValidity nullable) 0 0 := by
  cases nullable with
  | false => rfl
  | true => exact new_paid

theorem true_paid {v : Option Bitmap} {B S : Nat} (h : PaidV v B S) :
    ∃ v' n, validityAppendTrueC v = (.ok v', n) ∧ validityAppendTrue v = .ok v' ∧ PaidV v' (B + 1) (S + n) := by
  cases v with
  | none => exact ⟨none, 0, rfl, rfl, h⟩
  | some m =>
    obtain ⟨m', n, h1, h2, h3⟩ := append_paid h true
    exact ⟨some m', n, by simp only [validityAppendTrueC, h1]; rfl, by simp only [validityAppendTrue, h2]; rfl, h3⟩

theorem false_paid {v : Option Bitmap} {B S : Nat} (h : PaidV v B S) :
    (∃ v' n, validityAppendFalseC v = (.ok v', n) ∧ validityAppendFalse v = .ok v' ∧ PaidV v' (B + 1) (S + n)) ∨
    validityAppendFalseC v = (.error .expect, 0) ∧ validityAppendFalse v = .error .expect := by
  cases v with
  | none => exact .inr ⟨rfl, rfl⟩
  | some m =>
    obtain ⟨m', n, h1, h2, h3⟩ := append_paid h false
    exact .inl ⟨some m', n, by simp only [validityAppendFalseC, h1]; rfl, by simp only [validityAppendFalse, h2]; rfl, h3⟩

theorem clear_paidV {v : Option Bitmap} {B S : Nat} (h : PaidV v B S) :
    validityClearC v = (.ok (v.map Bitmap.clear), 0) ∧ PaidV (v.map Bitmap.clear) B S := by
  cases v with
  | none => exact ⟨rfl, h⟩
  | some m =>
    obtain ⟨h1, h2⟩ := clear_paid h
    exact ⟨by simp only [validityClearC, h1]; rfl, h2⟩

/-- The number of rows from `pos` on up to the `n`th that has a value, or to the last row if there are not so many. -/
def rowsUpTo (m : Bitmap) (pos n : Nat) : Nat :=
  if n = 0 then 0
  else if pos < m.len then 1 + rowsUpTo m (pos + 1) (n - (m.bitAt pos).toNat)
  else 0
termination_by m.len - pos

theorem isSet_bitAt {m : Bitmap} {i : Nat} {b : Bool} (h : m.isSet i = .ok b) : m.bitAt i = b := by
  have hs : i >>> 3 = i / 8 := Nat.shiftRight_eq_div_pow i 3
  by_cases h1 : i < m.len
  · by_cases h2 : i / 8 < m.values.length
    · simp only [isSet, h1, if_true, hs, index_ok h2, ok_bind, mask_eq, pure_eq_ok] at h
      rw [and_mask_ne_zero _ (Nat.mod_lt _ (by omega))] at h
      simpa [bitAt, h2] using h
    · have : index m.values (i / 8) = .error .index := by
        simp only [index, List.getElem?_eq_none (by omega : m.values.length ≤ i / 8)]
      simp only [isSet, h1, if_true, hs, this] at h
      cases h
  · rw [isSet_of_ge (by omega)] at h
    cases h

theorem loop_paid (src : Bitmap) (pos n : Nat) {m : Bitmap} {B S : Nat} (h : Paid m B S) :
    (∃ m' pos' k, m.appendFromLoopG src pos n = (.ok (m', pos'), k) ∧ m.appendFromLoop src pos n = .ok (m', pos') ∧
      Paid m' (B + rowsUpTo src pos n) (S + k)) ∨
    ∃ e k, m.appendFromLoopG src pos n = (.error e, k) ∧ m.appendFromLoop src pos n = .error e ∧
      2 * (S + k) ≤ 3 * (B + rowsUpTo src pos n) := by
  rw [appendFromLoopG, appendFromLoop, rowsUpTo]
  by_cases h0 : n = 0
  · simp only [if_pos h0]
    exact .inl ⟨m, pos, 0, rfl, rfl, h⟩
  simp only [if_neg h0]
  by_cases h1 : pos < src.len
  · simp only [dif_pos h1, if_pos h1]
    rcases hs : src.isSet pos with e | b
    · refine .inr ⟨e, 0, rfl, rfl, ?_⟩
      have := h.bound
      omega
    · have hb : src.bitAt pos = b := isSet_bitAt hs
      obtain ⟨m', k, a1, a2, a3⟩ := append_paid h b
      rw [hb]
      rcases loop_paid src (pos + 1) (n - b.toNat) a3 with ⟨m2, pos', k', c1, c2, c3⟩ | ⟨e, k', c1, c2, c3⟩
      · refine .inl ⟨m2, pos', 0 + (k + k'), ?_, ?_, ?_⟩
        · show (Counted.lift (Except.ok b) >>= fun b => m.appendC b >>= fun dst =>
            dst.appendFromLoopG src (pos + 1) (n - b.toNat)) = _
          show ((m.appendC b >>= fun dst => dst.appendFromLoopG src (pos + 1) (n - b.toNat)).1,
            0 + (m.appendC b >>= fun dst => dst.appendFromLoopG src (pos + 1) (n - b.toNat)).2) = _
          rw [a1]
          show (((m'.appendFromLoopG src (pos + 1) (n - b.toNat)).1),
            0 + (k + (m'.appendFromLoopG src (pos + 1) (n - b.toNat)).2)) = _
          rw [c1]
        · show (m.append b >>= fun dst => dst.appendFromLoop src (pos + 1) (n - b.toNat)) = _
          rw [a2]
          exact c2
        · rw [← Nat.add_assoc B, show S + (0 + (k + k')) = S + k + k' by omega]
          exact c3
      · refine .inr ⟨e, 0 + (k + k'), ?_, ?_, by omega⟩
        · show ((m.appendC b >>= fun dst => dst.appendFromLoopG src (pos + 1) (n - b.toNat)).1,
            0 + (m.appendC b >>= fun dst => dst.appendFromLoopG src (pos + 1) (n - b.toNat)).2) = _
          rw [a1]
          show (((m'.appendFromLoopG src (pos + 1) (n - b.toNat)).1),
            0 + (k + (m'.appendFromLoopG src (pos + 1) (n - b.toNat)).2)) = _
          rw [c1]
        · show (m.append b >>= fun dst => dst.appendFromLoop src (pos + 1) (n - b.toNat)) = _
          rw [a2]
          exact c2
  · simp only [dif_neg h1, if_neg h1]
    refine .inr ⟨_, 0, rfl, rfl, ?_⟩
    have := h.bound
    omega
termination_by src.len - pos

/-- The rows that `append_from` goes through: those of a buffer without validity need not be looked at. -/
def rowsUpToV (v : Option Bitmap) (pos n : Nat) : Nat :=
  match v with
  | some m => rowsUpTo m pos n
  | none => 0

theorem from_paid (src : Option Bitmap) (pos n : Nat) {v : Option Bitmap} {B S : Nat} (h : PaidV v B S) :
    (∃ v' pos' k, validityAppendFromG v src pos n = (.ok (v', pos'), k) ∧ validityAppendFrom v src pos n = .ok (v', pos') ∧
      PaidV v' (B + rowsUpToV src pos n) (S + k)) ∨
    ∃ e k, validityAppendFromG v src pos n = (.error e, k) ∧ validityAppendFrom v src pos n = .error e ∧
      2 * (S + k) ≤ 3 * (B + rowsUpToV src pos n) := by
  have hb := h.bound
  cases src with
  | none =>
    cases v with
    | none => exact .inl ⟨none, n, 0, rfl, rfl, h⟩
    | some m => exact .inr ⟨_, 0, rfl, rfl, by omega⟩
  | some s =>
    cases v with
    | none => exact .inr ⟨_, 0, rfl, rfl, by omega⟩
    | some m =>
      rcases loop_paid s pos n h with ⟨m', pos', k, c1, c2, c3⟩ | ⟨e, k, c1, c2, c3⟩
      · refine .inl ⟨some m', pos', k + 0, ?_, ?_, c3⟩
        · simp only [validityAppendFromG, c1]; rfl
        · simp only [validityAppendFrom, Bitmap.appendFrom, c2]; rfl
      · refine .inr ⟨e, k, ?_, ?_, c3⟩
        · simp only [validityAppendFromG, c1]; rfl
        · simp only [validityAppendFrom, Bitmap.appendFrom, c2]; rfl

/-- Calls that take, on average, half as many steps as `w` says, and do what the calls `g` do. -/
theorem fold_paid {σ α : Type} (f : σ → α → Counted σ) (g : σ → α → Res σ) (w : α → Nat) (I : σ → Nat → Nat → Prop)
    (hI : ∀ {s W S}, I s W S → 2 * S ≤ W)
    (hstep : ∀ {s W S} x, I s W S → (∃ s' n, f s x = (.ok s', n) ∧ g s x = .ok s' ∧ I s' (W + w x) (S + n)) ∨
      ∃ e n, f s x = (.error e, n) ∧ g s x = .error e ∧ 2 * (S + n) ≤ W + w x)
    (l : List α) : ∀ {s W S}, I s W S → (l.foldlM f s).result = l.foldlM g s ∧
      2 * (S + (l.foldlM f s).steps) ≤ W + (l.map w).sum := by
  induction l with
  | nil => intro s W S h; exact ⟨rfl, hI h⟩
  | cons x l ih =>
    intro s W S h
    simp only [List.foldlM_cons, List.map_cons, List.sum_cons]
    rcases hstep x h with ⟨s', n, h1, h2, h3⟩ | ⟨e, n, h1, h2, h3⟩
    · obtain ⟨i1, i2⟩ := ih h3
      rw [h1, h2]
      refine ⟨i1, ?_⟩
      show 2 * (S + (n + (l.foldlM f s').steps)) ≤ _
      omega
    · rw [h1, h2]
      refine ⟨rfl, ?_⟩
      show 2 * (S + n) ≤ _
      omega

/-- The buffer and its validity were filled in `S` steps by calls that may take `W / 2`. -/
def PaidB (v : Option Bitmap) (W S : Nat) : Prop := ∃ B Sv, PaidV v B Sv ∧ 2 * S + 3 * B ≤ W + 2 * Sv

theorem PaidB.bound {v : Option Bitmap} {W S : Nat} (h : PaidB v W S) : 2 * S ≤ W := by
  obtain ⟨B, Sv, h1, h2⟩ := h
  have := h1.bound
  omega

/-- Twice the number of steps that a call may take. -/
def primitiveWork {α : Type} : FillCall (PrimitiveBuffer α) α → Nat
  | .push _ => 7
  | .appendFrom src i j pos => 2 + 2 * (j - i) + 3 * rowsUpToV src.validity pos (j - i)
  | .clear => 2

theorem primitive_from {α : Type} {b : PrimitiveBuffer α} {W S : Nat} (src : PrimitiveBuffer α) (i j pos : Nat)
    (h : PaidB b.validity W S) : let w := W + (2 + 2 * (j - i) + 3 * rowsUpToV src.validity pos (j - i))
    (∃ s' q n, b.appendFromG src i j pos = (.ok (s', q), n) ∧ b.appendFrom src i j pos = .ok (s', q) ∧
      PaidB s'.validity w (S + n)) ∨
    ∃ e n, b.appendFromG src i j pos = (.error e, n) ∧ b.appendFrom src i j pos = .error e ∧ 2 * (S + n) ≤ w := by
  intro w
  have hb := h.bound
  obtain ⟨B, Sv, h1, h2⟩ := h
  rcases hs : slice src.values i j with e | chunk
  · refine .inr ⟨e, 1 + 0, ?_, ?_, by omega⟩
    · simp only [PrimitiveBuffer.appendFromG, hs]; rfl
    · simp only [PrimitiveBuffer.appendFrom, hs]; rfl
  have hl := BinaryEnc.slice_length hs
  by_cases hc : U32_MAX > (b.values ++ chunk).length
  · rcases from_paid src.validity pos (j - i) h1 with ⟨v', q, k, c1, c2, c3⟩ | ⟨e, k, c1, c2, c3⟩
    · refine .inl ⟨⟨b.values ++ chunk, v'⟩, q, 1 + (chunk.length + (k + 0)), ?_, ?_, _, _, c3, by omega⟩
      · simp only [PrimitiveBuffer.appendFromG, lift_ok_bind, hs, c1, if_pos hc]; rfl
      · simp only [PrimitiveBuffer.appendFrom, hs, c2]
        show (if U32_MAX > (b.values ++ chunk).length then _ else _) = _
        rw [if_pos hc]; rfl
    · refine .inr ⟨e, 1 + (chunk.length + k), ?_, ?_, by omega⟩
      · simp only [PrimitiveBuffer.appendFromG, lift_ok_bind, hs, c1, if_pos hc]; rfl
      · simp only [PrimitiveBuffer.appendFrom, hs, c2]
        show (if U32_MAX > (b.values ++ chunk).length then _ else _) = _
        rw [if_pos hc]; rfl
  · refine .inr ⟨.assertion, 1 + (chunk.length + 0), ?_, ?_, by omega⟩
    · simp only [PrimitiveBuffer.appendFromG, lift_ok_bind, hs, if_neg hc]; rfl
    · simp only [PrimitiveBuffer.appendFrom, hs]
      show (if U32_MAX > (b.values ++ chunk).length then _ else _) = _
      rw [if_neg hc]

theorem primitive_step {α : Type} {b : PrimitiveBuffer α} {W S : Nat} (x : FillCall (PrimitiveBuffer α) α)
    (h : PaidB b.validity W S) :
    (∃ s' n, b.callC x = (.ok s', n) ∧ b.call x = .ok s' ∧ PaidB s'.validity (W + primitiveWork x) (S + n)) ∨
      ∃ e n, b.callC x = (.error e, n) ∧ b.call x = .error e ∧ 2 * (S + n) ≤ W + primitiveWork x := by
  have hb := h.bound
  have h' := h
  obtain ⟨B, Sv, h1, h2⟩ := h
  cases x with
  | appendFrom src i j pos =>
    rcases primitive_from src i j pos h' with ⟨s', q, n, k1, k2, k3⟩ | ⟨e, n, k1, k2, k3⟩
    · refine .inl ⟨s', n + 0, ?_, ?_, k3⟩
      · simp only [PrimitiveBuffer.callC, k1]; rfl
      · simp only [PrimitiveBuffer.call, k2]; rfl
    · refine .inr ⟨e, n, ?_, ?_, k3⟩
      · simp only [PrimitiveBuffer.callC, k1]; rfl
      · simp only [PrimitiveBuffer.call, k2]; rfl
  | clear =>
    obtain ⟨k1, k2⟩ := clear_paidV h1
    refine .inl ⟨b.clear, 1, ?_, rfl, B, Sv, k2, by simp only [primitiveWork]; omega⟩
    simp only [PrimitiveBuffer.callC, PrimitiveBuffer.clearC, k1]; rfl
  | push row =>
    cases row with
    | some v =>
      obtain ⟨v', n, k1, k2, k3⟩ := true_paid h1
      refine .inl ⟨⟨b.values ++ [v], v'⟩, 1 + (1 + (n + 0)), ?_, ?_, B + 1, Sv + n, k3, by simp only [primitiveWork]; omega⟩
      · simp only [PrimitiveBuffer.callC, PrimitiveBuffer.pushC, k1]; rfl
      · simp only [PrimitiveBuffer.call, PrimitiveBuffer.push, PrimitiveBuffer.append, k2]; rfl
    | none =>
      rcases false_paid h1 with ⟨v', n, k1, k2, k3⟩ | ⟨k1, k2⟩
      · refine .inl ⟨⟨b.values, v'⟩, 1 + (n + 0), ?_, ?_, B + 1, Sv + n, k3, by simp only [primitiveWork]; omega⟩
        · simp only [PrimitiveBuffer.callC, PrimitiveBuffer.pushC, k1]; rfl
        · simp only [PrimitiveBuffer.call, PrimitiveBuffer.push, PrimitiveBuffer.appendNull, k2]; rfl
      · refine .inr ⟨.expect, 1 + 0, ?_, ?_, by simp only [primitiveWork]; omega⟩
        · simp only [PrimitiveBuffer.callC, PrimitiveBuffer.pushC, k1]; rfl
        · simp only [PrimitiveBuffer.call, PrimitiveBuffer.push, PrimitiveBuffer.appendNull, k2]; rfl

/-- Twice the number of steps that a call may take. -/
def binaryWork (p : Profile) : FillCall BinaryBuffer Bytes → Nat
  | .push row => 7 + 2 * (row.getD []).length
  | .appendFrom src i j pos => 2 + 2 * (j - i) + 2 * ((src.offsets[j]?).getD 0 - (src.offsets[i]?).getD 0) +
      3 * match p.sub 64 j i with
        | .ok n => rowsUpToV src.validity pos n
        | .error _ => 0
  | .clear => 2

theorem index_getD {l : List Nat} {i x : Nat} (h : index l i = .ok x) : (l[i]?).getD 0 = x := by
  rw [index] at h
  split at h
  · rename_i y hy
    cases h
    rw [hy]
    rfl
  · cases h

theorem binary_from (p : Profile) {b : BinaryBuffer} {W S : Nat} (src : BinaryBuffer) (i j pos : Nat)
    (h : PaidB b.validity W S) : let w := W + binaryWork p (.appendFrom src i j pos)
    (∃ s' q n, b.appendFromG p src i j pos = (.ok (s', q), n) ∧ b.appendFrom p src i j pos = .ok (s', q) ∧
      PaidB s'.validity w (S + n)) ∨
    ∃ e n, b.appendFromG p src i j pos = (.error e, n) ∧ b.appendFrom p src i j pos = .error e ∧ 2 * (S + n) ≤ w := by
  intro w
  have hw : w = W + binaryWork p (.appendFrom src i j pos) := rfl
  have hb := h.bound
  obtain ⟨B, Sv, h1, h2⟩ := h
  simp only [binaryWork] at hw
  rcases hi : index src.offsets i with e | so
  · refine .inr ⟨e, 1 + 0, ?_, ?_, by omega⟩
    · simp only [BinaryBuffer.appendFromG, hi]; rfl
    · simp only [BinaryBuffer.appendFrom, hi]; rfl
  rcases hj : index src.offsets j with e | eo
  · refine .inr ⟨e, 1 + 0, ?_, ?_, by omega⟩
    · simp only [BinaryBuffer.appendFromG, lift_ok_bind, hi, hj]; rfl
    · simp only [BinaryBuffer.appendFrom, ok_bind, hi, hj]; rfl
  rw [index_getD hi, index_getD hj] at hw
  rcases hn : p.sub 64 j i with e | n
  · refine .inr ⟨e, 1 + 0, ?_, ?_, by omega⟩
    · simp only [BinaryBuffer.appendFromG, lift_ok_bind, hi, hj, hn]; rfl
    · simp only [BinaryBuffer.appendFrom, ok_bind, hi, hj, hn]; rfl
  simp only [hn] at hw
  rcases ho : BinaryBuffer.appendFromOffsets p src (j - i) i ((b.offsets.getLast?).getD 0) with e | pushed
  · refine .inr ⟨e, 1 + (j - i + 0), ?_, ?_, by omega⟩
    · simp only [BinaryBuffer.appendFromG, lift_ok_bind, hi, hj, hn, ho]; rfl
    · simp only [BinaryBuffer.appendFrom, ok_bind, hi, hj, hn, ho]; rfl
  rcases hs : slice src.data so eo with e | chunk
  · refine .inr ⟨e, 1 + (j - i + 0), ?_, ?_, by omega⟩
    · simp only [BinaryBuffer.appendFromG, lift_ok_bind, hi, hj, hn, ho, hs]; rfl
    · simp only [BinaryBuffer.appendFrom, ok_bind, hi, hj, hn, ho, hs]; rfl
  have hl := BinaryEnc.slice_length hs
  by_cases hc : U32_MAX > (b.data ++ chunk).length
  · rcases from_paid src.validity pos n h1 with ⟨v', q, k, c1, c2, c3⟩ | ⟨e, k, c1, c2, c3⟩
    · refine .inl ⟨⟨b.data ++ chunk, b.offsets ++ pushed, v'⟩, q,
        1 + (j - i + (chunk.length + (k + 0))), ?_, ?_, _, _, c3, by omega⟩
      · simp only [BinaryBuffer.appendFromG, lift_ok_bind, hi, hj, hn, ho, hs, c1, if_pos hc]; rfl
      · simp only [BinaryBuffer.appendFrom, ok_bind, hi, hj, hn, ho, hs, c2]
        show (if U32_MAX > (b.data ++ chunk).length then _ else _) = _
        rw [if_pos hc]; rfl
    · refine .inr ⟨e, 1 + (j - i + (chunk.length + k)), ?_, ?_, by omega⟩
      · simp only [BinaryBuffer.appendFromG, lift_ok_bind, hi, hj, hn, ho, hs, c1, if_pos hc]; rfl
      · simp only [BinaryBuffer.appendFrom, ok_bind, hi, hj, hn, ho, hs, c2]
        show (if U32_MAX > (b.data ++ chunk).length then _ else _) = _
        rw [if_pos hc]; rfl
  · refine .inr ⟨.assertion, 1 + (j - i + (chunk.length + 0)), ?_, ?_, by omega⟩
    · simp only [BinaryBuffer.appendFromG, lift_ok_bind, hi, hj, hn, ho, hs, if_neg hc]; rfl
    · simp only [BinaryBuffer.appendFrom, ok_bind, hi, hj, hn, ho, hs]
      show (if U32_MAX > (b.data ++ chunk).length then _ else _) = _
      rw [if_neg hc]

theorem binary_step (p : Profile) {b : BinaryBuffer} {W S : Nat} (x : FillCall BinaryBuffer Bytes) (h : PaidB b.validity W S) :
    (∃ s' n, b.callC p x = (.ok s', n) ∧ b.call p x = .ok s' ∧ PaidB s'.validity (W + binaryWork p x) (S + n)) ∨
      ∃ e n, b.callC p x = (.error e, n) ∧ b.call p x = .error e ∧ 2 * (S + n) ≤ W + binaryWork p x := by
  have hb := h.bound
  have h' := h
  obtain ⟨B, Sv, h1, h2⟩ := h
  cases x with
  | appendFrom src i j pos =>
    rcases binary_from p src i j pos h' with ⟨s', q, n, k1, k2, k3⟩ | ⟨e, n, k1, k2, k3⟩
    · refine .inl ⟨s', n + 0, ?_, ?_, k3⟩
      · simp only [BinaryBuffer.callC, k1]; rfl
      · simp only [BinaryBuffer.call, k2]; rfl
    · refine .inr ⟨e, n, ?_, ?_, k3⟩
      · simp only [BinaryBuffer.callC, k1]; rfl
      · simp only [BinaryBuffer.call, k2]; rfl
  | clear =>
    obtain ⟨k1, k2⟩ := clear_paidV h1
    refine .inl ⟨b.clear, 1, ?_, rfl, B, Sv, k2, by simp only [binaryWork, Option.getD]; omega⟩
    simp only [BinaryBuffer.callC, BinaryBuffer.clearC, k1]; rfl
  | push row =>
    cases row with
    | some v =>
      by_cases hc : (b.data ++ v).length ≤ U32_MAX
      · obtain ⟨v', n, k1, k2, k3⟩ := true_paid h1
        refine .inl ⟨⟨b.data ++ v, b.offsets ++ [(b.data ++ v).length], v'⟩, 1 + (1 + (v.length + (n + 0))), ?_, ?_, B + 1, Sv + n, k3, by simp only [binaryWork, Option.getD]; omega⟩
        · simp only [BinaryBuffer.callC, BinaryBuffer.pushC, k1, if_pos hc]; rfl
        · simp only [BinaryBuffer.call, BinaryBuffer.push, BinaryBuffer.append, k2, if_pos hc]; rfl
      · refine .inr ⟨.expect, 1 + (1 + (v.length + 0)), ?_, ?_, by simp only [binaryWork, Option.getD]; omega⟩
        · simp only [BinaryBuffer.callC, BinaryBuffer.pushC, if_neg hc]; rfl
        · simp only [BinaryBuffer.call, BinaryBuffer.push, BinaryBuffer.append, if_neg hc]
    | none =>
      rcases false_paid h1 with ⟨v', n, k1, k2, k3⟩ | ⟨k1, k2⟩
      · refine .inl ⟨⟨b.data, b.offsets, v'⟩, 1 + (n + 0), ?_, ?_, B + 1, Sv + n, k3, by simp only [binaryWork, Option.getD]; omega⟩
        · simp only [BinaryBuffer.callC, BinaryBuffer.pushC, k1]; rfl
        · simp only [BinaryBuffer.call, BinaryBuffer.push, BinaryBuffer.appendNull, k2]; rfl
      · refine .inr ⟨.expect, 1 + 0, ?_, ?_, by simp only [binaryWork, Option.getD]; omega⟩
        · simp only [BinaryBuffer.callC, BinaryBuffer.pushC, k1]; rfl
        · simp only [BinaryBuffer.call, BinaryBuffer.push, BinaryBuffer.appendNull, k2]; rfl

/-- The same with the bitmap of the values. -/
def PaidBool (b : BoolBuffer) (W S : Nat) : Prop :=
  ∃ B Sb Bv Sv, Paid b.values B Sb ∧ PaidV b.validity Bv Sv ∧ 2 * S + 3 * B + 3 * Bv ≤ W + 2 * Sb + 2 * Sv

theorem PaidBool.bound {b : BoolBuffer} {W S : Nat} (h : PaidBool b W S) : 2 * S ≤ W := by
  obtain ⟨B, Sb, Bv, Sv, h1, h2, h3⟩ := h
  have := h1.bound
  have := h2.bound
  omega

theorem bool_step {b : BoolBuffer} {W S : Nat} (x : FillCall Empty Bool) (h : PaidBool b W S) :
    (∃ s' n, b.callC x = (.ok s', n) ∧ b.call x = .ok s' ∧ PaidBool s' (W + 8) (S + n)) ∨
      ∃ e n, b.callC x = (.error e, n) ∧ b.call x = .error e ∧ 2 * (S + n) ≤ W + 8 := by
  have hb := h.bound
  obtain ⟨B, Sb, Bv, Sv, h0, h1, h2⟩ := h
  cases x with
  | appendFrom src => cases src
  | clear =>
    obtain ⟨k1, k2⟩ := clear_paidV h1
    obtain ⟨j1, j2⟩ := clear_paid h0
    refine .inl ⟨b.clear, 1, ?_, rfl, B, Sb, Bv, Sv, j2, k2, by omega⟩
    simp only [BoolBuffer.callC, BoolBuffer.clearC, j1, k1]; rfl
  | push row =>
    cases row with
    | some v =>
      obtain ⟨m', z, j1, j2, j3⟩ := append_paid h0 v
      obtain ⟨v', n, k1, k2, k3⟩ := true_paid h1
      refine .inl ⟨⟨m', v', b.len + 1⟩, 1 + (z + (n + 0)), ?_, ?_, B + 1, Sb + z, Bv + 1, Sv + n, j3, k3, by omega⟩
      · simp only [BoolBuffer.callC, BoolBuffer.pushC, j1, k1]; rfl
      · simp only [BoolBuffer.call, BoolBuffer.push, BoolBuffer.append, j2, k2]; rfl
    | none =>
      rcases false_paid h1 with ⟨v', n, k1, k2, k3⟩ | ⟨k1, k2⟩
      · refine .inl ⟨⟨b.values, v', b.len + 1⟩, 1 + (n + 0), ?_, ?_, B, Sb, Bv + 1, Sv + n, h0, k3, by omega⟩
        · simp only [BoolBuffer.callC, BoolBuffer.pushC, k1]; rfl
        · simp only [BoolBuffer.call, BoolBuffer.push, BoolBuffer.appendNull, k2]; rfl
      · refine .inr ⟨.expect, 1 + 0, ?_, ?_, by omega⟩
        · simp only [BoolBuffer.callC, BoolBuffer.pushC, k1]; rfl
        · simp only [BoolBuffer.call, BoolBuffer.push, BoolBuffer.appendNull, k2]; rfl

theorem sum_const {α : Type} (c : Nat) (l : List α) : (l.map fun _ => c).sum = c * l.length := by
  induction l with
  | nil => rfl
  | cons x l ih => rw [List.map_cons, List.sum_cons, ih, List.length_cons, Nat.mul_succ, Nat.add_comm]

end FillSteps

/-- The number of rows from the one at `pos` on up to the `n`th of them that has a value, or to the last row if there are not so
many, in a buffer with this validity. Without one they are not looked at. -/
def Spec.rowsPassed (validity : Option Bitmap) (pos n : Nat) : Nat := FillSteps.rowsUpToV validity pos n

open FillSteps in
/-- C116, primitive buffer: counting changes nothing, and any calls of `append`, `append_null`, `append_from` and `clear` on a new
buffer take at most three and a half steps each or, for `append_from`, one, one for each value and one and a half for each row
passed; on the average, and also if the last of them panics. -/
theorem C116_primitive {α : Type} (nullable : Bool) (calls : List (FillCall (PrimitiveBuffer α) α)) :
    (calls.foldlM PrimitiveBuffer.callC (PrimitiveBuffer.new nullable)).result =
      calls.foldlM PrimitiveBuffer.call (PrimitiveBuffer.new nullable) ∧
    2 * (calls.foldlM PrimitiveBuffer.callC (PrimitiveBuffer.new nullable)).steps ≤ (calls.map fun
      | .push _ => 7
      | .appendFrom src i j pos => 2 + 2 * (j - i) + 3 * Spec.rowsPassed src.validity pos (j - i)
      | .clear => 2).sum := by
  have h := fold_paid PrimitiveBuffer.callC PrimitiveBuffer.call primitiveWork
    (fun b W S => PaidB b.validity W S) PaidB.bound primitive_step calls (s := PrimitiveBuffer.new nullable) (W := 0) (S := 0)
    ⟨0, 0, new_paidV nullable, by omega⟩
  refine ⟨h.1, ?_⟩
  have h2 := h.2
  rw [Nat.zero_add, Nat.zero_add] at h2
  refine Nat.le_trans h2 (Nat.le_of_eq (congrArg List.sum (List.map_congr_left fun x _ => ?_)))
  cases x <;> rfl

open FillSteps in
/-- C116, binary buffer: the same, and one step for each byte of the values. -/
theorem C116_binary (p : Profile) (nullable : Bool) (calls : List (FillCall BinaryBuffer Bytes)) :
    (calls.foldlM (BinaryBuffer.callC p) (BinaryBuffer.new nullable)).result =
      calls.foldlM (BinaryBuffer.call p) (BinaryBuffer.new nullable) ∧
    2 * (calls.foldlM (BinaryBuffer.callC p) (BinaryBuffer.new nullable)).steps ≤ (calls.map fun
      | .push row => 7 + 2 * (row.getD []).length
      | .appendFrom src i j pos => 2 + 2 * (j - i) + 2 * ((src.offsets[j]?).getD 0 - (src.offsets[i]?).getD 0) +
          3 * match p.sub 64 j i with
            | .ok n => Spec.rowsPassed src.validity pos n
            | .error _ => 0
      | .clear => 2).sum := by
  have h := fold_paid (BinaryBuffer.callC p) (BinaryBuffer.call p) (binaryWork p)
    (fun b W S => PaidB b.validity W S) PaidB.bound (binary_step p) calls (s := BinaryBuffer.new nullable) (W := 0) (S := 0)
    ⟨0, 0, new_paidV nullable, by omega⟩
  refine ⟨h.1, ?_⟩
  have h2 := h.2
  rw [Nat.zero_add, Nat.zero_add] at h2
  refine Nat.le_trans h2 (Nat.le_of_eq (congrArg List.sum (List.map_congr_left fun x _ => ?_)))
  cases x <;> rfl

open FillSteps in
/-- C116, buffer of booleans, which has no `append_from`: at most four steps for each call. -/
theorem C116_bool (nullable : Bool) (calls : List (FillCall Empty Bool)) :
    (calls.foldlM BoolBuffer.callC (BoolBuffer.new nullable)).result =
      calls.foldlM BoolBuffer.call (BoolBuffer.new nullable) ∧
    (calls.foldlM BoolBuffer.callC (BoolBuffer.new nullable)).steps ≤ 4 * calls.length := by
  have h := fold_paid BoolBuffer.callC BoolBuffer.call (fun _ : FillCall Empty Bool => 8)
    PaidBool PaidBool.bound bool_step calls (s := BoolBuffer.new nullable) (W := 0) (S := 0)
    ⟨0, 0, 0, 0, new_paid, new_paidV nullable, by omega⟩
  rw [sum_const] at h
  exact ⟨h.1, by have := h.2; omega⟩

/-- The rows passed are no more than the buffer has. -/
theorem C116_rows_passed (m : Bitmap) (pos n : Nat) : Spec.rowsPassed (some m) pos n ≤ m.len - pos := by
  show FillSteps.rowsUpTo m pos n ≤ _
  rw [FillSteps.rowsUpTo]
  split
  · omega
  · split
    · have := C116_rows_passed m (pos + 1) (n - (m.bitAt pos).toNat)
      have : FillSteps.rowsUpTo m (pos + 1) (n - (m.bitAt pos).toNat) ≤ m.len - (pos + 1) := this
      omega
    · omega
termination_by m.len - pos

/-- Two values, a null, a `clear` and a value take 12 steps; without a validity the null panics, after five. -/
example : ([.push (some 1), .push (some 2), .push none, .clear, .push (some 3)].foldlM PrimitiveBuffer.callC
      (PrimitiveBuffer.new (α := Nat) true)).steps = 12 ∧
    ([.push (some 1), .push (some 2), .push none, .clear, .push (some 3)].foldlM PrimitiveBuffer.callC
      (PrimitiveBuffer.new (α := Nat) false)).steps = 5 := by decide +kernel

/-- Three of four rows copied, the second of which is null: one step for the call, two for the values and three for the rows. -/
example : (do
    let b ← (PrimitiveBuffer.new (α := Nat) true).pushAll [some 1, none, some 2, some 3]
    return (((PrimitiveBuffer.new true).callC (.appendFrom b 0 2 0)).steps, Spec.rowsPassed b.validity 0 2)) =
    (.ok (6, 3) : Res (Nat × Nat)) := by decide +kernel

/-- A bitmap that is full: the 8193rd bit takes 2049 steps. -/
example : (Bitmap.appendC { values := List.replicate 1024 255, len := 8192 } true).steps = 2049 := by decide +kernel

end Meerkat
