import Verif.Model.Varint
import Verif.Spec.Varint

set_option autoImplicit false

/-! # Varint decoding and encoding -/

namespace Meerkat.Varint
open Spec

theorem shl7 {a : Nat} (h : a < 256) : shl 32 a 7 = a * 128 := by
  simp only [shl, Nat.shiftLeft_eq]; omega
theorem shl14 {a : Nat} (h : a < 256) : shl 32 a 14 = a * 16384 := by
  simp only [shl, Nat.shiftLeft_eq]; omega
theorem shl21 {a : Nat} (h : a < 256) : shl 32 a 21 = a * 2097152 := by
  simp only [shl, Nat.shiftLeft_eq]; omega
theorem shl28 {a : Nat} (h : a < 2 ^ 29) : shl 64 a 28 = a * 268435456 := by
  simp only [shl, Nat.shiftLeft_eq]; omega
theorem shl56 {a : Nat} : shl 64 a 56 = a * 72057594037927936 % 2 ^ 64 := by
  simp only [shl, Nat.shiftLeft_eq]

/-! The unrolled code, cut before each byte read: `dK` is what remains to be done when byte `K` is
about to be read. `decode_eq` checks that the pieces put together are the model. -/
/-- Before byte 9. -/
def d9 (p : Profile) (buf : Bytes) (value part2 : Nat) : Res (Option (Nat × Nat)) := do
  let b ← index buf 9
  let part2 ← p.add 32 part2 (shl 32 b.toNat 7)
  if b.toNat < 0x80 then return some (← p.add 64 value (shl 64 part2 56), 10)
  return none

/-- Before byte 8. -/
def d8 (p : Profile) (buf : Bytes) (value : Nat) : Res (Option (Nat × Nat)) := do
  let b ← index buf 8
  let part2 := b.toNat
  if b.toNat < 0x80 then return some (← p.add 64 value (shl 64 part2 56), 9)
  let part2 ← p.sub 32 part2 0x80
  d9 p buf value part2

/-- Before byte 7. -/
def d7 (p : Profile) (buf : Bytes) (value part1 : Nat) : Res (Option (Nat × Nat)) := do
  let b ← index buf 7
  let part1 ← p.add 32 part1 (shl 32 b.toNat 21)
  if b.toNat < 0x80 then return some (← p.add 64 value (shl 64 part1 28), 8)
  let part1 ← p.sub 32 part1 (shl 32 0x80 21)
  let value ← p.add 64 value (shl 64 part1 28)
  d8 p buf value

/-- Before byte 6. -/
def d6 (p : Profile) (buf : Bytes) (value part1 : Nat) : Res (Option (Nat × Nat)) := do
  let b ← index buf 6
  let part1 ← p.add 32 part1 (shl 32 b.toNat 14)
  if b.toNat < 0x80 then return some (← p.add 64 value (shl 64 part1 28), 7)
  let part1 ← p.sub 32 part1 (shl 32 0x80 14)
  d7 p buf value part1

/-- Before byte 5. -/
def d5 (p : Profile) (buf : Bytes) (value part1 : Nat) : Res (Option (Nat × Nat)) := do
  let b ← index buf 5
  let part1 ← p.add 32 part1 (shl 32 b.toNat 7)
  if b.toNat < 0x80 then return some (← p.add 64 value (shl 64 part1 28), 6)
  let part1 ← p.sub 32 part1 (shl 32 0x80 7)
  d6 p buf value part1

/-- Before byte 4. -/
def d4 (p : Profile) (buf : Bytes) (value : Nat) : Res (Option (Nat × Nat)) := do
  let b ← index buf 4
  let part1 := b.toNat
  if b.toNat < 0x80 then return some (← p.add 64 value (shl 64 part1 28), 5)
  let part1 ← p.sub 32 part1 0x80
  d5 p buf value part1

/-- Before byte 3. -/
def d3 (p : Profile) (buf : Bytes) (part0 : Nat) : Res (Option (Nat × Nat)) := do
  let b ← index buf 3
  let part0 ← p.add 32 part0 (shl 32 b.toNat 21)
  if b.toNat < 0x80 then return some (part0, 4)
  let part0 ← p.sub 32 part0 (shl 32 0x80 21)
  d4 p buf part0

/-- Before byte 2. -/
def d2 (p : Profile) (buf : Bytes) (part0 : Nat) : Res (Option (Nat × Nat)) := do
  let b ← index buf 2
  let part0 ← p.add 32 part0 (shl 32 b.toNat 14)
  if b.toNat < 0x80 then return some (part0, 3)
  let part0 ← p.sub 32 part0 (shl 32 0x80 14)
  d3 p buf part0

/-- Before byte 1. -/
def d1 (p : Profile) (buf : Bytes) (part0 : Nat) : Res (Option (Nat × Nat)) := do
  let b ← index buf 1
  let part0 ← p.add 32 part0 (shl 32 b.toNat 7)
  if b.toNat < 0x80 then return some (part0, 2)
  let part0 ← p.sub 32 part0 (shl 32 0x80 7)
  d2 p buf part0

/-- Before byte 0. -/
def d0 (p : Profile) (buf : Bytes) : Res (Option (Nat × Nat)) := do
  let b ← index buf 0
  let part0 := b.toNat
  if b.toNat < 0x80 then return some (part0, 1)
  let part0 ← p.sub 32 part0 0x80
  d1 p buf part0

theorem decode_eq (p : Profile) (buf : Bytes) : decodeVarint p buf = d0 p buf := rfl

/-- What should remain to be returned when byte `k` is about to be read and the digits read so far
amount to `v`. -/
def rest (buf : Bytes) : Nat → Nat → Nat → Res (Option (Nat × Nat))
  | 0, _, _ => .ok none
  | fuel + 1, k, v =>
    match buf[k]? with
    | none => .error .index
    | some b =>
      if b.toNat < 128 then .ok (some ((v + b.toNat * 128 ^ k) % 2 ^ 64, k + 1))
      else rest buf fuel (k + 1) (v + (b.toNat - 128) * 128 ^ k)

theorem ret_congr {a b i j : Nat} (h : a = b) (h' : i = j) :
    (Except.ok (some (a, i)) : Res (Option (Nat × Nat))) = .ok (some (b, j)) := by rw [h, h']

theorem rest_congr {buf : Bytes} {f k v w : Nat} (h : v = w) : rest buf f k v = rest buf f k w := by rw [h]

theorem d9_eq (p : Profile) (buf : Bytes) (value part2 : Nat) (hv : value < 2 ^ 56) (h2 : part2 < 128) :
    d9 p buf value part2 = rest buf 1 9 (value + part2 * 2 ^ 56) := by
  simp only [d9, rest, index]
  cases buf[9]? with
  | none => rfl
  | some b =>
    have hb := b.toNat_lt
    simp only [ok_bind]
    rw [shl7 hb, Profile.add_ok _ (by omega)]
    simp only [ok_bind]
    split
    · rw [shl56, Profile.add_ok _ (by omega)]
      simp only [ok_bind, pure_eq_ok]
      exact ret_congr (by omega) (by omega)
    · rfl

theorem d8_eq (p : Profile) (buf : Bytes) (value : Nat) (hv : value < 2 ^ 56) :
    d8 p buf value = rest buf 2 8 value := by
  simp only [d8]
  rw [rest]
  simp only [index]
  cases buf[8]? with
  | none => rfl
  | some b =>
    have hb := b.toNat_lt
    simp only [ok_bind]
    by_cases hc : b.toNat < 128
    · rw [if_pos hc, if_pos hc, shl56, Profile.add_ok _ (by omega)]
      simp only [ok_bind, pure_eq_ok]
      exact ret_congr (by omega) (by omega)
    · rw [if_neg hc, if_neg hc, Profile.sub_ok _ (by omega)]
      simp only [ok_bind]
      rw [d9_eq _ _ _ _ hv (by omega)]

theorem d7_eq (p : Profile) (buf : Bytes) (value part1 : Nat) (hv : value < 2 ^ 28) (h1 : part1 < 2097152) :
    d7 p buf value part1 = rest buf 3 7 (value + part1 * 2 ^ 28) := by
  simp only [d7]
  rw [rest]
  simp only [index]
  cases buf[7]? with
  | none => rfl
  | some b =>
    have hb := b.toNat_lt
    simp only [ok_bind]
    rw [shl21 hb, Profile.add_ok _ (by omega)]
    simp only [ok_bind]
    by_cases hc : b.toNat < 128
    · rw [if_pos hc, if_pos hc, shl28 (by omega), Profile.add_ok _ (by omega)]
      simp only [ok_bind, pure_eq_ok]
      exact ret_congr (by omega) (by omega)
    · rw [if_neg hc, if_neg hc]
      have e128 : shl 32 128 21 = 128 * 2097152 := shl21 (by omega)
      rw [e128, Profile.sub_ok _ (by omega)]
      simp only [ok_bind]
      rw [shl28 (by omega), Profile.add_ok _ (by omega)]
      simp only [ok_bind]
      rw [d8_eq _ _ _ (by omega)]
      exact rest_congr (by omega)

theorem d6_eq (p : Profile) (buf : Bytes) (value part1 : Nat) (hv : value < 2 ^ 28) (h1 : part1 < 16384) :
    d6 p buf value part1 = rest buf 4 6 (value + part1 * 2 ^ 28) := by
  simp only [d6]
  rw [rest]
  simp only [index]
  cases buf[6]? with
  | none => rfl
  | some b =>
    have hb := b.toNat_lt
    simp only [ok_bind]
    rw [shl14 hb, Profile.add_ok _ (by omega)]
    simp only [ok_bind]
    by_cases hc : b.toNat < 128
    · rw [if_pos hc, if_pos hc, shl28 (by omega), Profile.add_ok _ (by omega)]
      simp only [ok_bind, pure_eq_ok]
      exact ret_congr (by omega) (by omega)
    · rw [if_neg hc, if_neg hc]
      have e128 : shl 32 128 14 = 128 * 16384 := shl14 (by omega)
      rw [e128, Profile.sub_ok _ (by omega)]
      simp only [ok_bind]
      rw [d7_eq _ _ _ _ hv (by omega)]
      exact rest_congr (by omega)

theorem d5_eq (p : Profile) (buf : Bytes) (value part1 : Nat) (hv : value < 2 ^ 28) (h1 : part1 < 128) :
    d5 p buf value part1 = rest buf 5 5 (value + part1 * 2 ^ 28) := by
  simp only [d5]
  rw [rest]
  simp only [index]
  cases buf[5]? with
  | none => rfl
  | some b =>
    have hb := b.toNat_lt
    simp only [ok_bind]
    rw [shl7 hb, Profile.add_ok _ (by omega)]
    simp only [ok_bind]
    by_cases hc : b.toNat < 128
    · rw [if_pos hc, if_pos hc, shl28 (by omega), Profile.add_ok _ (by omega)]
      simp only [ok_bind, pure_eq_ok]
      exact ret_congr (by omega) (by omega)
    · rw [if_neg hc, if_neg hc]
      have e128 : shl 32 128 7 = 128 * 128 := shl7 (by omega)
      rw [e128, Profile.sub_ok _ (by omega)]
      simp only [ok_bind]
      rw [d6_eq _ _ _ _ hv (by omega)]
      exact rest_congr (by omega)

theorem d4_eq (p : Profile) (buf : Bytes) (value : Nat) (hv : value < 2 ^ 28) :
    d4 p buf value = rest buf 6 4 value := by
  simp only [d4]
  rw [rest]
  simp only [index]
  cases buf[4]? with
  | none => rfl
  | some b =>
    have hb := b.toNat_lt
    simp only [ok_bind]
    by_cases hc : b.toNat < 128
    · rw [if_pos hc, if_pos hc, shl28 (by omega), Profile.add_ok _ (by omega)]
      simp only [ok_bind, pure_eq_ok]
      exact ret_congr (by omega) (by omega)
    · rw [if_neg hc, if_neg hc, Profile.sub_ok _ (by omega)]
      simp only [ok_bind]
      rw [d5_eq _ _ _ _ hv (by omega)]

theorem d3_eq (p : Profile) (buf : Bytes) (part0 : Nat) (h0 : part0 < 2097152) :
    d3 p buf part0 = rest buf 7 3 part0 := by
  simp only [d3]
  rw [rest]
  simp only [index]
  cases buf[3]? with
  | none => rfl
  | some b =>
    have hb := b.toNat_lt
    simp only [ok_bind]
    rw [shl21 hb, Profile.add_ok _ (by omega)]
    simp only [ok_bind]
    by_cases hc : b.toNat < 128
    · rw [if_pos hc, if_pos hc]
      simp only [pure_eq_ok]
      exact ret_congr (by omega) (by omega)
    · rw [if_neg hc, if_neg hc]
      have e128 : shl 32 128 21 = 128 * 2097152 := shl21 (by omega)
      rw [e128, Profile.sub_ok _ (by omega)]
      simp only [ok_bind]
      rw [d4_eq _ _ _ (by omega)]
      exact rest_congr (by omega)

theorem d2_eq (p : Profile) (buf : Bytes) (part0 : Nat) (h0 : part0 < 16384) :
    d2 p buf part0 = rest buf 8 2 part0 := by
  simp only [d2]
  rw [rest]
  simp only [index]
  cases buf[2]? with
  | none => rfl
  | some b =>
    have hb := b.toNat_lt
    simp only [ok_bind]
    rw [shl14 hb, Profile.add_ok _ (by omega)]
    simp only [ok_bind]
    by_cases hc : b.toNat < 128
    · rw [if_pos hc, if_pos hc]
      simp only [pure_eq_ok]
      exact ret_congr (by omega) (by omega)
    · rw [if_neg hc, if_neg hc]
      have e128 : shl 32 128 14 = 128 * 16384 := shl14 (by omega)
      rw [e128, Profile.sub_ok _ (by omega)]
      simp only [ok_bind]
      rw [d3_eq _ _ _ (by omega)]
      exact rest_congr (by omega)

theorem d1_eq (p : Profile) (buf : Bytes) (part0 : Nat) (h0 : part0 < 128) :
    d1 p buf part0 = rest buf 9 1 part0 := by
  simp only [d1]
  rw [rest]
  simp only [index]
  cases buf[1]? with
  | none => rfl
  | some b =>
    have hb := b.toNat_lt
    simp only [ok_bind]
    rw [shl7 hb, Profile.add_ok _ (by omega)]
    simp only [ok_bind]
    by_cases hc : b.toNat < 128
    · rw [if_pos hc, if_pos hc]
      simp only [pure_eq_ok]
      exact ret_congr (by omega) (by omega)
    · rw [if_neg hc, if_neg hc]
      have e128 : shl 32 128 7 = 128 * 128 := shl7 (by omega)
      rw [e128, Profile.sub_ok _ (by omega)]
      simp only [ok_bind]
      rw [d2_eq _ _ _ (by omega)]
      exact rest_congr (by omega)

theorem decode_rest (p : Profile) (buf : Bytes) : decodeVarint p buf = rest buf 10 0 0 := by
  rw [decode_eq]
  simp only [d0]
  rw [rest]
  simp only [index]
  cases buf[0]? with
  | none => rfl
  | some b =>
    have hb := b.toNat_lt
    simp only [ok_bind]
    by_cases hc : b.toNat < 128
    · rw [if_pos hc, if_pos hc]
      simp only [pure_eq_ok]
      exact ret_congr (by omega) (by omega)
    · rw [if_neg hc, if_neg hc, Profile.sub_ok _ (by omega)]
      simp only [ok_bind]
      rw [d1_eq _ _ _ (by omega)]
      exact rest_congr (by omega)

theorem rest_varint (pre s t : Bytes) (v fuel : Nat) (hs : IsVarint s) (hl : s.length ≤ fuel) :
    rest (pre ++ s ++ t) fuel pre.length v =
      .ok (some ((v + leb128 s * 128 ^ pre.length) % 2 ^ 64, pre.length + s.length)) := by
  induction s generalizing pre v fuel with
  | nil => exact hs.elim
  | cons b s ih =>
    cases fuel with
    | zero => simp at hl
    | succ fuel =>
      rw [rest]
      have hg : (pre ++ (b :: s) ++ t)[pre.length]? = some b := by simp
      rw [hg]
      have hb := b.toNat_lt
      cases s with
      | nil =>
        simp only [IsVarint] at hs
        simp only [if_pos hs, leb128, List.length_cons, List.length_nil, Nat.mul_zero, Nat.add_zero]
        rw [Nat.mod_eq_of_lt hs]
      | cons c s =>
        obtain ⟨h1, h2⟩ := hs
        simp only [if_neg (Nat.not_lt.mpr h1)]
        have := ih (pre ++ [b]) (v + (b.toNat - 128) * 128 ^ pre.length) fuel h2 (by simpa using hl)
        simp only [List.append_assoc, List.cons_append, List.nil_append, List.length_append,
          List.length_cons, List.length_nil, Nat.zero_add] at this ⊢
        rw [this]
        have e : v + (b.toNat - 128) * 128 ^ pre.length + leb128 (c :: s) * 128 ^ (pre.length + 1) =
            v + leb128 (b :: c :: s) * 128 ^ pre.length := by
          have hb' : b.toNat % 128 = b.toNat - 128 := by omega
          rw [leb128.eq_2 b, hb', Nat.pow_succ, Nat.add_mul, Nat.add_assoc]
          congr 2
          rw [Nat.mul_comm 128, Nat.mul_assoc, Nat.mul_comm 128]
        rw [e]
        simp only [Except.ok.injEq, Option.some.injEq, Prod.mk.injEq, true_and]; omega

theorem rest_long (pre s t : Bytes) (v : Nat) (hs : ∀ b ∈ s, 128 ≤ b.toNat) :
    rest (pre ++ s ++ t) s.length pre.length v = .ok none := by
  induction s generalizing pre v with
  | nil => rfl
  | cons b s ih =>
    rw [List.length_cons, rest]
    have hg : (pre ++ (b :: s) ++ t)[pre.length]? = some b := by simp
    have h1 : ¬ b.toNat < 128 := Nat.not_lt.mpr (hs b (by simp))
    rw [hg]
    simp only [if_neg h1]
    have := ih (pre ++ [b]) (v + (b.toNat - 128) * 128 ^ pre.length) fun c hc => hs c (by simp [hc])
    simpa using this

theorem rest_short (pre s : Bytes) (v fuel : Nat) (hs : ∀ b ∈ s, 128 ≤ b.toNat) (hl : s.length < fuel) :
    rest (pre ++ s) fuel pre.length v = .error .index := by
  induction s generalizing pre v fuel with
  | nil =>
    cases fuel with
    | zero => simp at hl
    | succ fuel => rw [rest]; simp
  | cons b s ih =>
    cases fuel with
    | zero => simp at hl
    | succ fuel =>
      rw [rest]
      have hg : (pre ++ (b :: s))[pre.length]? = some b := by simp
      have h1 : ¬ b.toNat < 128 := Nat.not_lt.mpr (hs b (by simp))
      rw [hg]
      simp only [if_neg h1]
      have := ih (pre ++ [b]) (v + (b.toNat - 128) * 128 ^ pre.length) fuel
        (fun c hc => hs c (by simp [hc])) (by simpa using hl)
      simpa using this

theorem decode_varint_ok (p : Profile) (s t : Bytes) (hs : IsVarint s) (hl : s.length ≤ 10) :
    decodeVarint p (s ++ t) = .ok (some (leb128 s % 2 ^ 64, s.length)) := by
  have := rest_varint [] s t 0 10 hs hl
  rw [decode_rest]; simpa using this

theorem decode_varint_err (p : Profile) (s t : Bytes) (hs : ∀ b ∈ s, 128 ≤ b.toNat) (hl : s.length = 10) :
    decodeVarint p (s ++ t) = .ok none := by
  have := rest_long [] s t 0 hs
  rw [decode_rest]; rw [hl] at this; simpa using this

theorem decode_varint_panic (p : Profile) (s : Bytes) (hs : ∀ b ∈ s, 128 ≤ b.toNat) (hl : s.length < 10) :
    decodeVarint p s = .error .index := by
  have := rest_short [] s 0 10 hs hl
  rw [decode_rest]; simpa using this

/-- Every byte string starts with a varint of at most `n` bytes, or with `n` continuation bytes, or
is made of fewer than `n` continuation bytes. -/
theorem varint_cases (n : Nat) (buf : Bytes) :
    (∃ s t, buf = s ++ t ∧ IsVarint s ∧ s.length ≤ n) ∨
    (∃ s t, buf = s ++ t ∧ (∀ b ∈ s, 128 ≤ b.toNat) ∧ s.length = n) ∨
    ((∀ b ∈ buf, 128 ≤ b.toNat) ∧ buf.length < n) := by
  induction n generalizing buf with
  | zero => right; left; exact ⟨[], buf, rfl, by simp, rfl⟩
  | succ n ih =>
    cases buf with
    | nil => right; right; simp
    | cons b bs =>
      by_cases hb : b.toNat < 128
      · left; exact ⟨[b], bs, rfl, hb, by simp⟩
      · have hb' : 128 ≤ b.toNat := by omega
        rcases ih bs with ⟨s, t, rfl, hs, hl⟩ | ⟨s, t, rfl, hs, hl⟩ | ⟨hs, hl⟩
        · left
          refine ⟨b :: s, t, rfl, ?_, by simpa using hl⟩
          cases s with
          | nil => exact hs.elim
          | cons c s => exact ⟨hb', hs⟩
        · right; left; exact ⟨b :: s, t, rfl, by simpa [hb'] using hs, by simp [hl]⟩
        · right; right; exact ⟨by simpa [hb'] using hs, by simpa using hl⟩

/-- The bytes `encode_varint` writes. -/
def varintBytes (v : Nat) : Bytes :=
  if v < 128 then [UInt8.ofNat v] else UInt8.ofNat (v % 128 + 128) :: varintBytes (v / 128)
termination_by v

theorem varintBytes_lt {v : Nat} (h : v < 128) : varintBytes v = [UInt8.ofNat v] := by
  rw [varintBytes, if_pos h]
theorem varintBytes_ge {v : Nat} (h : 128 ≤ v) :
    varintBytes v = UInt8.ofNat (v % 128 + 128) :: varintBytes (v / 128) := by
  rw [varintBytes, if_neg (Nat.not_lt.mpr h)]

theorem varintBytes_ne_nil (v : Nat) : varintBytes v ≠ [] := by
  rw [varintBytes]; split <;> simp

theorem varintBytes_isVarint (v : Nat) : IsVarint (varintBytes v) := by
  induction v using Nat.strongRecOn with
  | _ v ih =>
    by_cases h : v < 128
    · rw [varintBytes_lt h]; simp only [IsVarint, UInt8.toNat_ofNat']; omega
    · have h' : 128 ≤ v := by omega
      rw [varintBytes_ge h']
      have := ih (v / 128) (by omega)
      cases hb : varintBytes (v / 128) with
      | nil => exact absurd hb (varintBytes_ne_nil _)
      | cons c s =>
        rw [hb] at this
        exact ⟨by rw [UInt8.toNat_ofNat']; omega, this⟩

theorem varintBytes_leb (v : Nat) : leb128 (varintBytes v) = v := by
  induction v using Nat.strongRecOn with
  | _ v ih =>
    by_cases h : v < 128
    · rw [varintBytes_lt h]; simp only [leb128, UInt8.toNat_ofNat']; omega
    · have h' : 128 ≤ v := by omega
      rw [varintBytes_ge h']
      simp only [leb128, UInt8.toNat_ofNat', ih (v / 128) (by omega)]; omega

theorem varintBytes_bounds (v : Nat) :
    v < 128 ^ (varintBytes v).length ∧
      ((varintBytes v).length = 1 ∨ 128 ^ ((varintBytes v).length - 1) ≤ v) ∧
      1 ≤ (varintBytes v).length := by
  induction v using Nat.strongRecOn with
  | _ v ih =>
    by_cases h : v < 128
    · rw [varintBytes_lt h]; simp; omega
    · have h' : 128 ≤ v := by omega
      rw [varintBytes_ge h', List.length_cons]
      obtain ⟨h1, h2, h3⟩ := ih (v / 128) (by omega)
      generalize (varintBytes (v / 128)).length = n at *
      have e : 128 ^ (n + 1) = 128 * 128 ^ n := by rw [Nat.pow_succ, Nat.mul_comm]
      refine ⟨by omega, .inr ?_, by omega⟩
      rw [Nat.add_sub_cancel]
      rcases h2 with h2 | h2
      · subst h2; simpa using h'
      · have e2 : 128 ^ n = 128 * 128 ^ (n - 1) := by
          rw [← Nat.pow_succ']; congr 1; omega
        omega

theorem varintBytes_length_le {v k : Nat} (hk : 1 ≤ k) (h : v < 128 ^ k) : (varintBytes v).length ≤ k := by
  obtain ⟨_, h2, h3⟩ := varintBytes_bounds v
  rcases h2 with h2 | h2
  · omega
  · have : 128 ^ ((varintBytes v).length - 1) < 128 ^ k := Nat.lt_of_le_of_lt h2 h
    have := (Nat.pow_lt_pow_iff_right (by omega)).mp this
    omega

theorem varintBytes_length_le_ten {v : Nat} (h : v < 2 ^ 64) : (varintBytes v).length ≤ 10 :=
  varintBytes_length_le (by omega) (by omega)

theorem decode_varintBytes (p : Profile) {v : Nat} (h : v < 2 ^ 64) (t : Bytes) :
    decodeVarint p (varintBytes v ++ t) = .ok (some (v, (varintBytes v).length)) := by
  rw [decode_varint_ok p _ t (varintBytes_isVarint v) (varintBytes_length_le_ten h), varintBytes_leb,
    Nat.mod_eq_of_lt h]

theorem digit_eq (v : Nat) : (v &&& 127) ||| 128 = v % 128 + 128 := by
  have h : v &&& 127 = v % 128 := Nat.and_two_pow_sub_one_eq_mod v 7
  rw [h, Nat.or_comm]
  have := Nat.two_pow_add_eq_or_of_lt (i := 7) (b := v % 128) (by omega) 1
  simp at this; omega

/-- The loop writes `varintBytes` in place. -/
theorem encodeLoop_ok (v : Nat) (pre post : Bytes) (hl : (varintBytes v).length ≤ post.length) :
    encodeLoop v (pre ++ post) pre.length =
      .ok (pre ++ varintBytes v ++ post.drop (varintBytes v).length,
        pre.length + (varintBytes v).length) := by
  induction v using Nat.strongRecOn generalizing pre post with
  | _ v ih =>
    have hstore : ∀ (x : Byte) (q : Byte) (qs : Bytes), store (pre ++ q :: qs) pre.length x =
        .ok (pre ++ [x] ++ qs) := by
      intro x q qs; simp [store]
    by_cases h : v < 128
    · rw [varintBytes_lt h] at hl ⊢
      rw [encodeLoop, if_neg (by omega)]
      cases post with
      | nil => simp at hl
      | cons q qs => rw [hstore]; simp
    · have h' : 128 ≤ v := by omega
      rw [varintBytes_ge h'] at hl ⊢
      rw [encodeLoop, if_pos h']
      cases post with
      | nil => simp at hl
      | cons q qs =>
        rw [hstore, digit_eq]
        simp only [ok_bind]
        have hs : v >>> 7 = v / 128 := Nat.shiftRight_eq_div_pow v 7
        have := ih (v / 128) (by omega) (pre ++ [UInt8.ofNat (v % 128 + 128)]) qs (by simpa using hl)
        rw [hs]
        simp only [List.length_append, List.length_cons, List.length_nil, Nat.zero_add] at this ⊢
        rw [this]
        simp; omega

theorem encodeLoop_panic (v : Nat) (pre post : Bytes) (hl : post.length < (varintBytes v).length) :
    encodeLoop v (pre ++ post) pre.length = .error .index := by
  induction v using Nat.strongRecOn generalizing pre post with
  | _ v ih =>
    have hstore : ∀ (x : Byte) (q : Byte) (qs : Bytes), store (pre ++ q :: qs) pre.length x =
        .ok (pre ++ [x] ++ qs) := by
      intro x q qs; simp [store]
    by_cases h : v < 128
    · rw [varintBytes_lt h] at hl
      rw [encodeLoop, if_neg (by omega)]
      cases post with
      | nil => simp [store]
      | cons q qs => simp at hl
    · have h' : 128 ≤ v := by omega
      rw [varintBytes_ge h'] at hl
      rw [encodeLoop, if_pos h']
      cases post with
      | nil => simp [store]
      | cons q qs =>
        rw [hstore]
        simp only [ok_bind]
        have hs : v >>> 7 = v / 128 := Nat.shiftRight_eq_div_pow v 7
        have := ih (v / 128) (by omega) (pre ++ [UInt8.ofNat ((v &&& 127) ||| 128)]) qs (by simpa using hl)
        rw [hs]
        simpa using this

theorem encodeVarint_ok (v : Nat) (buf : Bytes) (hl : (varintBytes v).length ≤ buf.length) :
    encodeVarint v buf =
      .ok (varintBytes v ++ buf.drop (varintBytes v).length, (varintBytes v).length) := by
  have := encodeLoop_ok v [] buf hl
  simpa [encodeVarint] using this

theorem putVarint_ok (dst : Bytes) {v : Nat} (h : v < 2 ^ 64) :
    putVarint dst v = .ok (dst ++ varintBytes v) := by
  have hl := varintBytes_length_le_ten h
  simp only [putVarint]
  rw [encodeVarint_ok _ _ (by simpa [MAX_VARINT_LEN] using hl)]
  simp only [ok_bind]
  rw [slice, if_pos (by simp)]
  simp

/-- Two varints, one a prefix of the other, are equal. -/
theorem isVarint_prefix {s t : Bytes} (hs : IsVarint s) (ht : IsVarint t) (h : s <+: t) : s = t := by
  induction s generalizing t with
  | nil => exact hs.elim
  | cons b s ih =>
    cases t with
    | nil => simp at h
    | cons c t =>
      obtain ⟨rfl, hp⟩ := List.cons_prefix_cons.mp h
      cases s with
      | nil =>
        cases t with
        | nil => rfl
        | cons d t => have h1 := hs; have h2 := ht.1; simp only [IsVarint] at h1; omega
      | cons d s =>
        cases t with
        | nil => simp at hp
        | cons e t => rw [ih hs.2 ht.2 hp]

theorem leb128_lt (s : Bytes) : leb128 s < 128 ^ s.length := by
  induction s with
  | nil => simp [leb128]
  | cons b s ih =>
    rw [leb128, List.length_cons, Nat.pow_succ]
    have : b.toNat % 128 < 128 := Nat.mod_lt _ (by omega)
    omega

theorem encodedLen_eq {v : Nat} (h : v < 2 ^ 64) : encodedLenVarint v = (varintBytes v).length := by
  have hne : v ||| 1 ≠ 0 := by
    intro h0
    have := congrArg (fun x => x.testBit 0) h0
    simp at this
  have hv1 : v ≤ v ||| 1 := Nat.left_le_or
  have hlt : v ||| 1 < 2 ^ 64 := Nat.or_lt_two_pow h (by omega)
  have hlog : (v ||| 1).log2 < 64 := (Nat.log2_lt hne).mpr hlt
  have tab : ∀ l : Fin 64, (((63 - l.val) ^^^ 63) * 9 + 73) / 64 = l.val / 7 + 1 := by decide
  have := tab ⟨_, hlog⟩
  simp only at this
  rw [encodedLenVarint, leadingZeros64, if_neg hne, this]
  obtain ⟨b1, b2, b3⟩ := varintBytes_bounds v
  generalize (varintBytes v).length = n at *
  have hp : ∀ k, 128 ^ k = 2 ^ (7 * k) := by
    intro k; rw [Nat.pow_mul]
  have up : (v ||| 1).log2 < 7 * n := by
    rw [Nat.log2_lt hne, ← hp]
    rw [hp] at b1 ⊢
    exact Nat.or_lt_two_pow b1 (Nat.one_lt_two_pow (by omega))
  rcases b2 with b2 | b2
  · omega
  · rw [hp] at b2
    have := (Nat.le_log2 hne).mpr (Nat.le_trans b2 hv1)
    omega

theorem decode_some_pos {p : Profile} {buf : Bytes} {v n : Nat} (h : decodeVarint p buf = .ok (some (v, n))) :
    1 ≤ n ∧ n ≤ buf.length := by
  rcases varint_cases 10 buf with ⟨s, t, e, hs, hl⟩ | ⟨s, t, e, hs, hl⟩ | ⟨hs, hl⟩
  · rw [e, decode_varint_ok p s t hs hl] at h
    simp only [Except.ok.injEq, Option.some.injEq, Prod.mk.injEq] at h
    obtain ⟨_, rfl⟩ := h
    cases s with
    | nil => exact hs.elim
    | cons b s => rw [e]; simp
  · rw [e, decode_varint_err p s t hs hl] at h; simp at h
  · rw [decode_varint_panic p buf hs hl] at h; simp at h

theorem decode_error {p : Profile} {buf : Bytes} {x : Panic} (h : decodeVarint p buf = .error x) : x = .index := by
  rcases varint_cases 10 buf with ⟨s, t, e, hs, hl⟩ | ⟨s, t, e, hs, hl⟩ | ⟨hs, hl⟩
  · rw [e, decode_varint_ok p s t hs hl] at h; simp at h
  · rw [e, decode_varint_err p s t hs hl] at h; simp at h
  · rw [decode_varint_panic p buf hs hl] at h; simpa using h.symm

end Meerkat.Varint
