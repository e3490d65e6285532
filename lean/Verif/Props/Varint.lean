import Verif.Proofs.Varint

set_option autoImplicit false

/-! # Properties C13-C16: varints -/

namespace Meerkat
open Spec Varint

/-- C13: `put_varint` then `decode_varint`, whatever follows, in both profiles; the decoder's length
is the number of bytes appended. -/
theorem C13_varint_roundtrip (p : Profile) (v : Nat) (hv : v < 2 ^ 64) (dst suffix : Bytes) :
    ∃ enc, putVarint dst v = .ok (dst ++ enc) ∧
      decodeVarint p (enc ++ suffix) = .ok (some (v, enc.length)) :=
  ⟨_, putVarint_ok dst hv, decode_varintBytes p hv suffix⟩

example : (2 ^ 64 - 1 : Nat) < 2 ^ 64 := by decide

/-- C14: into any buffer of at least ten bytes `encode_varint` succeeds, reports `encoded_len_varint`,
which is the least `k ≥ 1` with `v < 128^k` and at most ten, and touches only those bytes;
`put_varint` appends exactly them. -/
theorem C14_varint_length (v : Nat) (hv : v < 2 ^ 64) (buf dst : Bytes) (hb : MAX_VARINT_LEN ≤ buf.length) :
    ∃ buf' k, encodeVarint v buf = .ok (buf', k) ∧ k = encodedLenVarint v ∧
      buf'.length = buf.length ∧ buf'.drop k = buf.drop k ∧
      putVarint dst v = .ok (dst ++ buf'.take k) ∧
      1 ≤ k ∧ k ≤ 10 ∧ v < 128 ^ k ∧ (∀ j, 1 ≤ j → v < 128 ^ j → k ≤ j) := by
  have h10 := varintBytes_length_le_ten hv
  have hb' : 10 ≤ buf.length := hb
  obtain ⟨b1, b2, b3⟩ := varintBytes_bounds v
  refine ⟨_, _, encodeVarint_ok v buf (by omega), (encodedLen_eq hv).symm, ?_, ?_, ?_, b3, h10, b1,
    fun j hj h => varintBytes_length_le hj h⟩
  · simp; omega
  · simp
  · rw [putVarint_ok dst hv]; simp

/-- C14: and it panics exactly when the buffer is shorter than the encoding. -/
theorem C14_varint_short_buffer (v : Nat) (hv : v < 2 ^ 64) (buf : Bytes) :
    (∃ e, encodeVarint v buf = .error e) ↔ buf.length < encodedLenVarint v := by
  rw [encodedLen_eq hv]
  constructor
  · rintro ⟨e, he⟩
    by_cases h : buf.length < (varintBytes v).length
    · exact h
    · rw [encodeVarint_ok v buf (by omega)] at he; cases he
  · intro h
    exact ⟨_, by simpa [encodeVarint] using encodeLoop_panic v [] buf h⟩

/-- C15: complete description of `decode_varint` on any bytes, in both profiles. The three cases are
exhaustive, so "exactly when" holds in each. -/
theorem C15_varint_decode_total (p : Profile) (buf : Bytes) :
    (∀ s t, buf = s ++ t → IsVarint s → s.length ≤ 10 →
      decodeVarint p buf = .ok (some (leb128 s % 2 ^ 64, s.length))) ∧
    ((∃ s t, buf = s ++ t ∧ s.length = 10 ∧ ∀ b ∈ s, 128 ≤ b.toNat) ↔ decodeVarint p buf = .ok none) ∧
    ((buf.length < 10 ∧ ∀ b ∈ buf, 128 ≤ b.toNat) ↔ ∃ e, decodeVarint p buf = .error e) ∧
    ((∃ s t, buf = s ++ t ∧ IsVarint s ∧ s.length ≤ 10) ↔
      ∃ r, decodeVarint p buf = .ok (some r)) := by
  have c1 : ∀ s t, buf = s ++ t → IsVarint s → s.length ≤ 10 →
      decodeVarint p buf = .ok (some (leb128 s % 2 ^ 64, s.length)) := by
    rintro s t rfl hs hl; exact decode_varint_ok p s t hs hl
  have c2 : (∃ s t, buf = s ++ t ∧ s.length = 10 ∧ ∀ b ∈ s, 128 ≤ b.toNat) →
      decodeVarint p buf = .ok none := by
    rintro ⟨s, t, rfl, hl, hs⟩; exact decode_varint_err p s t hs hl
  have c3 : (buf.length < 10 ∧ ∀ b ∈ buf, 128 ≤ b.toNat) → decodeVarint p buf = .error .index := by
    rintro ⟨hl, hs⟩; exact decode_varint_panic p buf hs hl
  refine ⟨c1, ⟨c2, ?_⟩, ⟨fun h => ⟨_, c3 h⟩, ?_⟩, ⟨?_, ?_⟩⟩
  · intro h
    rcases varint_cases 10 buf with ⟨s, t, e, hs, hl⟩ | ⟨s, t, e, hs, hl⟩ | ⟨hs, hl⟩
    · rw [c1 s t e hs hl] at h; cases h
    · exact ⟨s, t, e, hl, hs⟩
    · rw [c3 ⟨hl, hs⟩] at h; cases h
  · rintro ⟨e', h⟩
    rcases varint_cases 10 buf with ⟨s, t, e, hs, hl⟩ | ⟨s, t, e, hs, hl⟩ | ⟨hs, hl⟩
    · rw [c1 s t e hs hl] at h; cases h
    · rw [c2 ⟨s, t, e, hl, hs⟩] at h; cases h
    · exact ⟨hl, hs⟩
  · rintro ⟨s, t, e, hs, hl⟩; exact ⟨_, c1 s t e hs hl⟩
  · rintro ⟨r, h⟩
    rcases varint_cases 10 buf with ⟨s, t, e, hs, hl⟩ | ⟨s, t, e, hs, hl⟩ | ⟨hs, hl⟩
    · exact ⟨s, t, e, hs, hl⟩
    · rw [c2 ⟨s, t, e, hl, hs⟩] at h; cases h
    · rw [c3 ⟨hl, hs⟩] at h; cases h

example : IsVarint [0xAC, 0x02] ∧ leb128 [0xAC, 0x02] = 300 := by
  simp [IsVarint, leb128]
/-- Non-minimal input is accepted, and a tenth byte above 1 loses its high bits. -/
example : decodeVarint .debug [0x80, 0x00] = .ok (some (0, 2)) ∧
    decodeVarint .debug [0xFF, 0xFF, 0xFF, 0xFF, 0xFF, 0xFF, 0xFF, 0xFF, 0xFF, 0x7F] =
      .ok (some (2 ^ 64 - 1, 10)) := by decide +kernel

/-- C16: encodings are injective, prefix-free and minimal. -/
theorem C16_varint_canonical (v w : Nat) (hv : v < 2 ^ 64) (hw : w < 2 ^ 64) (ev ew : Bytes)
    (h1 : putVarint [] v = .ok ev) (h2 : putVarint [] w = .ok ew) :
    (ev = ew → v = w) ∧ (ev <+: ew → v = w) ∧
    (∀ p s n, decodeVarint p s = .ok (some (v, n)) → ev.length ≤ n ∧ n ≤ s.length) := by
  rw [putVarint_ok _ hv] at h1; cases h1
  rw [putVarint_ok _ hw] at h2; cases h2
  have hpre : varintBytes v <+: varintBytes w → v = w := by
    intro h
    have := isVarint_prefix (varintBytes_isVarint v) (varintBytes_isVarint w) h
    have := congrArg leb128 this
    rwa [varintBytes_leb, varintBytes_leb] at this
  simp only [List.nil_append]
  refine ⟨fun h => hpre (by rw [h]; exact List.prefix_rfl), hpre, ?_⟩
  intro p s n h
  obtain ⟨d1, _, _, d4⟩ := C15_varint_decode_total p s
  obtain ⟨a, t, rfl, ha, hl⟩ := d4.mpr ⟨_, h⟩
  rw [d1 a t rfl ha hl] at h
  simp only [Except.ok.injEq, Option.some.injEq, Prod.mk.injEq] at h
  obtain ⟨rfl, rfl⟩ := h
  refine ⟨varintBytes_length_le ?_ (Nat.lt_of_le_of_lt (Nat.mod_le _ _) (leb128_lt a)), by simp⟩
  cases a with
  | nil => exact ha.elim
  | cons b a => simp

end Meerkat
