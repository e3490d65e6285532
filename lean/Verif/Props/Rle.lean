import Verif.Proofs.RleDecode
import Verif.Proofs.Buffers

set_option autoImplicit false

/-! # Properties of the bitmap RLE codec (C17–C21) -/

namespace Meerkat
open Spec Varint

/-- C17: whatever bits are put (fewer than `2^32 - 7`), flushing succeeds and decoding into any slice
with room for the positions of the set bits writes exactly them, in order, at its beginning, leaves
the rest alone and reports their number. The two sides may run in different build profiles. -/
theorem C17_rle_roundtrip (p q : Profile) (bits : List Bool) (out : List Nat)
    (hlen : bits.length < 2 ^ 32 - 7) (hout : (setPositions bits).length ≤ out.length) :
    ∃ e e' d, Rle.Encoder.new.putAll p bits = .ok e ∧ e.flush p = .ok e' ∧
      (Rle.Decoder.new e'.encodedValues out).decode q = .ok (d, (setPositions bits).length) ∧
      d.decodedData = setPositions bits ++ out.drop (setPositions bits).length ∧
      Rle.decode q e'.encodedValues out = .ok (setPositions bits ++ out.drop (setPositions bits).length) := by
  have hc : (setPositions bits).length = bits.count true := by
    rw [Rle.setPositions_eq, Rle.posFrom_length]
  rw [hc] at hout ⊢
  obtain ⟨e, h1, hs1⟩ := Rle.Encoder.putAll_safe p bits _ Rle.Encoder.new_safe
  obtain ⟨e', h2, _⟩ := Rle.Encoder.flush_safe p e hs1
  have hrun := Rle.run_eq p .new bits (by omega)
  rw [show Rle.Encoder.new.clear = Rle.Encoder.new from rfl, Rle.Encoder.run, h1] at hrun
  simp only [ok_bind, h2, pure_eq_ok, Except.ok.injEq] at hrun
  obtain ⟨d, h3, h4⟩ := Rle.Decoder.decode_rleBytes q bits out hlen hout
  refine ⟨e, e', d, h1, h2, by rw [hrun]; exact h3, h4, ?_⟩
  simp only [Rle.decode, hrun, h3, ok_bind, h4, pure_eq_ok]

/-- A bitmap with a literal, a run and a partial byte. -/
example :
    let bits := [true, false, true] ++ List.replicate 29 true ++ [false, true]
    (setPositions bits).length ≤ (List.replicate 40 7 : List Nat).length ∧ bits.length < 2 ^ 32 - 7 ∧
    (Rle.Encoder.new.putAll .debug bits >>= fun e => e.flush .debug).map (·.encodedValues) =
      .ok [3, 0xFD, 6, 0xFF, 3, 2] := by decide +kernel

/-- C18: decoding any bytes into any slice: never runs forever; when it returns, the count fits in
the slice, the slice keeps its length and its entries past the count; with overflow checks the
positions written are strictly increasing. -/
theorem C18_rle_decode_any (p : Profile) (enc : Bytes) (out : List Nat) :
    (Rle.Decoder.new enc out).decode p ≠ .error .diverge ∧
    ∀ d n, (Rle.Decoder.new enc out).decode p = .ok (d, n) →
      n ≤ out.length ∧ d.decodedData.length = out.length ∧ d.decodedData.drop n = out.drop n ∧
      (p = .debug → (d.decodedData.take n).Pairwise (· < ·)) := by
  obtain ⟨h1, h2⟩ := Rle.Decoder.decodeLoop_sound enc.length _ (Rle.Decoder.new_sound p enc out)
    (by simp [Rle.Decoder.new])
  have hdec : (Rle.Decoder.new enc out).decode p =
      (do let d ← Rle.Decoder.decodeLoop p enc.length (Rle.Decoder.new enc out); return (d, d.decodedDataPos)) := rfl
  rw [hdec]
  cases h3 : Rle.Decoder.decodeLoop p enc.length (Rle.Decoder.new enc out) with
  | error e =>
    rw [h3] at h1
    refine ⟨by simpa using h1, ?_⟩
    intro d n h; simp at h
  | ok d =>
    refine ⟨by simp, ?_⟩
    intro d' n h
    simp only [ok_bind, pure_eq_ok, Except.ok.injEq, Prod.mk.injEq] at h
    obtain ⟨rfl, rfl⟩ := h
    have hs := h2 d h3
    exact ⟨hs.pos, hs.len, hs.tail, hs.sorted⟩

/-- Corrupt input that decodes, and corrupt input that panics. -/
example : (Rle.decode .debug [2, 5, 0] [9, 9, 9] = .error .index) ∧
    (Rle.decode .debug [4, 1, 1, 1] [9, 9, 9] = .ok [0, 8, 9]) ∧
    (Rle.decode .release [0xFE, 0xFF, 0xFF, 0xFF, 0x1F, 0x00, 2, 3] [9, 9, 9] =
      .ok [2 ^ 32 - 8, 2 ^ 32 - 7, 9]) := by decide +kernel

/-- C19: size of the encoding of a bitmap of `n` bytes. -/
theorem C19_rle_size (p : Profile) (bits : List Bool) (hlen : bits.length < 2 ^ 64) :
    let n := (bits.length + 7) / 8
    ∃ e e', Rle.Encoder.new.putAll p bits = .ok e ∧ e.flush p = .ok e' ∧
      e'.encodedValues.length ≤ n + n / 64 + 1 ∧ (bits = [] → e'.encodedValues = []) := by
  intro n
  obtain ⟨e, h1, hs1⟩ := Rle.Encoder.putAll_safe p bits _ Rle.Encoder.new_safe
  obtain ⟨e', h2, _⟩ := Rle.Encoder.flush_safe p e hs1
  have hrun := Rle.run_eq p .new bits hlen
  rw [show Rle.Encoder.new.clear = Rle.Encoder.new from rfl, Rle.Encoder.run, h1] at hrun
  simp only [ok_bind, h2, pure_eq_ok, Except.ok.injEq] at hrun
  obtain ⟨fs, pad, g1, g2, g3, g4, _⟩ := Rle.rleBytes_frames bits hlen
  have hl := congrArg List.length g2
  simp only [Rle.bytesBits_length, List.length_append, List.length_replicate] at hl
  have hn : (Rle.expandAll fs).length = n := by omega
  refine ⟨e, e', h1, h2, ?_, ?_⟩
  · rw [hrun, g1]
    rw [hn] at g4
    split at g4 <;> omega
  · intro hb
    subst hb
    have he : Rle.expandAll fs = [] := by
      rw [← List.length_eq_zero_iff]; simp at hl; omega
    rw [hrun, g1, ← List.length_eq_zero_iff]
    rw [he] at g4; simpa using g4

/-- C19: a bitmap of `n ≥ 3` equal bytes is stored as the varint of `2 n` and that byte. -/
theorem C19_rle_run_size (p : Profile) (b : Byte) (n : Nat) (h3 : 3 ≤ n) (hn : n < 2 ^ 60) :
    ∃ e e' v, Rle.Encoder.new.putAll p (bytesBits (List.replicate n b)) = .ok e ∧ e.flush p = .ok e' ∧
      e'.encodedValues = v ++ [b] ∧ IsVarint v ∧ leb128 v = 2 * n ∧ v.length = encodedLenVarint (2 * n) := by
  have hlen : (bytesBits (List.replicate n b)).length < 2 ^ 64 := by simp; omega
  obtain ⟨e, h1, hs1⟩ := Rle.Encoder.putAll_safe p (bytesBits (List.replicate n b)) _ Rle.Encoder.new_safe
  obtain ⟨e', h2, _⟩ := Rle.Encoder.flush_safe p e hs1
  have hrun := Rle.run_eq p .new _ hlen
  rw [show Rle.Encoder.new.clear = Rle.Encoder.new from rfl, Rle.Encoder.run, h1] at hrun
  simp only [ok_bind, h2, pure_eq_ok, Except.ok.injEq] at hrun
  rw [Rle.rleBytes_replicate b n h3 hn] at hrun
  exact ⟨e, e', _, h1, h2, hrun, varintBytes_isVarint _, varintBytes_leb _, (encodedLen_eq (by omega)).symm⟩

example : (Rle.Encoder.new.putAll .debug (bytesBits (List.replicate 100 0x5A)) >>=
    fun e => e.flush .debug).map (·.encodedValues) = .ok [200, 1, 0x5A] := by decide +kernel

/-- C20: after `clear()`, whatever happened before, any bits give the bytes a new encoder gives (and
panic if and only if a new one does). -/
theorem C20_rle_clear_like_new (p : Profile) (e : Rle.Encoder) (bits : List Bool) :
    (do let e ← e.clear.putAll p bits; let e ← e.flush p; return e.encodedValues) =
    (do let e ← Rle.Encoder.new.putAll p bits; let e ← e.flush p; return e.encodedValues) :=
  Rle.Encoder.run_clear p e bits

/-- An encoder used before whose stale `last_value` equals the next byte. -/
example : (Rle.Encoder.new.putAll .debug (List.replicate 16 true)).map (fun e =>
    (e.clear.lastValue, decide (e.clear = Rle.Encoder.new))) = .ok (0xFF, false) := by decide +kernel

/-- States an encoder can be in, after any sequence of calls on it. -/
inductive RleReachable (p : Profile) : Rle.Encoder → Prop
  | new : RleReachable p .new
  | put {e e' b} : RleReachable p e → e.put p b = .ok e' → RleReachable p e'
  | putFrom {e e' m i n k} {bits : List Bool} : RleReachable p e → Bitmap.Reads m bits →
      e.putFrom p m i n = .ok (e', k) → RleReachable p e'
  | flush {e e'} : RleReachable p e → e.flush p = .ok e' → RleReachable p e'
  | clear {e} : RleReachable p e → RleReachable p e.clear

theorem RleReachable.safe {p : Profile} {e : Rle.Encoder} (h : RleReachable p e) : e.Safe := by
  induction h with
  | new => exact Rle.Encoder.new_safe
  | put _ h ih =>
    obtain ⟨e1, h1, h2⟩ := Rle.Encoder.put_safe p _ ih _
    rw [h1] at h; simp at h; subst h; exact h2
  | @putFrom e e' m i n k bits _ hm h ih =>
    rw [Rle.Encoder.putFrom_eq p hm _ ih] at h
    split at h
    · simp at h
    · rename_i q _
      obtain ⟨e1, h1, h2⟩ := Rle.Encoder.putAll_safe p q _ ih
      rw [h1] at h; simp at h
      rw [← h.1]; exact h2
  | flush _ h ih =>
    obtain ⟨e1, h1, h2⟩ := Rle.Encoder.flush_safe p _ ih
    rw [h1] at h; simp at h; subst h; exact h2
  | clear _ _ => exact Rle.Encoder.clear_safe _

/-- C21: on any reachable encoder and any bitmap reading as `bits`, `put_from(start, n)` panics
exactly when fewer than `n` bits are set from `start` on; otherwise it does the same as `put` on the
bits from `start` to the `n`-th set one, and returns the position after it. -/
theorem C21_put_from (p : Profile) (e : Rle.Encoder) (he : RleReachable p e) (m : Bitmap)
    (bits : List Bool) (hm : Bitmap.Reads m bits) (start n : Nat) :
    ((bits.drop start).count true < n ↔ ∃ x, e.putFrom p m start n = .error x) ∧
    (∀ q, PrefixWithSet n (bits.drop start) q →
      ∃ e', e.putAll p q = .ok e' ∧ e.putFrom p m start n = .ok (e', start + q.length)) := by
  have h := Rle.Encoder.putFrom_eq p hm e he.safe start n
  constructor
  · constructor
    · intro hlt
      rw [(takeSet_none _ _).mpr hlt] at h
      exact ⟨_, h⟩
    · rintro ⟨x, hx⟩
      rw [← takeSet_none]
      cases ht : takeSet n (bits.drop start) with
      | none => rfl
      | some q =>
        obtain ⟨e', h1, _⟩ := Rle.Encoder.putAll_safe p q e he.safe
        rw [ht, hx] at h
        simp only [h1, ok_bind] at h
        simp at h
  · intro q hq
    obtain ⟨e', h1, _⟩ := Rle.Encoder.putAll_safe p q e he.safe
    refine ⟨e', h1, ?_⟩
    rw [h, (takeSet_spec _ _ _).mpr hq]
    simp only [h1, ok_bind]

/-- A bitmap with nulls; two set bits from position 1 end at position 4. -/
example : ∃ m, Bitmap.new.appendAll [true, false, true, true, false] = .ok m ∧
    Bitmap.Reads m [true, false, true, true, false] ∧
    PrefixWithSet 2 ([true, false, true, true, false].drop 1) [false, true, true] := by
  obtain ⟨m, h, _⟩ := Bitmap.built_spec [true, false, true, true, false]
  exact ⟨m, h, Bitmap.built_reads h, (takeSet_spec _ _ _).mp (by decide)⟩

end Meerkat
