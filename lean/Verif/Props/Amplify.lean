import Verif.Props.Overhead
import Verif.Proofs.BinaryVolume
import Verif.Proofs.PrimitiveWrap

set_option autoImplicit false

/-! # C70: how far binary columns can exceed the bound -/

namespace Meerkat
open Spec Varint

namespace BinaryEnc

/-- Items as in a binary heap of `d + 1` levels: item `i` has `2 ^ (d - log2 (i + 1))` bytes, so it is as large as the items
`2 i + 1` and `2 i + 2` together. -/
def heap (d : Nat) : List Bytes :=
  (List.range (2 ^ (d + 1) - 1)).map fun i => List.replicate (2 ^ (d - (i + 1).log2)) 0x61

/-- Bytes of the first `k` items. -/
def heapSum (d k : Nat) : Nat := ((List.range k).map fun i => 2 ^ (d - (i + 1).log2)).sum

theorem heapSum_succ (d k : Nat) : heapSum d (k + 1) = heapSum d k + 2 ^ (d - (k + 1).log2) := by
  simp [heapSum, List.range_succ, List.sum_append]

theorem heap_take (d k : Nat) (h : k ≤ 2 ^ (d + 1) - 1) : ((heap d).take k).flatten.length = heapSum d k := by
  rw [heap, ← List.map_take, List.take_range, Nat.min_eq_left h, List.length_flatten, List.map_map, heapSum]
  congr 1
  apply List.map_congr_left
  intro i _
  simp

theorem log2_double (k : Nat) (h : k ≠ 0) : (2 * k).log2 = k.log2 + 1 := Nat.log2_two_mul h

theorem log2_double_succ (k : Nat) (h : k ≠ 0) : (2 * k + 1).log2 = k.log2 + 1 := by
  rw [Nat.log2_def, if_pos (by omega), show (2 * k + 1) / 2 = k by omega]

theorem heapSum_window (d k : Nat) (h : k < 2 ^ d) : heapSum d (2 * k + 1) = heapSum d k + 2 ^ d := by
  induction k with
  | zero => simp [heapSum, show Nat.log2 1 = 0 from rfl]
  | succ k ih =>
    have h1 := ih (by omega)
    have hlog : (k + 1).log2 < d := (Nat.log2_lt (by omega)).mpr h
    rw [show 2 * (k + 1) + 1 = 2 * k + 1 + 1 + 1 by omega, heapSum_succ, heapSum_succ, h1, heapSum_succ,
      show 2 * k + 1 + 1 = 2 * (k + 1) by omega, log2_double _ (by omega), log2_double_succ _ (by omega)]
    have : 2 ^ (d - (k + 1).log2) = 2 * 2 ^ (d - ((k + 1).log2 + 1)) := by
      rw [← Nat.pow_succ', show (d - ((k + 1).log2 + 1)).succ = d - (k + 1).log2 by omega]
    omega

theorem heapSum_level (d j : Nat) (h : j ≤ d + 1) : heapSum d (2 ^ j - 1) = j * 2 ^ d := by
  induction j with
  | zero => simp [heapSum]
  | succ j ih =>
    have hj := Nat.two_pow_pos j
    have hlt : 2 ^ j ≤ 2 ^ d := Nat.pow_le_pow_right (by omega) (by omega)
    have := heapSum_window d (2 ^ j - 1) (by omega)
    rw [show 2 ^ (j + 1) - 1 = 2 * (2 ^ j - 1) + 1 by omega, this, ih (by omega), Nat.add_mul, Nat.one_mul]

theorem heapSum_mono (d : Nat) {i j : Nat} (h : i ≤ j) : heapSum d i ≤ heapSum d j := by
  induction h with
  | refl => exact Nat.le_refl _
  | step _ ih => rw [heapSum_succ]; exact Nat.le_trans ih (Nat.le_add_right ..)

theorem heapSum_lt (d k : Nat) : heapSum d k < heapSum d (k + 1) := by
  have := Nat.two_pow_pos (d - (k + 1).log2)
  rw [heapSum_succ]; omega

theorem fill_eq {m j : Nat} {vs : List Bytes} (h1 : m ≤ (vs.take j).flatten.length)
    (h2 : ∀ i, i < j → (vs.take i).flatten.length < m) : fill m vs = some j := by
  cases hf : fill m vs with
  | none =>
    have := fill_none hf
    have hs := bytes_split vs j
    omega
  | some i =>
    obtain ⟨_, g2, g3⟩ := fill_some hf
    rcases Nat.lt_trichotomy i j with h | h | h
    · have := h2 i h; omega
    · rw [h]
    · have := g3 j h; omega

theorem heap_length (d : Nat) : (heap d).length = 2 ^ (d + 1) - 1 := by simp [heap]

/-- From item `k` on, `k + 1` items are needed for a block. -/
theorem heap_fill (d k : Nat) (h : k < 2 ^ d) : fill (2 ^ d) ((heap d).drop k) = some (k + 1) := by
  have hp : 2 ^ (d + 1) = 2 * 2 ^ d := by rw [Nat.pow_succ']
  have key : ∀ i, k + i ≤ 2 ^ (d + 1) - 1 →
      heapSum d k + (((heap d).drop k).take i).flatten.length = heapSum d (k + i) := by
    intro i hi
    rw [← heap_take d k (by omega), ← heap_take d (k + i) hi, List.take_add, List.flatten_append, List.length_append]
  have hw := heapSum_window d k h
  apply fill_eq
  · have := key (k + 1) (by omega)
    rw [show k + (k + 1) = 2 * k + 1 by omega] at this
    omega
  · intro i hi
    have h1 := key i (by omega)
    have h2 := heapSum_mono d (show k + i ≤ 2 * k by omega)
    have h3 := heapSum_lt d (2 * k)
    omega

/-- One block for each item of a buffer in which as many items as precede it, and one more, are needed for a block. -/
theorem encodeLoop_many (p : Profile) (b : BinaryBuffer) (items : List Bytes) (hs : Items b items) (hv : b.validity = none)
    (hd : items.flatten.length < 2 ^ 32) (hn : items.length < 2 ^ 63) (m K : Nat)
    (hf : ∀ k, k < K → fill m (items.drop k) = some (k + 1)) (n : Nat) :
    ∀ (fuel k pos : Nat) (e : Encoder) (l : List (Nat × Bytes)), k + n = K → n ≤ fuel → e.minBlockSize = m →
    e.numRows + n < 2 ^ 32 → l.length + n ≤ (encodeLoop p recorder b fuel k pos (e, l)).2.2.length := by
  have hol : b.offsets.length = items.length + 1 := by rw [hs.offsets]; simp
  induction n with
  | zero =>
    intro fuel k pos e l _ _ hem _
    obtain ⟨new, h, _⟩ := encodeLoop_blocks p .debug m b items hs hn (by omega) fuel k pos e l hem
    rw [h, List.length_append]; omega
  | succ n ih =>
    intro fuel k pos e l hk hfuel hem hrows
    cases fuel with
    | zero => omega
    | succ fuel =>
      have hfk := hf k (by omega)
      obtain ⟨f1, f2, f3⟩ := fill_some hfk
      rw [List.length_drop] at f1
      have hsplit : items = items.take k ++ items.drop k := (List.take_append_drop k items).symm
      have hl : (items.take k).length = k := by rw [List.length_take]; omega
      have hc := chunk_eq p b (items.take k) (items.drop k) (by rw [← hsplit]; exact hs.offsets) m
      rw [hl, hfk] at hc
      simp only at hc
      rw [Profile.sub_ok p (by omega)] at hc
      simp only [ok_bind, pure_eq_ok, Nat.add_sub_cancel_left] at hc
      have hsz := bytes_split items k
      have hsz2 := bytes_split (items.drop k) (k + 1)
      generalize hch : BinaryChunk.mk k (k + 1) (items.take k).flatten.length
        ((items.take k).flatten.length + ((items.drop k).take (k + 1)).flatten.length)
        ((items.drop k).take (k + 1)).flatten.length 1 = ch at hc
      have hsl : slice b.data (items.take k).flatten.length
          ((items.take k).flatten.length + ((items.drop k).take (k + 1)).flatten.length) =
          .ok ((items.drop k).take (k + 1)).flatten := by
        have := slice_flatten_mid (items.take k) ((items.drop k).take (k + 1)) ((items.drop k).drop (k + 1))
        rw [List.append_assoc, List.take_append_drop, List.take_append_drop, ← hs.data, List.flatten_append,
          List.length_append] at this
        exact this
      have hil : itemLens p b 1 k = .ok (((items.drop k).take 1).map List.length) := by
        have := itemLens_eq p b _ hs.offsets ((items.drop k).take 1) (items.take k) ((items.drop k).drop 1)
          (by rw [List.append_assoc, List.take_append_drop, List.take_append_drop])
        rw [List.length_take, List.length_drop, Nat.min_eq_left (by omega), hl] at this
        exact this
      have hll : (((items.drop k).take 1).map List.length).length = 1 := by
        rw [List.length_map, List.length_take, List.length_drop]; omega
      obtain ⟨d, ds, be', hr⟩ : ∃ (d : Bytes) (ds : List Nat) (be' : Rle.Encoder),
          encodeBinaryBuffer p b ch pos e.bitmapEncoder = .ok ⟨⟨1, 0⟩, d, ds, be'⟩ := by
        subst hch
        generalize hlens : ((items.drop k).take 1).map List.length = lens at hil hll
        refine ⟨varintBytes ((items.drop k).take (k + 1)).flatten.length ++ ((items.drop k).take (k + 1)).flatten ++
          Offsets.offsetBytes lens, lens ++ List.replicate (128 - lens.length) 0, e.bitmapEncoder, ?_⟩
        simp only [encodeBinaryBuffer, putVarint_ok [] (show ((items.drop k).take (k + 1)).flatten.length < 2 ^ 64 by omega),
          hsl, Nat.add_sub_cancel_left, hil, ok_bind]
        rw [Offsets.encode_ok p _ _ (by rw [hll]; omega) (by rw [hll]; omega)]
        simp only [ok_bind, hv, PrimitiveEnc.encodeValidity, pure_eq_ok, List.nil_append, List.append_nil]
      obtain ⟨e', x, hw, he1, he2⟩ : ∃ (e' : Encoder) (x : Nat × Bytes),
          writeBlock p recorder b ch pos (e, l) = (.ok ⟨1, 0⟩, (e', l ++ [x])) ∧ e'.minBlockSize = m ∧
          e'.numRows = e.numRows + 1 := by
        refine ⟨⟨e.remaining, d, ds, be', e.minBlockSize, e.numRows + 1⟩, (e.numRows + 1 - 1, d), ?_, hem, rfl⟩
        simp only [writeBlock, Run.bind_apply, Run.get_apply, hr, Run.lift_ok, Run.set_apply,
          addRows_ok (show e.numRows + 1 < 2 ^ 32 by omega)]
        rw [Profile.sub_ok p (by omega)]
        simp only [Run.lift_ok, Run.emit_recorder, Run.pure_apply]
      have hce : ch.endPos = k + 1 := by rw [← hch]
      have hcs : ¬ ch.size < m := by rw [← hch]; simp only; omega
      rw [encodeLoop, if_pos (by omega), Run.bind_ok (Run.get_apply _)]
      simp only [hem, hc, Run.bind_apply, Run.lift_ok]
      rw [if_neg hcs, Run.bind_ok hw, hce]
      have := ih fuel (k + 1) 0 e' (l ++ [x]) (by omega) (by omega) he1 (by omega)
      rw [List.length_append, List.length_singleton] at this
      simp only [Nat.add_assoc, Nat.add_comm 1 n] at this ⊢
      exact this

theorem heap_flatten (d : Nat) : (heap d).flatten.length = (d + 1) * 2 ^ d := by
  have h := heap_take d (2 ^ (d + 1) - 1) (Nat.le_refl _)
  rw [← heap_length, List.take_length, heap_length, heapSum_level d (d + 1) (Nat.le_refl _)] at h
  exact h

end BinaryEnc

section
open BinaryEnc

/-- How far C70 fails: at block size `2^d`, one buffer of `(d + 1) * 2^d` bytes is written as at least `2^d` blocks, of at least
`2^d` bytes each with the exception of the last. -/
theorem C70_binary_overhead_amplified (p q : Profile) (d : Nat) (hd : d ≤ 26) :
    byteCount ((heap d).map some) = (d + 1) * 2 ^ d ∧
    ∃ bs, buildBinary false [(heap d).map some] = .ok bs ∧
      ∀ r e blocks, encodeColumn p recorder bs (Encoder.new (2 ^ d) false, []) = (r, (e, blocks)) →
        2 ^ d ≤ blocks.length ∧ ∀ x ∈ blocks.dropLast, ∃ data, blockData q x.2 = some data ∧ 2 ^ d ≤ data.length := by
  have hbc : byteCount ((heap d).map some) = (d + 1) * 2 ^ d := by rw [byteCount, PrimitiveEnc.valuesOf_map_some, heap_flatten]
  have hp : 2 ^ d ≤ 2 ^ 26 := Nat.pow_le_pow_right (by omega) hd
  have hp0 := Nat.two_pow_pos d
  have hmul : (d + 1) * 2 ^ d ≤ 27 * 2 ^ 26 := Nat.mul_le_mul (by omega) hp
  have hU : U32_MAX = 2 ^ 32 - 1 := rfl
  have hpp : 2 ^ (d + 1) = 2 * 2 ^ d := by rw [Nat.pow_succ']
  have hb := buildBinary_of_accepts (nullable := false) (bufs := [(heap d).map some]) (by simp [Accepts])
    (by intro b hb; rw [List.mem_singleton] at hb; subst hb; omega)
  refine ⟨hbc, _, hb, fun r e blocks hrun => ⟨?_, ?_⟩⟩
  · have hs : Items (BinaryBuffer.ofRows false ((heap d).map some)) (heap d) := by
      have := (holds_ofRows false ((heap d).map some)).items
      rwa [PrimitiveEnc.valuesOf_map_some] at this
    have hl := heap_length d
    have hol : (BinaryBuffer.ofRows false ((heap d).map some)).offsets.length = (heap d).length + 1 := by
      rw [hs.offsets]; simp
    have hmany := encodeLoop_many p _ _ hs rfl (by rw [heap_flatten]; omega) (by omega) (2 ^ d) (2 ^ d)
      (fun k hk => heap_fill d k hk) (2 ^ d) ((heap d).length + 1 + 1) 0 0 (Encoder.new (2 ^ d) false) []
      (by omega) (by omega) rfl (by show 0 + 2 ^ d < 2 ^ 32; omega)
    simp only [List.length_nil, Nat.zero_add] at hmany
    have he : encode p recorder (BinaryBuffer.ofRows false ((heap d).map some)) (Encoder.new (2 ^ d) false, []) =
        encodeLoop p recorder (BinaryBuffer.ofRows false ((heap d).map some)) ((heap d).length + 1 + 1) 0 0
          (Encoder.new (2 ^ d) false, []) := by
      rw [encode, Run.bind_ok (Run.get_apply _), hol]
      rfl
    rw [← he] at hmany
    simp only [encodeColumn, encodeAll, List.map_cons, List.map_nil, Run.bind_apply] at hrun
    rcases h1 : encode p recorder (BinaryBuffer.ofRows false ((heap d).map some)) (Encoder.new (2 ^ d) false, []) with ⟨r1, e1, l1⟩
    rw [h1] at hmany hrun
    cases r1 with
    | error x =>
      simp only [Prod.mk.injEq] at hrun
      obtain ⟨_, _, rfl⟩ := hrun
      exact hmany
    | ok r1 =>
      simp only [flush, Run.bind_apply, Run.pure_apply, Run.get_apply] at hrun
      split at hrun
      · have hone := writeRemaining_one p e1 l1
        rcases hw : writeRemaining p recorder (e1, l1) with ⟨r2, e2, l2⟩
        rw [hw] at hone
        have hbl : blocks = l2 := by
          rw [Run.bind_apply, hw] at hrun
          cases r2 with
          | error x => exact ((Prod.mk.inj (Prod.mk.inj hrun).2).2).symm
          | ok x => exact ((Prod.mk.inj (Prod.mk.inj hrun).2).2).symm
        subst hbl
        dsimp only at hone hmany
        rcases hone with h | ⟨y, h⟩
        · rw [h]; exact hmany
        · rw [h, List.length_append]; omega
      · simp only [Run.pure_apply, Prod.mk.injEq] at hrun
        obtain ⟨_, _, rfl⟩ := hrun
        exact hmany
  · have hflat : [(heap d).map some].flatten = (heap d).map some := by simp
    exact (C66_binary_sizes p q false (2 ^ d) hp0 (by omega) _ _ hb (by rw [hflat, List.length_map, heap_length]; omega)
      (2 ^ 32) (by
        rw [hflat, PrimitiveEnc.valuesOf_map_some]
        intro v hv
        have := (List.sublist_flatten_of_mem hv).length_le
        rw [heap_flatten] at this
        omega) r e blocks hrun).2

/-- At the block size 128 of the segment writer: 1024 bytes become at least 128 blocks, 127 of them with 128 bytes. -/
example : byteCount ((heap 7).map some) = 1024 ∧ (heap 7).length = 255 ∧ (heap 2).map List.length = [4, 2, 2, 1, 1, 1, 1] := by
  exact ⟨(C70_binary_overhead_amplified .debug .debug 7 (by omega)).1, heap_length 7, by decide +kernel⟩

end

end Meerkat
