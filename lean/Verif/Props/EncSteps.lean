import Verif.Proofs.EncSteps

set_option autoImplicit false

/-! # C112: encoding a primitive column takes time in proportion to its rows -/

namespace Meerkat
open PrimitiveEnc
variable {α : Type} [Element α] {S : Type}

/-- C112, a column. Whatever the sink does and however the calls end, encoding the buffers makes at most 66 steps for
each value and each validity bit, and one for each buffer. Counting the steps does not change what is done. -/
theorem C112_primitive_column_steps (p : Profile) (k : Sink S) (m : Nat) (hm : 0 < m) (hm64 : m < 2 ^ 64)
    (nullable : Bool) (bufs : List (PrimitiveBuffer α)) (s : S) :
    (encodeColumnC p k bufs).run = encodeColumn p k bufs ∧
    (encodeColumnC p k bufs).steps (Encoder.new m nullable, s) ≤
      66 * (bufs.map PrimitiveBuffer.weight).sum + bufs.length := by
  refine ⟨run_encodeColumnC p k bufs, ?_⟩
  have h := ((encodeColumn_bound (k := k) p bufs (Encoder.new m nullable) ⟨hm, hm64⟩) s).1
  have h0 : (Encoder.new (α := α) m nullable).remaining.weight = 0 := by cases nullable <;> rfl
  rw [h0] at h
  rw [Nat.mul_zero, Nat.zero_add] at h
  exact h

/-- C112, one call of an encoder in any state: the rows that are held back are gone through as well. -/
theorem C112_primitive_call_steps (p : Profile) (k : Sink S) (e : Encoder α) (hm : 0 < e.minBlockSize)
    (hm64 : e.minBlockSize < 2 ^ 64) (buf : PrimitiveBuffer α) (s : S) :
    (encodeC p k buf).run = encode p k buf ∧ (flushC p k : Timed (Encoder α × S) Unit).run = flush p k ∧
    (encodeC p k buf).steps (e, s) ≤ 64 * e.remaining.weight + 66 * buf.weight + 1 ∧
    (flushC p k).steps (e, s) ≤ 64 * e.remaining.weight :=
  ⟨run_encodeC p k buf, run_flushC p k, (encode_bound p buf e ⟨hm, hm64⟩ s).1, (flush_bound p e s).1⟩

/-- C112, exactly what a block costs: a step for each of its values and, in a nullable column, for each of its rows
and twice for each byte of the compressed bitmap. -/
theorem C112_block_steps_exact (p : Profile) (buf : PrimitiveBuffer α) (i j bp : Nat) (be be' : Rle.Encoder)
    (r : EncodeResult) (data : Bytes) (h : encodePrimitiveBuffer p buf i j bp be = .ok (r, data, be')) :
    (encodePrimitiveBufferC p buf i j bp be).steps =
      (j - i) + (if buf.validity.isSome then (r.lastValidityPos - bp) + 2 * be'.encodedValues.length else 0) := by
  simp only [encodePrimitiveBuffer] at h
  simp only [encodePrimitiveBufferC]
  rcases hb : p.sub 64 j i with x | blockLen
  · rw [hb] at h; cases h
  rw [hb, ok_bind] at h
  rcases hd : Varint.putVarint [] (Element.size α * blockLen) with x | d
  · rw [hd] at h; cases h
  rw [hd, ok_bind] at h
  rcases hs : slice buf.values i j with x | chunk
  · rw [hs] at h; cases h
  rw [hs, ok_bind] at h
  have hlen := BinaryEnc.slice_length hs
  rcases hv : encodeValidity p buf.validity bp blockLen be with x | ⟨r1, v, be1⟩
  · rw [hv] at h; cases h
  rw [hv, ok_bind] at h
  cases h
  rw [Counted.steps_bind_ok (a := blockLen) (by simp), Counted.steps_bind_ok (a := d) (by simp [hd]),
    Counted.steps_bind_ok (a := chunk) (by simp), Counted.steps_bind_ok (a := ()) (by simp),
    Counted.steps_bind_ok (a := (r1, v, be1)) (by simp [hv])]
  simp only [Counted.steps_lift, Counted.steps_ticks, Counted.steps_pure, Nat.zero_add, Nat.add_zero, hlen]
  congr 1
  cases hval : buf.validity with
  | none => simp [encodeValidityC]
  | some bm =>
    rw [hval] at hv
    simp only [encodeValidity, Rle.Encoder.putFrom] at hv
    rcases hl : be.clear.putFromLoop p bm bp blockLen with x | ⟨e1, pos⟩
    · rw [hl] at hv; cases hv
    rw [hl, ok_bind] at hv
    dsimp only at hv
    rcases hf : e1.flush p with x | e2
    · rw [hf] at hv; cases hv
    rw [hf, ok_bind] at hv
    cases hv
    obtain ⟨k1, k2, k3, k4, k5⟩ := (Rle.Encoder.steps_putFromLoopC p be.clear bm bp blockLen).2 e1 pos hl
    have hc2 : be.clear.encodedValues.length = 0 := rfl
    rw [hc2] at k5
    obtain ⟨g1, g2⟩ := Rle.Encoder.flush_grows hf
    have hs : (e1.flushC p).steps + e1.encodedValues.length = be1.encodedValues.length := by
      simp only [Rle.Encoder.flushC]
      rw [Counted.steps_bind_ok (a := be1) (by simp [hf]), Counted.steps_bind_ok (a := ()) (by simp)]
      simp only [Counted.steps_lift, Counted.steps_ticks, Counted.steps_pure, Nat.zero_add, Nat.add_zero]
      exact Nat.sub_add_cancel g1
    simp only [encodeValidityC]
    rw [Counted.steps_bind_ok (a := (e1, pos)) (by simp [hl]), Counted.steps_bind_ok (a := be1) (by simp [hf]),
      Counted.steps_bind_ok (a := ()) (by simp)]
    simp only [Counted.steps_ticks, Counted.steps_pure, Option.isSome_some, if_true]
    omega

/-- C112, exactly what holding back costs: a step for each value and each validity bit copied. -/
theorem C112_append_steps_exact (b buf b' : PrimitiveBuffer α) (i j vp pos : Nat)
    (h : b.appendFrom buf i j vp = .ok (b', pos)) : b'.weight = b.weight + (b.appendFromC buf i j vp).steps :=
  ((PrimitiveBuffer.steps_appendFromC b buf i j vp).2 b' pos h).2

/-- Four rows with three values at a block size of two values: nine steps for the block (one iteration, two values
copied, two bits put, a compressed bitmap of two bytes made and copied) and four for what is held back (one iteration,
a value, two bits); seven more steps write it. -/
example : (let bufs : List (PrimitiveBuffer UInt64) := [{ values := [1, 2, 3], validity := some { values := [0b1011], len := 4 } }]
    ((encodeAllC .debug recorder bufs).steps (Encoder.new 16 true, []),
      (encodeColumnC .debug recorder bufs).steps (Encoder.new 16 true, []))) = (13, 20) := by decide +kernel

/-- Of a hundred buffers the last costs no more than the first: what is held back is not gone through again until it is written. -/
example : ((encodeAllC (α := UInt64) .release recorder (List.replicate 100 { values := [7], validity := none })).steps
    (Encoder.new 8192 false, [])) = 101 := by decide +kernel

end Meerkat
