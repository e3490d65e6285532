import Verif.Proofs.EncoderHistory
import Verif.Proofs.Unwind
import Verif.Props.BinaryEnc
import Verif.Props.PrimitiveEnc

set_option autoImplicit false

/-! # Properties of both encoders: flush, sink errors, row counts, nullability (C37–C39, C56, C57)

The buffers are arbitrary values of the buffer types here, not only those built through the API. -/

namespace Meerkat
open Spec

variable {α : Type} [Element α] {S : Type}

/-! ## C37: flush -/

namespace PrimitiveEnc

theorem writeRange_once (p : Profile) (b : PrimitiveBuffer α) (start stop pos : Nat) (e e' : Encoder α)
    (l l' : List (Nat × Bytes)) {r : EncodeResult}
    (h : writeRange p recorder b start stop pos (e, l) = (.ok r, (e', l'))) :
    e'.remaining = e.remaining ∧ ∃ x, l' = l ++ [x] := by
  simp only [writeRange, Run.bind_apply, Run.get_apply] at h
  rcases h1 : encodePrimitiveBuffer p b start stop pos e.bitmapEncoder with x | ⟨res, data, be⟩
  · rw [h1] at h; cases (Prod.mk.inj h).1
  · rw [h1] at h
    simp only [Run.lift_ok, Run.set_apply] at h
    rcases h2 : addRows e.numRows res.numRows with x | n
    · rw [h2] at h; cases (Prod.mk.inj h).1
    · rw [h2] at h
      simp only [Run.lift_ok] at h
      rcases h3 : p.sub 32 n 1 with x | i
      · rw [h3] at h; cases (Prod.mk.inj h).1
      · rw [h3] at h
        simp only [Run.lift_ok, Run.emit_recorder, Run.pure_apply, Prod.mk.injEq] at h
        obtain ⟨_, rfl, rfl⟩ := h
        exact ⟨rfl, _, rfl⟩

end PrimitiveEnc

/-- C37, first part, primitive encoder: with nothing held back, `flush` does nothing, whatever the sink. -/
theorem C37_primitive_flush_idle (p : Profile) (k : Sink S) (e : PrimitiveEnc.Encoder α) (s : S)
    (h : e.remaining.len = 0) : PrimitiveEnc.flush p k (e, s) = (.ok (), (e, s)) := by
  simp only [PrimitiveEnc.flush, Run.bind_apply, Run.get_apply]
  rw [if_neg (by omega)]
  rfl

/-- C37, first part, binary encoder. -/
theorem C37_binary_flush_idle (p : Profile) (k : Sink S) (e : BinaryEnc.Encoder) (s : S)
    (h : e.remaining.len = 0) : BinaryEnc.flush p k (e, s) = (.ok (), (e, s)) := by
  simp only [BinaryEnc.flush, Run.bind_apply, Run.get_apply]
  rw [if_neg (by omega)]
  rfl

/-- C37 as far as it holds, primitive encoder: a `flush` that returns normally offers one block if
something is held back and none otherwise. It does not empty the buffer of held back rows. -/
theorem C37_primitive_flush_partial (p : Profile) (e e' : PrimitiveEnc.Encoder α) (l l' : List (Nat × Bytes))
    (h : PrimitiveEnc.flush p recorder (e, l) = (.ok (), (e', l'))) :
    l'.length = l.length + (if e.remaining.len > 0 then 1 else 0) ∧ l <+: l' ∧ e'.remaining = e.remaining := by
  by_cases hl : e.remaining.len > 0
  · simp only [PrimitiveEnc.flush, Run.bind_apply, Run.get_apply, if_pos hl, PrimitiveEnc.writeRemaining] at h
    rcases hw : PrimitiveEnc.writeRange p recorder e.remaining 0 e.remaining.len 0 (e, l) with ⟨r, e1, l1⟩
    rw [hw] at h
    cases r with
    | error x => cases (Prod.mk.inj h).1
    | ok r =>
      simp only [Run.pure_apply, Prod.mk.injEq, true_and] at h
      obtain ⟨rfl, rfl⟩ := h
      obtain ⟨h1, x, rfl⟩ := PrimitiveEnc.writeRange_once p _ _ _ _ _ _ _ _ hw
      exact ⟨by simp [hl], List.prefix_append _ _, h1⟩
  · rw [C37_primitive_flush_idle p recorder e l (by omega)] at h
    cases h
    exact ⟨by simp [hl], List.prefix_refl _, rfl⟩

/-- C37 as far as it holds, binary encoder. -/
theorem C37_binary_flush_partial (p : Profile) (e e' : BinaryEnc.Encoder) (l l' : List (Nat × Bytes))
    (h : BinaryEnc.flush p recorder (e, l) = (.ok (), (e', l'))) :
    l'.length = l.length + (if e.remaining.len > 0 then 1 else 0) ∧ l <+: l' ∧ e'.remaining = e.remaining := by
  by_cases hl : e.remaining.len > 0
  · simp only [BinaryEnc.flush, Run.bind_apply, Run.get_apply, if_pos hl, BinaryEnc.writeRemaining] at h
    rcases hc : BinaryEnc.wholeChunk e.remaining with x | c
    · rw [hc] at h; cases (Prod.mk.inj h).1
    rw [hc] at h
    simp only [Run.lift_ok] at h
    have hfr := BinaryEnc.writeBlock_frame p recorder e.remaining c 0 e l
    rcases hw : BinaryEnc.writeBlock p recorder e.remaining c 0 (e, l) with ⟨r, e1, l1⟩
    rw [hw] at h hfr
    cases r with
    | error x => cases (Prod.mk.inj h).1
    | ok r =>
      simp only [Run.pure_apply, Prod.mk.injEq, true_and] at h
      obtain ⟨rfl, rfl⟩ := h
      obtain ⟨x, hx⟩ : ∃ x, l1 = l ++ [x] := by
        simp only [BinaryEnc.writeBlock, Run.bind_apply, Run.get_apply] at hw
        rcases h1 : BinaryEnc.encodeBinaryBuffer p e.remaining c 0 e.bitmapEncoder with x | res
        · rw [h1] at hw; cases (Prod.mk.inj hw).1
        · rw [h1] at hw
          simp only [Run.lift_ok, Run.set_apply] at hw
          rcases h2 : BinaryEnc.addRows e.numRows res.result.numRows with x | n
          · rw [h2] at hw; cases (Prod.mk.inj hw).1
          · rw [h2] at hw
            simp only [Run.lift_ok] at hw
            rcases h3 : p.sub 32 n 1 with x | i
            · rw [h3] at hw; cases (Prod.mk.inj hw).1
            · rw [h3] at hw
              simp only [Run.lift_ok, Run.emit_recorder, Run.pure_apply, Prod.mk.injEq] at hw
              exact ⟨_, hw.2.2.symm⟩
      subst hx
      exact ⟨by simp [hl], List.prefix_append _ _, hfr.1⟩
  · rw [C37_binary_flush_idle p recorder e l (by omega)] at h
    cases h
    exact ⟨by simp [hl], List.prefix_refl _, rfl⟩

/-- C37, second part, is false of both encoders: whenever something is held back, a second `flush`
that returns normally writes one more block. The first witness stores a column of one value twice. -/
theorem C37_flush_twice_violated (p : Profile) :
    (∀ (e e1 e2 : PrimitiveEnc.Encoder α) (l l1 l2 : List (Nat × Bytes)), e.remaining.len > 0 →
      PrimitiveEnc.flush p recorder (e, l) = (.ok (), (e1, l1)) →
      PrimitiveEnc.flush p recorder (e1, l1) = (.ok (), (e2, l2)) → l2.length = l.length + 2) ∧
    (∀ (e e1 e2 : BinaryEnc.Encoder) (l l1 l2 : List (Nat × Bytes)), e.remaining.len > 0 →
      BinaryEnc.flush p recorder (e, l) = (.ok (), (e1, l1)) →
      BinaryEnc.flush p recorder (e1, l1) = (.ok (), (e2, l2)) → l2.length = l.length + 2) ∧
    (∃ b : PrimitiveBuffer Int32, (PrimitiveBuffer.new true).pushAll [some 7] = .ok b ∧
      ((do PrimitiveEnc.encodeColumn p recorder [b]; PrimitiveEnc.flush p recorder)
        (PrimitiveEnc.Encoder.new 128 true, [])).2.2 = [(0, [4, 7, 0, 0, 0, 3, 1]), (1, [4, 7, 0, 0, 0, 3, 1])]) ∧
    (∃ b, (BinaryBuffer.new false).pushAll [some [9]] = .ok b ∧
      ((do BinaryEnc.encodeColumn p recorder [b]; BinaryEnc.flush p recorder)
        (BinaryEnc.Encoder.new 128 false, [])).2.2 = [(0, [1, 9, 1, 1]), (1, [1, 9, 1, 1])]) := by
  refine ⟨?_, ?_, ?_, ?_⟩
  · intro e e1 e2 l l1 l2 hl h1 h2
    obtain ⟨a1, _, a2⟩ := C37_primitive_flush_partial p e e1 l l1 h1
    obtain ⟨b1, _, _⟩ := C37_primitive_flush_partial p e1 e2 l1 l2 h2
    rw [a2] at b1
    rw [if_pos hl] at a1 b1
    omega
  · intro e e1 e2 l l1 l2 hl h1 h2
    obtain ⟨a1, _, a2⟩ := C37_binary_flush_partial p e e1 l l1 h1
    obtain ⟨b1, _, _⟩ := C37_binary_flush_partial p e1 e2 l1 l2 h2
    rw [a2] at b1
    rw [if_pos hl] at a1 b1
    omega
  · exact ⟨_, PrimitiveBuffer.new_pushAll _ _ (.inl rfl), by cases p <;> decide +kernel⟩
  · exact ⟨_, BinaryBuffer.new_pushAll _ _ (.inr (by decide +kernel)) (by decide +kernel),
      by cases p <;> decide +kernel⟩

/-! ## C38: sink errors -/

/-- C38, primitive encoder. `Follows` says that the blocks offered are those of the error-free run up to
the first one the sink fails on, that the call then ends with the sink's fault, and that otherwise it
ends like the error-free run. -/
theorem C38_primitive_sink_errors (p : Profile) (k : Sink S) :
    (∀ b : PrimitiveBuffer α, Follows k (PrimitiveEnc.encode p k b) (PrimitiveEnc.encode p recorder b)) ∧
    Follows k (PrimitiveEnc.flush (α := α) p k) (PrimitiveEnc.flush p recorder) ∧
    ∀ bs : List (PrimitiveBuffer α),
      Follows k (PrimitiveEnc.encodeColumn p k bs) (PrimitiveEnc.encodeColumn p recorder bs) :=
  ⟨PrimitiveEnc.encode_follows p k, PrimitiveEnc.flush_follows p k, PrimitiveEnc.encodeColumn_follows p k⟩

/-- C38, binary encoder. -/
theorem C38_binary_sink_errors (p : Profile) (k : Sink S) :
    (∀ b, Follows k (BinaryEnc.encode p k b) (BinaryEnc.encode p recorder b)) ∧
    Follows k (BinaryEnc.flush p k) (BinaryEnc.flush p recorder) ∧
    ∀ bs, Follows k (BinaryEnc.encodeColumn p k bs) (BinaryEnc.encodeColumn p recorder bs) :=
  ⟨BinaryEnc.encode_follows p k, BinaryEnc.flush_follows p k, BinaryEnc.encodeColumn_follows p k⟩

/-- A sink that records, but fails once it holds `n` blocks. -/
def failingAfter (n : Nat) : Sink (List (Nat × Bytes)) where
  write l rowId data := if l.length < n then (.ok (), l ++ [(rowId, data)]) else (.error .io, l)

/-- With a sink that fails on the second of three blocks, one block arrives and the error is returned. -/
example : ∃ b : PrimitiveBuffer UInt64, (PrimitiveBuffer.new false).pushAll [some 1, some 2, some 3] = .ok b ∧
    ((PrimitiveEnc.encode .debug (failingAfter 1) b (PrimitiveEnc.Encoder.new 8 false, [])).1 = .error .io ∧
     (PrimitiveEnc.encode .debug (failingAfter 1) b (PrimitiveEnc.Encoder.new 8 false, [])).2.2 =
       [(0, [8, 1, 0, 0, 0, 0, 0, 0, 0])]) ∧
    ((PrimitiveEnc.encode .debug recorder b (PrimitiveEnc.Encoder.new 8 false, [])).2.2.length = 3) :=
  ⟨_, PrimitiveBuffer.new_pushAll _ _ (.inr (by decide +kernel)), by decide +kernel⟩

/-! ## C39 and C57: row counts and row ids -/

/-- C39, primitive encoder, over whole histories and however they end: the ids are exact running totals
of the rows counted, and the encoder holds the exact total, which is a `u32`. -/
theorem C39_primitive_row_counts (p : Profile) (m : Nat) (hm : 0 < m) (hm64 : m < 2 ^ 64) (nullable : Bool)
    (bufs : List (PrimitiveBuffer α)) (r e blocks)
    (h : PrimitiveEnc.encodeColumn p recorder bufs (PrimitiveEnc.Encoder.new m nullable, []) = (r, (e, blocks))) :
    ∃ cs, blocks.map (·.1) = countIds 0 cs ∧ (∀ c ∈ cs, 1 ≤ c) ∧ e.numRows = cs.sum ∧ cs.sum < 2 ^ 32 := by
  obtain ⟨cs, bs, h1, h2, h3, h4, h5, _⟩ := PrimitiveEnc.encodeColumn_counts p bufs
    (PrimitiveEnc.Encoder.new m nullable) (Nat.two_pow_pos 32) ⟨hm, hm64⟩ []
  rw [h] at h1 h4 h5
  simp only [List.nil_append] at h1
  have h0 : (PrimitiveEnc.Encoder.new (α := α) m nullable).numRows = 0 := rfl
  rw [h0, Nat.zero_add] at h4
  rw [h4] at h5
  exact ⟨cs, by rw [h1]; exact h2, h3, h4, h5⟩

/-- C39, binary encoder. -/
theorem C39_binary_row_counts (p : Profile) (m : Nat) (nullable : Bool)
    (bufs : List BinaryBuffer) (r e blocks)
    (h : BinaryEnc.encodeColumn p recorder bufs (BinaryEnc.Encoder.new m nullable, []) = (r, (e, blocks))) :
    ∃ cs, blocks.map (·.1) = countIds 0 cs ∧ (∀ c ∈ cs, 1 ≤ c) ∧ e.numRows = cs.sum ∧ cs.sum < 2 ^ 32 := by
  obtain ⟨cs, bs, h1, h2, h3, h4, h5, _⟩ := BinaryEnc.encodeColumn_counts p bufs
    (BinaryEnc.Encoder.new m nullable) (Nat.two_pow_pos 32) []
  rw [h] at h1 h4 h5
  simp only [List.nil_append] at h1
  have h0 : (BinaryEnc.Encoder.new m nullable).numRows = 0 := rfl
  rw [h0, Nat.zero_add] at h4
  rw [h4] at h5
  exact ⟨cs, by rw [h1]; exact h2, h3, h4, h5⟩

/-- C39: a block whose rows would take the count past `u32::MAX` makes the primitive encoder panic, and
the sink is not called; with room for its rows, the sink gets the exact count less one as row id. -/
theorem C39_primitive_overflow_panics (p : Profile) (k : Sink S) (b : PrimitiveBuffer α) (start stop pos : Nat)
    (e : PrimitiveEnc.Encoder α) (s : S) (res data be)
    (h : PrimitiveEnc.encodePrimitiveBuffer p b start stop pos e.bitmapEncoder = .ok (res, data, be)) :
    (2 ^ 32 ≤ e.numRows + res.numRows →
      ∃ e', PrimitiveEnc.writeBlock p k b start stop pos (e, s) = (.error (.panic .expect), (e', s))) ∧
    (e.numRows + res.numRows < 2 ^ 32 → 1 ≤ res.numRows →
      (PrimitiveEnc.writeBlock p k b start stop pos (e, s)).2.2 =
        (k.write s (e.numRows + res.numRows - 1) data).2) := by
  simp only [PrimitiveEnc.writeBlock, PrimitiveEnc.writeRange, Run.bind_apply, Run.get_apply, h, Run.lift_ok,
    Run.set_apply, PrimitiveEnc.addRows_eq]
  refine ⟨fun ho => ?_, fun ho h1 => ?_⟩
  · rw [if_neg (by omega)]; exact ⟨_, rfl⟩
  · rw [if_pos ho]
    simp only [Run.lift_ok, Profile.sub_ok p (show 1 ≤ e.numRows + res.numRows by omega), Run.emit]
    rcases k with ⟨w⟩
    dsimp only
    rcases w s (e.numRows + res.numRows - 1) data with ⟨x | x, s'⟩ <;> rfl

/-- C39, binary encoder. -/
theorem C39_binary_overflow_panics (p : Profile) (k : Sink S) (b : BinaryBuffer) (c : BinaryEnc.BinaryChunk)
    (pos : Nat) (e : BinaryEnc.Encoder) (s : S) (res)
    (h : BinaryEnc.encodeBinaryBuffer p b c pos e.bitmapEncoder = .ok res) :
    (2 ^ 32 ≤ e.numRows + res.result.numRows →
      ∃ e', BinaryEnc.writeBlock p k b c pos (e, s) = (.error (.panic .expect), (e', s))) ∧
    (e.numRows + res.result.numRows < 2 ^ 32 → 1 ≤ res.result.numRows →
      (BinaryEnc.writeBlock p k b c pos (e, s)).2.2 =
        (k.write s (e.numRows + res.result.numRows - 1) res.data).2) := by
  simp only [BinaryEnc.writeBlock, Run.bind_apply, Run.get_apply, h, Run.lift_ok,
    Run.set_apply, BinaryEnc.addRows_eq]
  refine ⟨fun ho => ?_, fun ho h1 => ?_⟩
  · rw [if_neg (by omega)]; exact ⟨_, rfl⟩
  · rw [if_pos ho]
    simp only [Run.lift_ok, Profile.sub_ok p (show 1 ≤ e.numRows + res.result.numRows by omega), Run.emit]
    rcases k with ⟨w⟩
    dsimp only
    rcases w s (e.numRows + res.result.numRows - 1) res.data with ⟨x | x, s'⟩ <;> rfl

/-- An encoder one row short of the limit refuses a block of two rows and offers nothing. -/
example : ∃ b : PrimitiveBuffer Int32, (PrimitiveBuffer.new false).pushAll [some 1, some 2] = .ok b ∧
    (PrimitiveEnc.writeBlock .release recorder b 0 2 0
      ({ PrimitiveEnc.Encoder.new (α := Int32) 8 false with numRows := 2 ^ 32 - 2 }, [])).2.2 = [] ∧
    (PrimitiveEnc.writeBlock .release recorder b 0 1 0
      ({ PrimitiveEnc.Encoder.new (α := Int32) 8 false with numRows := 2 ^ 32 - 2 }, [])).2.2 =
        [(2 ^ 32 - 2, [4, 1, 0, 0, 0])] :=
  ⟨_, PrimitiveBuffer.new_pushAll _ _ (.inr (by decide +kernel)), by decide +kernel⟩

/-- C57. The row ids of successive blocks of a column strictly increase (both encoders, any buffers,
however the run ends). -/
theorem C57_row_ids_increase (p : Profile) (m : Nat) (hm : 0 < m) (hm64 : m < 2 ^ 64) (nullable : Bool) :
    (∀ (bufs : List (PrimitiveBuffer α)),
      ((PrimitiveEnc.encodeColumn p recorder bufs (PrimitiveEnc.Encoder.new m nullable, [])).2.2.map
        (·.1)).Pairwise (· < ·)) ∧
    (∀ (bufs : List BinaryBuffer),
      ((BinaryEnc.encodeColumn p recorder bufs (BinaryEnc.Encoder.new m nullable, [])).2.2.map
        (·.1)).Pairwise (· < ·)) := by
  refine ⟨fun bufs => ?_, fun bufs => ?_⟩
  · rcases h : PrimitiveEnc.encodeColumn p recorder bufs (PrimitiveEnc.Encoder.new m nullable, []) with ⟨r, e, bl⟩
    obtain ⟨cs, h1, h2, _⟩ := C39_primitive_row_counts p m hm hm64 nullable bufs r e bl h
    rw [h1]; exact countIds_sorted 0 cs h2
  · rcases h : BinaryEnc.encodeColumn p recorder bufs (BinaryEnc.Encoder.new m nullable, []) with ⟨r, e, bl⟩
    obtain ⟨cs, h1, h2, _⟩ := C39_binary_row_counts p m nullable bufs r e bl h
    rw [h1]; exact countIds_sorted 0 cs h2

/-- Five values in blocks of two: ids 1, 3, 4. -/
example : ∃ b : PrimitiveBuffer Int32,
    (PrimitiveBuffer.new false).pushAll [some 1, some 2, some 3, some 4, some 5] = .ok b ∧
    ((PrimitiveEnc.encodeColumn .debug recorder [b] (PrimitiveEnc.Encoder.new 8 false, [])).2.2.map (·.1)) =
      [1, 3, 4] :=
  ⟨_, PrimitiveBuffer.new_pushAll _ _ (.inr (by decide +kernel)), by decide +kernel⟩

/-! ## C56: nullability mismatch -/

theorem validityAppendFrom_mismatch {d s : Option Bitmap} (h : d.isSome ≠ s.isSome) (pos n : Nat) :
    ∃ x, validityAppendFrom d s pos n = .error x := by
  cases d <;> cases s <;> simp_all [validityAppendFrom]

omit [Element α] in
theorem primitive_appendFrom_mismatch {d s : PrimitiveBuffer α} (h : d.validity.isSome ≠ s.validity.isSome)
    (a b pos : Nat) : ∃ x, d.appendFrom s a b pos = .error x := by
  rw [PrimitiveBuffer.appendFrom]
  rcases slice s.values a b with x | c
  · exact ⟨x, rfl⟩
  · obtain ⟨x, hx⟩ := validityAppendFrom_mismatch h pos (b - a)
    simp only [ok_bind]
    split
    · rw [hx]; exact ⟨x, rfl⟩
    · exact ⟨_, rfl⟩

theorem binary_appendFrom_mismatch (p : Profile) {d s : BinaryBuffer} (h : d.validity.isSome ≠ s.validity.isSome)
    (a b pos : Nat) : ∃ x, d.appendFrom p s a b pos = .error x := by
  rw [BinaryBuffer.appendFrom]
  rcases index s.offsets a with x | so
  · exact ⟨x, rfl⟩
  rcases index s.offsets b with x | eo
  · exact ⟨x, rfl⟩
  rcases p.sub 64 b a with x | n
  · exact ⟨x, rfl⟩
  simp only [ok_bind]
  rcases BinaryBuffer.appendFromOffsets p s (b - a) a (d.offsets.getLast?.getD 0) with x | os
  · exact ⟨x, rfl⟩
  rcases slice s.data so eo with x | c
  · exact ⟨x, rfl⟩
  obtain ⟨x, hx⟩ := validityAppendFrom_mismatch h pos n
  simp only [ok_bind]
  split
  · rw [hx]; exact ⟨x, rfl⟩
  · exact ⟨_, rfl⟩

/-- C56 as far as it holds, primitive encoder: a non-empty buffer of the other nullability makes `encode`
panic without offering anything, when rows are held back or the buffer is smaller than a block. What the panic leaves
in the encoder are the values held back and the first `n` values of the buffer refused (C98). -/
theorem C56_primitive_mismatch_partial (p : Profile) (k : Sink S) (b : PrimitiveBuffer α)
    (e : PrimitiveEnc.Encoder α) (s : S)
    (hmis : e.remaining.validity.isSome ≠ b.validity.isSome) (hne : 0 < b.len)
    (h : 0 < e.remaining.len ∨ b.len * Element.size α < e.minBlockSize) :
    ∃ x n, PrimitiveEnc.encode p k b (e, s) = (.error (.panic x),
      ({ e with remaining := ⟨e.remaining.values ++ b.values.take n, e.remaining.validity⟩ }, s)) := by
  have hleft : ∀ stop, ∃ n, e.remaining.appendFromLeft b 0 stop 0 =
      ⟨e.remaining.values ++ b.values.take n, e.remaining.validity⟩ := by
    intro stop
    have h1 := PrimitiveBuffer.appendFromLeft_values e.remaining b 0 stop 0
    have h2 := PrimitiveBuffer.appendFromLeft_mismatch hmis 0 stop 0
    refine ⟨if stop ≤ b.len then stop else 0, ?_⟩
    cases hx : e.remaining.appendFromLeft b 0 stop 0
    rw [hx] at h1 h2
    simp only at h1 h2
    rw [h1, h2]
    by_cases hs : stop ≤ b.len <;> simp [hs]
  have hsame : ∃ n, (e, s) =
      (({ e with remaining := ⟨e.remaining.values ++ b.values.take n, e.remaining.validity⟩ }, s) :
        PrimitiveEnc.Encoder α × S) := ⟨0, by simp⟩
  simp only [PrimitiveEnc.encode, PrimitiveEnc.encodeFuel, Run.bind_apply, Run.get_apply]
  by_cases hl : e.remaining.len > 0
  · rw [if_pos hl]
    simp only [Run.bind_apply]
    rcases p.sub 64 e.minBlockSize (e.remaining.len * Element.size α) with x | room
    · exact ⟨x, hsame.imp fun _ h => by rw [← h]; rfl⟩
    simp only [Run.lift_ok]
    rcases PrimitiveEnc.chunk p b 0 room with x | stop
    · exact ⟨x, hsame.imp fun _ h => by rw [← h]; rfl⟩
    obtain ⟨x, hx⟩ := primitive_appendFrom_mismatch hmis 0 stop 0
    simp only [Run.lift_ok, hx]
    exact ⟨x, (hleft stop).imp fun _ h => by rw [← h]; rfl⟩
  · rw [if_neg hl]
    have h := h.resolve_left hl
    rw [PrimitiveEnc.encodeLoop, if_pos hne]
    simp only [Run.bind_apply, Run.get_apply]
    have hle : ∀ stop, PrimitiveEnc.chunk p b 0 e.minBlockSize = .ok stop → stop ≤ b.len := by
      intro stop hs
      rw [PrimitiveEnc.chunk] at hs
      rcases hadd : p.add 64 0 (e.minBlockSize / Element.size α + if e.minBlockSize % Element.size α ≠ 0 then 1 else 0)
        with x | y
      · rw [hadd] at hs; cases hs
      · rw [hadd, ok_bind] at hs
        split at hs <;> cases hs
        · exact Nat.le_refl _
        · omega
    rcases hc : PrimitiveEnc.chunk p b 0 e.minBlockSize with x | stop
    · exact ⟨x, hsame.imp fun _ h => by rw [← h]; rfl⟩
    have hle := hle stop hc
    simp only [Run.lift_ok, Profile.sub_ok p (Nat.zero_le stop), Nat.sub_zero]
    have : stop * Element.size α ≤ b.len * Element.size α := Nat.mul_le_mul_right _ hle
    rw [if_pos (by omega)]
    obtain ⟨x, hx⟩ := primitive_appendFrom_mismatch hmis 0 stop 0
    simp only [Run.bind_apply, hx]
    exact ⟨x, (hleft stop).imp fun _ h => by rw [← h]; rfl⟩

theorem BinaryEnc.findPosition_lt (p : Profile) (S m : Nat) (os : List Nat) : ∀ (pos q o : Nat),
    BinaryEnc.findPosition p S m os pos = .ok (some (q, o)) → q < pos + os.length := by
  induction os with
  | nil => intro pos q o h; cases h
  | cons x os ih =>
    intro pos q o h
    rw [BinaryEnc.findPosition] at h
    rcases hs : p.sub 32 x S with y | d
    · rw [hs] at h; cases h
    · rw [hs, ok_bind] at h
      split at h
      · cases h; simp
      · have := ih _ _ _ h
        simp only [List.length_cons]; omega

theorem BinaryEnc.chunk_end_lt {p : Profile} {b : BinaryBuffer} {start m : Nat} {c : BinaryEnc.BinaryChunk}
    (h0 : 0 < b.offsets.length) (h : BinaryEnc.chunk p b start m = .ok c) :
    c.endPos < b.offsets.length := by
  rw [BinaryEnc.chunk] at h
  rcases hi : index b.offsets start with x | so
  · rw [hi] at h; cases h
  rw [hi, ok_bind] at h
  rcases hf : BinaryEnc.findPosition p so m (b.offsets.drop start) 0 with x | f
  · rw [hf] at h; cases h
  rw [hf, ok_bind] at h
  rcases he : BinaryEnc.chunkEnd b f with x | ⟨ep, eo⟩
  · rw [he] at h; cases h
  rw [he] at h
  simp only [ok_bind] at h
  have hep : ep < b.offsets.length := by
    rcases f with _ | ⟨q, o⟩
    · rw [BinaryEnc.chunkEnd] at he
      rcases hi : index b.offsets (b.offsets.length - 1) with x | y
      · rw [hi] at he; cases he
      · rw [hi] at he; cases he; omega
    · have := BinaryEnc.findPosition_lt _ _ _ _ _ _ _ hf
      cases he
      rw [List.length_drop] at this; omega
  rcases hs : p.sub 32 eo so with x | y
  · rw [hs] at h; cases h
  rw [hs, ok_bind] at h
  rcases hs : p.sub 64 ep start with x | z
  · rw [hs] at h; cases h
  rw [hs] at h
  cases h
  exact hep

theorem BinaryEnc.encodeLoop_mismatch (p : Profile) (k : Sink S) (b : BinaryBuffer) (fuel : Nat) :
    ∀ (bp vp : Nat) (e : BinaryEnc.Encoder) (s : S), e.remaining.validity.isSome ≠ b.validity.isSome →
      bp < b.offsets.length → ∃ f, (BinaryEnc.encodeLoop p k b fuel bp vp (e, s)).1 = .error f := by
  induction fuel with
  | zero => intro bp vp e s _ _; exact ⟨_, rfl⟩
  | succ fuel ih =>
    intro bp vp e s hmis hbp
    rw [BinaryEnc.encodeLoop, if_pos hbp]
    simp only [Run.bind_apply, Run.get_apply]
    rcases hc : BinaryEnc.chunk p b bp e.minBlockSize with x | c
    · exact ⟨_, rfl⟩
    have hlt := BinaryEnc.chunk_end_lt (by omega) hc
    simp only [Run.lift_ok]
    split
    · obtain ⟨x, hx⟩ := binary_appendFrom_mismatch p hmis c.startPos c.endPos vp
      simp only [Run.bind_apply, hx]
      exact ⟨_, rfl⟩
    · simp only [Run.bind_apply]
      have hfr := BinaryEnc.writeBlock_frame p k b c vp e s
      rcases hw : BinaryEnc.writeBlock p k b c vp (e, s) with ⟨x | r, e', s'⟩
      · exact ⟨_, rfl⟩
      · rw [hw] at hfr
        simp only at hfr ⊢
        exact ih _ _ e' s' (by rw [hfr.1]; exact hmis) hlt

/-- C56 as far as it holds, binary encoder: `encode` never returns normally for a buffer of the other
nullability (`offsets` is never empty in a buffer built through the API). With rows held back, it panics
without offering anything. -/
theorem C56_binary_mismatch_partial (p : Profile) (k : Sink S) (b : BinaryBuffer) (e : BinaryEnc.Encoder) (s : S)
    (hmis : e.remaining.validity.isSome ≠ b.validity.isSome) (hne : 0 < b.offsets.length) :
    (∃ f, (BinaryEnc.encode p k b (e, s)).1 = .error f) ∧
    (0 < e.remaining.len → ∃ x rem, BinaryEnc.encode p k b (e, s) = (.error (.panic x), ({ e with remaining := rem }, s))) := by
  have hpos : 0 < e.remaining.len → ∃ x rem, BinaryEnc.encode p k b (e, s) = (.error (.panic x), ({ e with remaining := rem }, s)) := by
    intro hl
    simp only [BinaryEnc.encode, Run.bind_apply, Run.get_apply]
    rw [if_pos hl]
    simp only [Run.bind_apply]
    rcases p.sub 64 e.minBlockSize e.remaining.data.length with x | room
    · exact ⟨x, _, rfl⟩
    simp only [Run.lift_ok]
    rcases BinaryEnc.chunk p b 0 room with x | c
    · exact ⟨x, _, rfl⟩
    obtain ⟨x, hx⟩ := binary_appendFrom_mismatch p hmis c.startPos c.endPos 0
    simp only [Run.lift_ok, hx]
    exact ⟨x, _, rfl⟩
  refine ⟨?_, hpos⟩
  by_cases hl : 0 < e.remaining.len
  · obtain ⟨x, _, hx⟩ := hpos hl
    exact ⟨_, by rw [hx]⟩
  · simp only [BinaryEnc.encode, Run.bind_apply, Run.get_apply]
    rw [if_neg hl]
    exact BinaryEnc.encodeLoop_mismatch p k b _ 0 0 e s hmis hne

/-- C56, binary encoder, nothing held back: a buffer smaller than a block makes `encode` panic without
offering anything. -/
theorem C56_binary_small_mismatch_partial (p : Profile) (k : Sink S) (nullable : Bool)
    (rows : List (Option Bytes)) (b : BinaryBuffer) (hb : (BinaryBuffer.new nullable).pushAll rows = .ok b)
    (e : BinaryEnc.Encoder) (s : S) (hmis : e.remaining.validity.isSome ≠ nullable) (hl : e.remaining.len = 0)
    (h : (valuesOf rows).flatten.length < e.minBlockSize) :
    ∃ x rem, BinaryEnc.encode p k b (e, s) = (.error (.panic x), ({ e with remaining := rem }, s)) := by
  obtain ⟨_, _, rfl⟩ := BinaryBuffer.new_pushAll_ok hb
  have hv : (BinaryBuffer.ofRows nullable rows).validity.isSome = nullable := by
    cases nullable <;> rfl
  simp only [BinaryEnc.encode, Run.bind_apply, Run.get_apply]
  rw [if_neg (by omega), BinaryEnc.encodeLoop, if_pos (by simp [BinaryBuffer.ofRows])]
  simp only [Run.bind_apply, Run.get_apply]
  have hc := BinaryEnc.chunk_eq p (BinaryBuffer.ofRows nullable rows) [] (valuesOf rows) rfl e.minBlockSize
  rcases hf : fill e.minBlockSize (valuesOf rows) with _ | j
  · rw [hf] at hc
    simp only [List.length_nil] at hc
    rw [hc]
    simp only [Run.lift_ok]
    rw [if_pos (by simpa using h)]
    obtain ⟨x, hx⟩ := binary_appendFrom_mismatch p (d := e.remaining) (s := BinaryBuffer.ofRows nullable rows)
      (by rw [hv]; exact hmis) 0 ([] ++ valuesOf rows).length 0
    simp only [Run.bind_apply, hx]
    exact ⟨x, _, rfl⟩
  · exfalso
    obtain ⟨h1, h2, h3⟩ := BinaryEnc.fill_some hf
    have : ((valuesOf rows).take j).flatten.length ≤ (valuesOf rows).flatten.length := by
      conv => rhs; rw [← List.take_append_drop j (valuesOf rows), List.flatten_append, List.length_append]
      omega
    omega

/-- C56 is false of the code. A buffer without nulls given to the encoder of a nullable column is written
as a block with no validity section: the primitive encoder returns normally; the binary encoder panics,
but only after offering the block. A reader of the nullable column cannot read the block. -/
theorem C56_nullability_mismatch_violated (p q : Profile) :
    (∃ (b : PrimitiveBuffer Int32) (e : PrimitiveEnc.Encoder Int32),
      (PrimitiveBuffer.new false).pushAll [some 5, some 6] = .ok b ∧
      PrimitiveEnc.encode p recorder b (PrimitiveEnc.Encoder.new 8 true, []) =
        (.ok (), (e, [(1, [8, 5, 0, 0, 0, 6, 0, 0, 0])])) ∧
      readPrimitive (α := Int32) q true [8, 5, 0, 0, 0, 6, 0, 0, 0] = none) ∧
    (∃ b e, (BinaryBuffer.new false).pushAll [some [5], some [], some [], some [], some [6]] = .ok b ∧
      BinaryEnc.encode p recorder b (BinaryEnc.Encoder.new 2 true, []) =
        (.error (.panic .assertion), (e, [(4, [2, 5, 6, 1, 3])])) ∧
      readBinary q true 5 [2, 5, 6, 1, 3] = none ∧
      readBinary q false 5 [2, 5, 6, 1, 3] = some [some [5], some [], some [], some [], some [6]]) := by
  constructor
  · obtain ⟨e, h⟩ := of_outcome (r := PrimitiveEnc.encode p recorder (PrimitiveBuffer.ofRows false
      [some (5 : Int32), some 6]) (PrimitiveEnc.Encoder.new 8 true, [])) (a := .ok ())
      (b := [(1, [8, 5, 0, 0, 0, 6, 0, 0, 0])]) (by cases p <;> decide +kernel)
    exact ⟨_, e, PrimitiveBuffer.new_pushAll _ _ (.inr (by decide +kernel)), h, by cases q <;> decide +kernel⟩
  · obtain ⟨e, h⟩ := of_outcome (r := BinaryEnc.encode p recorder (BinaryBuffer.ofRows false
      [some [5], some [], some [], some [], some [6]]) (BinaryEnc.Encoder.new 2 true, [])) (a := .error (.panic .assertion))
      (b := [(4, [2, 5, 6, 1, 3])]) (by cases p <;> decide +kernel)
    exact ⟨_, e, BinaryBuffer.new_pushAll _ _ (.inr (by decide +kernel)) (by decide +kernel), h,
      by cases q <;> decide +kernel, by cases q <;> decide +kernel⟩

/-- A non-nullable buffer of 4 bytes offered to the encoder of a nullable column with blocks of 8 bytes:
panic, nothing offered. -/
example : ∃ (b : PrimitiveBuffer Int32) (x : Panic) (e : PrimitiveEnc.Encoder Int32),
    (PrimitiveBuffer.new false).pushAll [some 5] = .ok b ∧
    PrimitiveEnc.encode .release recorder b (PrimitiveEnc.Encoder.new 8 true, []) = (.error (.panic x), (e, [])) := by
  obtain ⟨x, n, h⟩ := C56_primitive_mismatch_partial .release recorder
    (PrimitiveBuffer.ofRows false [some (5 : Int32)]) (PrimitiveEnc.Encoder.new 8 true) [] (by decide +kernel)
    (by decide +kernel) (.inr (by decide +kernel))
  exact ⟨_, x, _, PrimitiveBuffer.new_pushAll _ _ (.inr (by decide +kernel)), h⟩

end Meerkat
