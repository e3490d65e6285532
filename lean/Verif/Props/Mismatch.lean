import Verif.Props.EncoderSink

set_option autoImplicit false

/-! # C56, exactly: what an encoder does with a buffer of the other nullability -/

namespace Meerkat

variable {S : Type}

section
variable {α : Type} [Element α]

namespace PrimitiveEnc

/-- Writing a block neither looks at the rows held back nor changes them. -/
theorem writeRange_remaining (p : Profile) (k : Sink S) (buf : PrimitiveBuffer α) (st en bp : Nat) (e : Encoder α)
    (r : PrimitiveBuffer α) (s : S) :
    writeRange p k buf st en bp ({ e with remaining := r }, s) =
      ((writeRange p k buf st en bp (e, s)).1,
        ({ (writeRange p k buf st en bp (e, s)).2.1 with remaining := r }, (writeRange p k buf st en bp (e, s)).2.2)) := by
  simp only [writeRange, Run.bind_apply, Run.get_apply]
  rcases encodePrimitiveBuffer p buf st en bp e.bitmapEncoder with x | ⟨res, data, be⟩
  · rfl
  simp only [Run.lift_ok, Run.set_apply]
  rcases addRows e.numRows res.numRows with x | n
  · rfl
  simp only [Run.lift_ok]
  rcases p.sub 32 n 1 with x | id
  · rfl
  simp only [Run.lift_ok, Run.emit]
  cases (k.1 s id data).fst <;> rfl

theorem writeRange_frame (p : Profile) (k : Sink S) (buf : PrimitiveBuffer α) (st en bp : Nat) (e : Encoder α) (s : S) :
    (writeRange p k buf st en bp (e, s)).2.1.remaining = e.remaining ∧
    (writeRange p k buf st en bp (e, s)).2.1.minBlockSize = e.minBlockSize := by
  simp only [writeRange, Run.bind_apply, Run.get_apply]
  rcases encodePrimitiveBuffer p buf st en bp e.bitmapEncoder with x | ⟨res, data, be⟩
  · exact ⟨rfl, rfl⟩
  simp only [Run.lift_ok, Run.set_apply]
  rcases addRows e.numRows res.numRows with x | n
  · exact ⟨rfl, rfl⟩
  simp only [Run.lift_ok]
  rcases p.sub 32 n 1 with x | id
  · exact ⟨rfl, rfl⟩
  simp only [Run.lift_ok, Run.emit]
  cases (k.1 s id data).fst <;> exact ⟨rfl, rfl⟩

omit [Element α] in
theorem appendFrom_length {d s d' : PrimitiveBuffer α} {a b pos q : Nat} (h : d.appendFrom s a b pos = .ok (d', q)) :
    a ≤ b ∧ d'.len = d.len + (b - a) := by
  rw [PrimitiveBuffer.appendFrom] at h
  rcases hs : slice s.values a b with x | c
  · rw [hs] at h; cases h
  rw [hs, ok_bind] at h
  simp only at h
  split at h
  · rcases hv : validityAppendFrom d.validity s.validity pos (b - a) with x | ⟨v, q'⟩
    · rw [hv] at h; cases h
    rw [hv] at h
    cases h
    simp only [slice] at hs
    split at hs
    · cases hs
      simp [PrimitiveBuffer.len]
      omega
    · cases hs
  · cases h

/-- The `while` loop with a buffer of the other nullability, against the loop of an encoder of the same. -/
theorem encodeLoop_mismatch (p : Profile) (k : Sink S) (b : PrimitiveBuffer α) (r : PrimitiveBuffer α)
    (hr : r.values = []) (fuel : Nat) : ∀ (bp vp : Nat) (e : Encoder α) (s : S),
      e.remaining.validity.isSome ≠ b.validity.isSome → e.minBlockSize < 2 ^ 64 →
      let right := encodeLoop p k b fuel bp vp ({ e with remaining := r }, s)
      let wrong := encodeLoop p k b fuel bp vp (e, s)
      wrong.2.2 = right.2.2 ∧
      (wrong.1 = .ok () ↔ right.1 = .ok () ∧ right.2.1.remaining.len = 0) ∧
      (wrong.1 = .error .io ↔ right.1 = .error .io) ∧
      wrong.2.1.remaining = ⟨e.remaining.values ++ right.2.1.remaining.values, e.remaining.validity⟩ := by
  have hl : r.len = 0 := by rw [PrimitiveBuffer.len, hr]; rfl
  induction fuel with
  | zero => intro bp vp e s _ _; simp [encodeLoop, Run.lift, hr]
  | succ fuel ih =>
    intro bp vp e s hmis hB
    by_cases hbp : bp < b.len
    · simp only [encodeLoop, if_pos hbp, Run.bind_apply, Run.get_apply]
      rcases hc : chunk p b bp e.minBlockSize with x | stop
      · simp [Run.lift, hr]
      simp only [Run.lift_ok]
      rcases hs : p.sub 64 stop bp with x | n
      · simp [Run.lift, hr]
      simp only [Run.lift_ok]
      by_cases hlt : n * Element.size α < e.minBlockSize
      · simp only [if_pos hlt, Run.bind_apply]
        obtain ⟨x, hx⟩ := primitive_appendFrom_mismatch hmis bp stop vp
        simp only [hx]
        have hv := PrimitiveBuffer.appendFromLeft_mismatch hmis bp stop vp
        have hw := PrimitiveBuffer.appendFromLeft_values e.remaining b bp stop vp
        have hw' := PrimitiveBuffer.appendFromLeft_values r b bp stop vp
        rw [hr, List.nil_append] at hw'
        have hleft : e.remaining.appendFromLeft b bp stop vp =
            ⟨e.remaining.values ++ (r.appendFromLeft b bp stop vp).values, e.remaining.validity⟩ := by
          rw [hw', ← hw, ← hv]
        rcases ha : r.appendFrom b bp stop vp with y | ⟨d, q⟩
        · simp [Run.lift, leaving, hleft]
        · obtain ⟨h1, h2⟩ := appendFrom_length ha
          have h3 := chunk_ne hbp (by omega) hB hc
          have h4 : d.len ≠ 0 := by omega
          rw [PrimitiveBuffer.appendFromLeft_ok ha] at hleft
          simp [Run.lift, Run.set, leaving, hleft, h4]
      · simp only [if_neg hlt, Run.bind_apply, writeBlock]
        have hfr := writeRange_remaining p k b bp stop vp e r s
        have hfm := writeRange_frame p k b bp stop vp e s
        rcases hw : writeRange p k b bp stop vp (e, s) with ⟨x | res, e', s'⟩
        · rw [hw] at hfr hfm
          simp only at hfr hfm
          simp only [hfr]
          simp [hfm.1, hr]
        · rw [hw] at hfr hfm
          simp only at hfr hfm
          simp only [hfr]
          obtain ⟨h1, h2, h3, h4⟩ := ih stop res.lastValidityPos e' s' (by rw [hfm.1]; exact hmis) (by rw [hfm.2]; exact hB)
          exact ⟨h1, h2, h3, by rw [h4, hfm.1]⟩
    · simp [encodeLoop, hbp, Run.pure_apply, hr, hl]

end PrimitiveEnc

/-- C56, primitive encoder, exactly: with nothing held back, a buffer of the other nullability is written as if it were
of the column's: the blocks offered are those of an encoder made for the buffer. The call fails if that encoder's
does, or if that encoder holds rows back afterwards; otherwise it returns normally. The values of those rows are then
found behind the ones already in `remaining`, although the call has panicked. -/
theorem C56_primitive_mismatch_exact (p : Profile) (k : Sink S) (b : PrimitiveBuffer α)
    (e : PrimitiveEnc.Encoder α) (s : S) (hl : e.remaining.len = 0) (hB : e.minBlockSize < 2 ^ 64)
    (hmis : e.remaining.validity.isSome ≠ b.validity.isSome) :
    let right := PrimitiveEnc.encode p k b ({ e with remaining := PrimitiveBuffer.new b.validity.isSome }, s)
    let wrong := PrimitiveEnc.encode p k b (e, s)
    wrong.2.2 = right.2.2 ∧
    (wrong.1 = .ok () ↔ right.1 = .ok () ∧ right.2.1.remaining.len = 0) ∧
    (wrong.1 = .error .io ↔ right.1 = .error .io) ∧
    wrong.2.1.remaining = ⟨e.remaining.values ++ right.2.1.remaining.values, e.remaining.validity⟩ := by
  simp only [PrimitiveEnc.encode, PrimitiveEnc.encodeFuel, Run.bind_apply, Run.get_apply]
  rw [if_neg (by omega), if_neg (by simp [PrimitiveBuffer.len, PrimitiveBuffer.new])]
  exact PrimitiveEnc.encodeLoop_mismatch p k b _ rfl _ 0 0 e s hmis hB

end

namespace BinaryEnc

theorem writeBlock_remaining (p : Profile) (k : Sink S) (buf : BinaryBuffer) (c : BinaryChunk) (bp : Nat) (e : Encoder)
    (r : BinaryBuffer) (s : S) :
    writeBlock p k buf c bp ({ e with remaining := r }, s) =
      ((writeBlock p k buf c bp (e, s)).1,
        ({ (writeBlock p k buf c bp (e, s)).2.1 with remaining := r }, (writeBlock p k buf c bp (e, s)).2.2)) := by
  simp only [writeBlock, Run.bind_apply, Run.get_apply]
  rcases encodeBinaryBuffer p buf c bp e.bitmapEncoder with x | res
  · rfl
  simp only [Run.lift_ok, Run.set_apply]
  rcases addRows e.numRows res.result.numRows with x | n
  · rfl
  simp only [Run.lift_ok]
  rcases p.sub 32 n 1 with x | id
  · rfl
  simp only [Run.lift_ok, Run.emit]
  cases (k.1 s id res.data).fst <;> rfl

theorem encodeLoop_mismatch_as (p : Profile) (k : Sink S) (b : BinaryBuffer) (r : BinaryBuffer) (hr : r.data = [])
    (fuel : Nat) :
    ∀ (bp vp : Nat) (e : Encoder) (s : S), e.remaining.validity.isSome ≠ b.validity.isSome →
      let right := encodeLoop p k b fuel bp vp ({ e with remaining := r }, s)
      let wrong := encodeLoop p k b fuel bp vp (e, s)
      wrong.2.2 = right.2.2 ∧ (wrong.1 = .error .io ↔ right.1 = .error .io) ∧
      wrong.2.1.remaining.validity = e.remaining.validity ∧
      (e.remaining.offsets = r.offsets →
        wrong.2.1.remaining.offsets = right.2.1.remaining.offsets ∧
        wrong.2.1.remaining.data = e.remaining.data ++ right.2.1.remaining.data) := by
  induction fuel with
  | zero => intro bp vp e s _; simp [encodeLoop, Run.lift, hr]
  | succ fuel ih =>
    intro bp vp e s hmis
    by_cases hbp : bp < b.offsets.length
    · simp only [encodeLoop, if_pos hbp, Run.bind_apply, Run.get_apply]
      rcases hc : chunk p b bp e.minBlockSize with x | c
      · simp [Run.lift, hr]
      simp only [Run.lift_ok]
      by_cases hlt : c.size < e.minBlockSize
      · simp only [if_pos hlt, Run.bind_apply]
        obtain ⟨x, hx⟩ := binary_appendFrom_mismatch p hmis c.startPos c.endPos vp
        simp only [hx]
        have hv := BinaryBuffer.appendFromLeft_validity (p := p) hmis c.startPos c.endPos vp
        have hleft := fun ho => BinaryBuffer.appendFromLeft_same p (d := e.remaining) (r := r) (s := b) ho hr
          c.startPos c.endPos vp
        rcases ha : r.appendFrom p b c.startPos c.endPos vp with y | ⟨d, q⟩
        · simp only [Run.lift_left, leaving]
          exact ⟨trivial, by simp, hv, hleft⟩
        · rw [BinaryBuffer.appendFromLeft_ok ha] at hleft
          simp only [Run.lift_left, Run.lift_ok, Run.set_apply, leaving]
          exact ⟨trivial, by simp, hv, hleft⟩
      · simp only [if_neg hlt, Run.bind_apply]
        have hfr := writeBlock_remaining p k b c vp e r s
        have hfm := writeBlock_frame p k b c vp e s
        rcases hw : writeBlock p k b c vp (e, s) with ⟨x | res, e', s'⟩
        · rw [hw] at hfr hfm
          simp only at hfr hfm
          simp only [hfr]
          simp [hfm.1, hr]
        · rw [hw] at hfr hfm
          simp only at hfr hfm
          simp only [hfr]
          obtain ⟨h1, h2, h3, h4⟩ := ih c.endPos res.lastValidityPos e' s' (by rw [hfm.1]; exact hmis)
          rw [hfm.1] at h3 h4
          exact ⟨h1, h2, h3, h4⟩
    · simp [encodeLoop, hbp, Run.pure_apply, hr]

end BinaryEnc

/-- C56, binary encoder, exactly: with nothing held back, the blocks offered for a buffer of the other nullability are
those of an encoder made for the buffer; then the call fails, by a panic unless the sink failed. The values that
encoder holds back are left in `remaining`. -/
theorem C56_binary_mismatch_exact (p : Profile) (k : Sink S) (b : BinaryBuffer) (e : BinaryEnc.Encoder) (s : S)
    (hl : e.remaining.len = 0) (hne : 0 < b.offsets.length)
    (hmis : e.remaining.validity.isSome ≠ b.validity.isSome) :
    let right := BinaryEnc.encode p k b ({ e with remaining := BinaryBuffer.new b.validity.isSome }, s)
    let wrong := BinaryEnc.encode p k b (e, s)
    wrong.2.2 = right.2.2 ∧ wrong.1 ≠ .ok () ∧ (wrong.1 = .error .io ↔ right.1 = .error .io) ∧
    wrong.2.1.remaining.validity = e.remaining.validity ∧
    (e.remaining.offsets = [0] →
      wrong.2.1.remaining.offsets = right.2.1.remaining.offsets ∧
      wrong.2.1.remaining.data = e.remaining.data ++ right.2.1.remaining.data) := by
  obtain ⟨f, hf⟩ := (C56_binary_mismatch_partial p k b e s hmis hne).1
  intro right wrong
  have h : wrong.2.2 = right.2.2 ∧ (wrong.1 = .error .io ↔ right.1 = .error .io) ∧
      wrong.2.1.remaining.validity = e.remaining.validity ∧
      (e.remaining.offsets = [0] →
        wrong.2.1.remaining.offsets = right.2.1.remaining.offsets ∧
        wrong.2.1.remaining.data = e.remaining.data ++ right.2.1.remaining.data) := by
    simp only [wrong, right, BinaryEnc.encode, Run.bind_apply, Run.get_apply]
    rw [if_neg (by omega), if_neg (by simp [BinaryBuffer.len, BinaryBuffer.new])]
    exact BinaryEnc.encodeLoop_mismatch_as p k b _ rfl _ 0 0 e s hmis
  exact ⟨h.1, by rw [hf]; simp, h.2⟩

/-- Three values without nulls for a nullable column with blocks of two: the first block is offered, without a validity
section, then the call panics; with four values it returns normally. -/
example :
    let e : PrimitiveEnc.Encoder Int32 := .new 8 true
    let three := PrimitiveEnc.encode .debug recorder (.ofRows false [some 5, some 6, some 7]) (e, [])
    let four := PrimitiveEnc.encode .debug recorder (.ofRows false [some 5, some 6, some 7, some 8]) (e, [])
    three.1 = .error (.panic .assertion) ∧ three.2.2 = [(1, [8, 5, 0, 0, 0, 6, 0, 0, 0])] ∧
    three.2.1.remaining.values = [7] ∧ four.1 = .ok () ∧
    four.2.2 = [(1, [8, 5, 0, 0, 0, 6, 0, 0, 0]), (3, [8, 7, 0, 0, 0, 8, 0, 0, 0])] := by
  decide +kernel

end Meerkat
