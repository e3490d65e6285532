import Verif.Model.EncSteps
import Verif.Proofs.RleSteps
import Verif.Proofs.EncoderHistory
import Verif.Spec.Work

set_option autoImplicit false

/-! # Counting does not change the primitive encoder; bounds on the count -/

namespace Meerkat

@[simp] theorem Counted.result_ticks (n : Nat) : (Counted.ticks n).result = .ok () := rfl
@[simp] theorem Counted.steps_ticks (n : Nat) : (Counted.ticks n).steps = n := rfl

namespace Timed
variable {σ α β : Type}

@[simp] theorem run_bind (m : Timed σ α) (f : α → Timed σ β) : (m >>= f).run = m.run >>= fun a => (f a).run := by
  funext s
  rw [Run.bind_apply]
  show (Timed.bind m f s).1 = _
  unfold Timed.bind run
  rcases hm : m s with ⟨⟨r, s'⟩, n⟩
  cases r <;> rfl

@[simp] theorem run_pure (a : α) : (pure a : Timed σ α).run = pure a := rfl
@[simp] theorem run_tick : (tick : Timed σ Unit).run = pure () := rfl
@[simp] theorem run_of (m : Run σ α) : (of m).run = m := rfl
@[simp] theorem run_lift (c : Counted α) (left : σ → σ) : (lift c left).run = Run.lift c.result left := rfl

end Timed

theorem Run.pure_unit_bind {σ β : Type} (f : Unit → Run σ β) : ((pure () : Run σ Unit) >>= f) = f () := rfl

theorem Res.bind_pure {α : Type} (r : Res α) : (r >>= fun a => Except.ok a) = r := by cases r <;> rfl

namespace Rle.Encoder

@[simp] theorem result_putC (p : Profile) (e : Encoder) (b : Bool) : (e.putC p b).result = e.put p b := by
  simp only [putC, Counted.result_bind, Counted.result_tick, Counted.result_lift, Counted.result_ticks, Counted.result_pure]
  cases e.put p b <;> rfl

@[simp] theorem result_flushC (p : Profile) (e : Encoder) : (e.flushC p).result = e.flush p := by
  simp only [flushC, Counted.result_bind, Counted.result_lift, Counted.result_ticks, Counted.result_pure]
  cases e.flush p <;> rfl

@[simp] theorem result_putFromLoopC (p : Profile) (e : Encoder) (bm : Bitmap) (bp rem : Nat) :
    (e.putFromLoopC p bm bp rem).result = e.putFromLoop p bm bp rem := by
  fun_induction putFromLoopC p e bm bp rem with
  | case1 => rw [putFromLoop, if_pos rfl]; rfl
  | case2 e bp rem h0 hlt ih =>
    rw [putFromLoop, if_neg h0, dif_pos hlt]
    simp only [Counted.result_bind, Counted.result_lift, result_putC]
    congr 1; funext b
    congr 1; funext e'
    exact ih b e'
  | case3 e bp rem h0 hlt => rw [putFromLoop, if_neg h0, dif_neg hlt]; rfl

end Rle.Encoder

@[simp] theorem Bitmap.result_appendFromLoopC (dst src : Bitmap) (bp rem : Nat) :
    (dst.appendFromLoopC src bp rem).result = dst.appendFromLoop src bp rem := by
  fun_induction appendFromLoopC dst src bp rem with
  | case1 => rw [appendFromLoop, if_pos rfl]; rfl
  | case2 dst bp rem h0 hlt ih =>
    rw [appendFromLoop, if_neg h0, dif_pos hlt]
    simp only [Counted.result_bind, Counted.result_lift, Counted.result_tick, ok_bind]
    congr 1; funext b
    congr 1; funext e'
    exact ih b e'
  | case3 e bp rem h0 hlt => rw [appendFromLoop, if_neg h0, dif_neg hlt]; rfl

@[simp] theorem result_validityAppendFromC (dst src : Option Bitmap) (vp n : Nat) :
    (validityAppendFromC dst src vp n).result = validityAppendFrom dst src vp n := by
  cases src <;> cases dst <;> simp [validityAppendFromC, validityAppendFrom, Bitmap.appendFrom, pure_eq_ok]

@[simp] theorem PrimitiveBuffer.result_appendFromC {α : Type} (b buf : PrimitiveBuffer α) (i j vp : Nat) :
    (b.appendFromC buf i j vp).result = b.appendFrom buf i j vp := by
  simp only [appendFromC, appendFrom, Counted.result_bind, Counted.result_lift, Counted.result_ticks, ok_bind]
  congr 1; funext chunk
  split
  · simp only [Counted.result_bind, result_validityAppendFromC, Counted.result_pure, pure_eq_ok]
  · rfl

namespace PrimitiveEnc
variable {α : Type} [Element α] {S : Type}

@[simp] theorem result_encodeValidityC (p : Profile) (v : Option Bitmap) (bp n : Nat) (be : Rle.Encoder) :
    (encodeValidityC p v bp n be).result = encodeValidity p v bp n be := by
  cases v with
  | none => rfl
  | some v =>
    simp only [encodeValidityC, encodeValidity, Rle.Encoder.putFrom, Counted.result_bind, Rle.Encoder.result_putFromLoopC,
      Rle.Encoder.result_flushC, Counted.result_ticks, Counted.result_pure, ok_bind, pure_eq_ok]

@[simp] theorem result_encodePrimitiveBufferC (p : Profile) (buf : PrimitiveBuffer α) (i j bp : Nat) (be : Rle.Encoder) :
    (encodePrimitiveBufferC p buf i j bp be).result = encodePrimitiveBuffer p buf i j bp be := by
  simp only [encodePrimitiveBufferC, encodePrimitiveBuffer, Counted.result_bind, Counted.result_lift,
    result_encodeValidityC, Counted.result_ticks, Counted.result_pure, ok_bind, pure_eq_ok]

@[simp] theorem run_writeRangeC (p : Profile) (k : Sink S) (buf : PrimitiveBuffer α) (i j bp : Nat) :
    (writeRangeC p k buf i j bp).run = writeRange p k buf i j bp := by
  simp only [writeRangeC, writeRange, Timed.run_bind, Timed.run_of, Timed.run_lift, result_encodePrimitiveBufferC,
    Timed.run_pure]

@[simp] theorem run_writeRemainingC (p : Profile) (k : Sink S) :
    (writeRemainingC p k : Timed (Encoder α × S) _).run = writeRemaining p k := by
  simp only [writeRemainingC, writeRemaining, Timed.run_bind, Timed.run_of, run_writeRangeC]

@[simp] theorem run_encodeLoopC (p : Profile) (k : Sink S) (buf : PrimitiveBuffer α) (fuel : Nat) : ∀ bp vp,
    (encodeLoopC p k buf fuel bp vp).run = encodeLoop p k buf fuel bp vp := by
  induction fuel with
  | zero => intro bp vp; rfl
  | succ fuel ih =>
    intro bp vp
    rw [encodeLoopC, encodeLoop]
    split
    · simp only [Timed.run_bind, Timed.run_of, Timed.run_tick, Run.pure_unit_bind]
      congr 1; funext e
      congr 1; funext c
      congr 1; funext n
      split
      · simp only [Timed.run_bind, Timed.run_of, Timed.run_lift, PrimitiveBuffer.result_appendFromC]
      · simp only [Timed.run_bind, run_writeRangeC, writeBlock, ih]
    · rfl

@[simp] theorem run_encodeC (p : Profile) (k : Sink S) (buf : PrimitiveBuffer α) :
    (encodeC p k buf).run = encode p k buf := by
  simp only [encodeC, encode, encodeFuel, Timed.run_bind, Timed.run_of]
  congr 1; funext e
  split
  · simp only [Timed.run_bind, Timed.run_of, Timed.run_lift, PrimitiveBuffer.result_appendFromC]
    congr 1; funext room
    congr 1; funext c
    congr 1; funext r
    congr 1; funext u
    split
    · rfl
    · simp only [Timed.run_bind, Timed.run_of, run_writeRemainingC, run_encodeLoopC]
  · exact run_encodeLoopC ..

@[simp] theorem run_flushC (p : Profile) (k : Sink S) : (flushC p k : Timed (Encoder α × S) _).run = flush p k := by
  simp only [flushC, flush, Timed.run_bind, Timed.run_of]
  congr 1; funext e
  split
  · simp only [Timed.run_bind, run_writeRemainingC, Timed.run_pure]
  · rfl

@[simp] theorem run_encodeAllC (p : Profile) (k : Sink S) (bufs : List (PrimitiveBuffer α)) :
    (encodeAllC p k bufs).run = encodeAll p k bufs := by
  induction bufs with
  | nil => rfl
  | cons b bs ih => simp only [encodeAllC, encodeAll, Timed.run_bind, run_encodeC, ih]

@[simp] theorem run_encodeColumnC (p : Profile) (k : Sink S) (bufs : List (PrimitiveBuffer α)) :
    (encodeColumnC p k bufs).run = encodeColumn p k bufs := by
  simp only [encodeColumnC, encodeColumn, Timed.run_bind, run_encodeAllC, run_flushC]

end PrimitiveEnc

/-! ## Bounds -/

namespace Rle.Encoder
open Varint

theorem emitLit_grows {e e' : Encoder} {n : Nat} (h : e.emitBitmapLiteral n = .ok e') :
    e'.buffer = e.buffer ∧ e.encodedValues.length ≤ e'.encodedValues.length ∧
    e'.encodedValues.length ≤ e.encodedValues.length + 10 + e.buffer.length := by
  simp only [emitBitmapLiteral] at h
  split at h
  · cases h; exact ⟨rfl, Nat.le_refl _, by omega⟩
  · have hv : shl 64 n 1 ||| 1 < 2 ^ 64 := Nat.or_lt_two_pow (shl_lt n 1) (by omega)
    have hl := varintBytes_length_le_ten hv
    rw [encodeVarint_ok _ _ (by simpa [MAX_VARINT_LEN] using hl)] at h
    simp only [ok_bind] at h
    rw [slice, if_pos (by simp)] at h
    simp only [ok_bind, slice] at h
    split at h
    · rename_i hn
      cases h
      refine ⟨rfl, by simp only [List.length_append]; omega, ?_⟩
      simp only [List.length_append, List.length_take, List.length_drop]
      omega
    · cases h

theorem emitRun_grows {e e' : Encoder} {n : Nat} {b : Byte} (h : e.emitRun n b = .ok e') :
    e'.buffer = e.buffer ∧ e.encodedValues.length ≤ e'.encodedValues.length ∧
    e'.encodedValues.length ≤ e.encodedValues.length + 11 := by
  have hl := varintBytes_length_le_ten (shl_lt n 1)
  simp only [emitRun] at h
  rw [encodeVarint_ok _ _ (by simpa [MAX_VARINT_LEN] using hl)] at h
  simp only [ok_bind] at h
  rw [slice, if_pos (by simp)] at h
  cases h
  refine ⟨rfl, by simp only [List.length_append]; omega, ?_⟩
  simp only [List.length_append, List.length_take, List.length_drop, List.length_singleton]
  omega

/-- Bytes are moved from the buffer to the output once; besides, a byte that is put adds at most twelve. -/
theorem append_grows {p : Profile} {e e' : Encoder} {cur : Byte} (h : e.append p cur = .ok e') :
    e.encodedValues.length ≤ e'.encodedValues.length ∧
    e'.encodedValues.length + e'.buffer.length ≤ e.encodedValues.length + e.buffer.length + 12 := by
  rcases hm : e.appendMatch p cur with x | e1
  · rw [append, hm] at h; cases h
  rw [append, hm] at h
  cases h
  dsimp only
  simp only [appendMatch] at hm
  split at hm
  · cases hm; simp; omega
  · split at hm
    · rcases hs : p.sub 64 e.buffer.length 1 with x | pos
      · rw [hs] at hm; cases hm
      · rw [hs] at hm; cases hm; simp; omega
    · cases hm; simp; omega
  · split at hm
    · cases hm; simp [transitionToLiteral]; omega
    · split at hm
      · split at hm
        · rename_i hlt
          rcases hl : emitBitmapLiteral { e with buffer := e.buffer ++ [cur], repeatCount := e.repeatCount + 1 }
              e.runStartPos with x | e2
          · rw [hl] at hm; cases hm
          · rw [hl] at hm
            cases hm
            obtain ⟨_, h2, h3⟩ := emitLit_grows hl
            dsimp only at h2 h3 ⊢
            simp only [List.length_append, List.length_singleton, List.length_nil] at h3 ⊢
            omega
        · cases hm; simp; omega
      · cases hm; simp; omega
  · split at hm
    · rcases hl : e.emitRun e.repeatCount e.lastValue with x | e2
      · rw [hl] at hm; cases hm
      · rw [hl] at hm
        cases hm
        obtain ⟨h1, h2, h3⟩ := emitRun_grows hl
        simp only [transitionToLiteral, h1, List.length_append, List.length_singleton]
        omega
    · cases hm; simp

theorem put_grows {p : Profile} {e e' : Encoder} {b : Bool} (h : e.put p b = .ok e') :
    e.encodedValues.length ≤ e'.encodedValues.length ∧
    e'.encodedValues.length + e'.buffer.length ≤ e.encodedValues.length + e.buffer.length + 12 := by
  simp only [put] at h
  rcases hb : e.setBit b with x | byte
  · rw [hb] at h; cases h
  rw [hb, ok_bind] at h
  split at h
  · rcases ha : append p { e with byte := byte, bitPos := 0 } byte with x | e1
    · rw [ha] at h; cases h
    · rw [ha] at h
      cases h
      have := append_grows ha
      dsimp only at this ⊢
      exact this
  · cases h; simp

theorem flush_grows {p : Profile} {e e' : Encoder} (h : e.flush p = .ok e') :
    e.encodedValues.length ≤ e'.encodedValues.length ∧
    e'.encodedValues.length ≤ e.encodedValues.length + e.buffer.length + 23 := by
  simp only [flush] at h
  have key : ∀ e1 : Encoder, e.encodedValues.length ≤ e1.encodedValues.length →
      e1.encodedValues.length + e1.buffer.length ≤ e.encodedValues.length + e.buffer.length + 12 →
      (match e1.state with
        | .init => (pure e1 : Res Encoder)
        | .literal => e1.emitBitmapLiteral e1.buffer.length
        | .startOfRun => e1.emitBitmapLiteral e1.buffer.length
        | .run => e1.emitRun e1.repeatCount e1.lastValue) = .ok e' →
      e.encodedValues.length ≤ e'.encodedValues.length ∧
      e'.encodedValues.length ≤ e.encodedValues.length + e.buffer.length + 23 := by
    intro e1 h1 h2 h3
    split at h3
    · cases h3; omega
    · obtain ⟨_, g2, g3⟩ := emitLit_grows h3; omega
    · obtain ⟨_, g2, g3⟩ := emitLit_grows h3; omega
    · obtain ⟨_, g2, g3⟩ := emitRun_grows h3; omega
  split at h
  · rcases ha : e.append p e.byte with x | e1
    · rw [ha] at h; cases h
    · rw [ha, ok_bind] at h
      obtain ⟨g1, g2⟩ := append_grows ha
      exact key e1 g1 g2 h
  · exact key e (Nat.le_refl _) (by omega) h

theorem steps_putC {p : Profile} {e : Encoder} {b : Bool} :
    (e.putC p b).steps = 1 + (match e.put p b with
      | .ok e' => e'.encodedValues.length - e.encodedValues.length
      | .error _ => 0) := by
  simp only [putC, Counted.steps_tick_bind]
  cases h : e.put p b with
  | error x => rw [Counted.steps_bind_error (e := x) (by simp [h])]; rfl
  | ok e' =>
    rw [Counted.steps_bind_ok (a := e') (by simp [h])]
    rw [Counted.steps_bind_ok (a := ()) (by simp)]
    simp

/-- The loop of `put_from`, whether it ends or panics. -/
theorem steps_putFromLoopC (p : Profile) (e : Encoder) (bm : Bitmap) (bp rem : Nat) :
    (e.putFromLoopC p bm bp rem).steps ≤ 13 * (bm.len - bp) + e.buffer.length ∧
    ∀ e' pos, e.putFromLoop p bm bp rem = .ok (e', pos) → bp ≤ pos ∧ (bm.len - pos) + (pos - bp) = bm.len - bp ∧
      e.encodedValues.length ≤ e'.encodedValues.length ∧
      e'.encodedValues.length + e'.buffer.length ≤ e.encodedValues.length + e.buffer.length + 12 * (pos - bp) ∧
      (e.putFromLoopC p bm bp rem).steps = (pos - bp) + (e'.encodedValues.length - e.encodedValues.length) := by
  fun_induction putFromLoopC p e bm bp rem with
  | case1 e bp =>
    refine ⟨by simp, fun e' pos h => ?_⟩
    rw [putFromLoop, if_pos rfl] at h
    cases h
    simp
  | case2 e bp rem h0 hlt ih =>
    rw [putFromLoop, if_neg h0, dif_pos hlt]
    rcases hs : bm.isSet bp with x | b
    · rw [Counted.steps_bind_error (e := x) (by simp [hs])]
      exact ⟨by simp, fun e' pos h => by cases h⟩
    rw [Counted.steps_bind_ok (a := b) (by simp [hs]), Counted.steps_lift, Nat.zero_add, ok_bind]
    rcases hp : e.put p b with x | e1
    · rw [Counted.steps_bind_error (e := x) (by simp [hp]), steps_putC, hp]
      exact ⟨by dsimp only; omega, fun e' pos h => by cases h⟩
    rw [Counted.steps_bind_ok (a := e1) (by simp [hp]), steps_putC, hp, ok_bind]
    dsimp only
    obtain ⟨g1, g2⟩ := put_grows hp
    obtain ⟨i1, i2⟩ := ih b e1
    have q := Nat.sub_add_cancel g1
    refine ⟨by omega, fun e' pos h => ?_⟩
    obtain ⟨k1, k2, k3, k4, k5⟩ := i2 e' pos h
    have q2 := Nat.sub_add_cancel k3
    have q3 := Nat.sub_add_cancel (Nat.le_trans g1 k3)
    omega
  | case3 e bp rem h0 hlt =>
    refine ⟨by simp, fun e' pos h => ?_⟩
    rw [putFromLoop, if_neg h0, dif_neg hlt] at h
    cases h

end Rle.Encoder

/-- The loop of `append_from`, whether it ends or panics. -/
theorem Bitmap.steps_appendFromLoopC (dst src : Bitmap) (bp rem : Nat) :
    (dst.appendFromLoopC src bp rem).steps ≤ src.len - bp ∧
    ∀ dst' pos, dst.appendFromLoop src bp rem = .ok (dst', pos) → bp ≤ pos ∧ (src.len - pos) + (pos - bp) = src.len - bp ∧
      dst'.len = dst.len + (pos - bp) ∧ (dst.appendFromLoopC src bp rem).steps = pos - bp := by
  fun_induction appendFromLoopC dst src bp rem with
  | case1 e bp =>
    refine ⟨by simp, fun e' pos h => ?_⟩
    rw [appendFromLoop, if_pos rfl] at h
    cases h
    simp
  | case2 dst bp rem h0 hlt ih =>
    rw [appendFromLoop, if_neg h0, dif_pos hlt]
    simp only [Counted.steps_tick_bind]
    rcases hs : src.isSet bp with x | b
    · rw [Counted.steps_bind_error (e := x) (by simp [hs])]
      exact ⟨by simp; omega, fun e' pos h => by cases h⟩
    rw [Counted.steps_bind_ok (a := b) (by simp [hs]), Counted.steps_lift, Nat.zero_add, ok_bind]
    rcases hp : dst.append b with x | e1
    · rw [Counted.steps_bind_error (e := x) (by simp [hp])]
      exact ⟨by simp; omega, fun e' pos h => by cases h⟩
    rw [Counted.steps_bind_ok (a := e1) (by simp [hp]), Counted.steps_lift, ok_bind]
    have g1 : e1.len = dst.len + 1 := by
      simp only [append] at hp
      split at hp
      · rcases ho : index (if dst.len >>> 3 = dst.values.length then resize dst.values (dst.values.length * 2) 0
            else dst.values) (dst.len >>> 3) with x | o
        · rw [ho] at hp; cases hp
        rcases hk : index BIT_MASK (dst.len &&& 7) with x | k
        · rw [ho, hk] at hp; cases hp
        rw [ho, hk] at hp; cases hp; rfl
      · cases hp; rfl
    obtain ⟨i1, i2⟩ := ih b e1
    refine ⟨by omega, fun e' pos h => ?_⟩
    obtain ⟨k1, k2, k3, k4⟩ := i2 e' pos h
    omega
  | case3 e bp rem h0 hlt =>
    refine ⟨by simp, fun e' pos h => ?_⟩
    rw [appendFromLoop, if_neg h0, dif_neg hlt] at h
    cases h

theorem steps_validityAppendFromC (dst src : Option Bitmap) (vp n : Nat) :
    (validityAppendFromC dst src vp n).steps ≤ bitsOf src - vp ∧
    ∀ d pos, validityAppendFrom dst src vp n = .ok (d, pos) →
      (bitsOf src - pos) + (validityAppendFromC dst src vp n).steps ≤ bitsOf src - vp ∧
      bitsOf d = bitsOf dst + (validityAppendFromC dst src vp n).steps := by
  cases src with
  | none =>
    cases dst with
    | none => exact ⟨by simp [validityAppendFromC], fun d pos h => by cases h; simp [validityAppendFromC, bitsOf]⟩
    | some d => exact ⟨by simp [validityAppendFromC], fun d pos h => by cases h⟩
  | some src =>
    cases dst with
    | none => exact ⟨by simp [validityAppendFromC], fun d pos h => by cases h⟩
    | some dst =>
      obtain ⟨h1, h2⟩ := Bitmap.steps_appendFromLoopC dst src vp n
      simp only [validityAppendFromC, validityAppendFrom, Bitmap.appendFrom, bitsOf, Option.map_some, Option.getD_some]
      rcases hl : dst.appendFromLoop src vp n with x | ⟨d, pos⟩
      · rw [Counted.steps_bind_error (e := x) (by simp [hl])]
        exact ⟨h1, fun d pos h => by cases h⟩
      · rw [Counted.steps_bind_ok (a := (d, pos)) (by simp [hl])]
        obtain ⟨k1, k2, k3, k4⟩ := h2 d pos hl
        refine ⟨by simpa using h1, fun d' pos' h => ?_⟩
        rw [ok_bind] at h
        cases h
        simp only [Counted.steps_pure, Option.map_some, Option.getD_some]
        omega

namespace PrimitiveBuffer
variable {α : Type}

/-- The values from position `i` on and the validity bits from position `v` on. -/
def weightFrom (b : PrimitiveBuffer α) (i v : Nat) : Nat := (b.values.length - i) + (bitsOf b.validity - v)

theorem weightFrom_zero (b : PrimitiveBuffer α) : b.weightFrom 0 0 = b.weight := rfl

theorem steps_appendFromC (b buf : PrimitiveBuffer α) (i j vp : Nat) :
    (b.appendFromC buf i j vp).steps ≤ buf.weightFrom i vp ∧
    ∀ b' pos, b.appendFrom buf i j vp = .ok (b', pos) →
      buf.weightFrom j pos + (b.appendFromC buf i j vp).steps ≤ buf.weightFrom i vp ∧
      b'.weight = b.weight + (b.appendFromC buf i j vp).steps := by
  simp only [appendFromC, appendFrom, weightFrom, weight]
  rcases hs : slice buf.values i j with x | chunk
  · rw [Counted.steps_bind_error (e := x) (by simp)]
    exact ⟨by simp, fun b' pos h => by cases h⟩
  · have hlen := BinaryEnc.slice_length hs
    have hij : i ≤ j ∧ j ≤ buf.values.length := by
      rw [slice] at hs
      split at hs
      · assumption
      · cases hs
    rw [Counted.steps_bind_ok (a := chunk) (by simp), Counted.steps_bind_ok (a := ()) (by simp)]
    simp only [Counted.steps_lift, Counted.steps_ticks, ok_bind, Nat.zero_add]
    obtain ⟨h1, h2⟩ := steps_validityAppendFromC b.validity buf.validity vp (j - i)
    split
    · rcases hv : validityAppendFrom b.validity buf.validity vp (j - i) with x | ⟨d, pos⟩
      · rw [Counted.steps_bind_error (e := x) (by simp [hv])]
        exact ⟨by omega, fun b' pos h => by cases h⟩
      · rw [Counted.steps_bind_ok (a := (d, pos)) (by simp [hv])]
        obtain ⟨k1, k2⟩ := h2 d pos hv
        simp only [Counted.steps_pure]
        refine ⟨by omega, fun b' pos' h => ?_⟩
        rw [ok_bind] at h
        cases h
        simp only [List.length_append]
        omega
    · simp only [Counted.steps_lift]
      exact ⟨by omega, fun b' pos h => by cases h⟩

end PrimitiveBuffer

namespace PrimitiveEnc
variable {α : Type} [Element α] {S : Type}

theorem steps_encodeValidityC (p : Profile) (v : Option Bitmap) (bp n : Nat) (be : Rle.Encoder) :
    (encodeValidityC p v bp n be).steps ≤ 25 * (bitsOf v - bp) + 46 ∧
    ∀ r, encodeValidity p v bp n be = .ok r → ∃ bits, (bitsOf v - r.1.lastValidityPos) + bits ≤ bitsOf v - bp ∧
      (encodeValidityC p v bp n be).steps ≤ 25 * bits + 46 := by
  cases v with
  | none =>
    refine ⟨by simp [encodeValidityC], fun r h => ⟨0, ?_, by simp [encodeValidityC]⟩⟩
    simp [bitsOf]
  | some v =>
    simp only [encodeValidityC, encodeValidity, Rle.Encoder.putFrom, bitsOf, Option.map_some, Option.getD_some]
    obtain ⟨h1, h2⟩ := Rle.Encoder.steps_putFromLoopC p be.clear v bp n
    have hc1 : be.clear.buffer.length = 0 := rfl
    have hc2 : be.clear.encodedValues.length = 0 := rfl
    rw [hc1] at h1
    rcases hl : be.clear.putFromLoop p v bp n with x | ⟨e1, pos⟩
    · rw [Counted.steps_bind_error (e := x) (by simp [hl])]
      exact ⟨by omega, fun r h => by cases h⟩
    · obtain ⟨k1, k2, k3, k4, k5⟩ := h2 e1 pos hl
      rw [hc1, hc2] at k4
      rw [hc2] at k5
      rw [Counted.steps_bind_ok (a := (e1, pos)) (by simp [hl]), ok_bind]
      dsimp only
      rcases hf : e1.flush p with x | e2
      · rw [Counted.steps_bind_error (e := x) (by simp [hf])]
        simp only [Rle.Encoder.flushC]
        rw [Counted.steps_bind_error (e := x) (by simp [hf])]
        exact ⟨by simp only [Counted.steps_lift]; omega, fun r h => by cases h⟩
      · obtain ⟨g1, g2⟩ := Rle.Encoder.flush_grows hf
        rw [Counted.steps_bind_ok (a := e2) (by simp [hf]), Counted.steps_bind_ok (a := ()) (by simp)]
        have hs : (e1.flushC p).steps + e1.encodedValues.length = e2.encodedValues.length := by
          simp only [Rle.Encoder.flushC]
          rw [Counted.steps_bind_ok (a := e2) (by simp [hf]), Counted.steps_bind_ok (a := ()) (by simp)]
          simp only [Counted.steps_lift, Counted.steps_ticks, Counted.steps_pure, Nat.zero_add, Nat.add_zero]
          exact Nat.sub_add_cancel g1
        simp only [Counted.steps_ticks, Counted.steps_pure]
        refine ⟨by omega, fun r h => ⟨pos - bp, ?_, by omega⟩⟩
        rw [ok_bind] at h
        cases h
        dsimp only
        omega

theorem steps_encodePrimitiveBufferC (p : Profile) (buf : PrimitiveBuffer α) (i j bp : Nat) (hne : i ≠ j)
    (be : Rle.Encoder) :
    (encodePrimitiveBufferC p buf i j bp be).steps ≤ 64 * buf.weightFrom i bp ∧
    ∀ r, encodePrimitiveBuffer p buf i j bp be = .ok r →
      (encodePrimitiveBufferC p buf i j bp be).steps + 1 + 64 * buf.weightFrom j r.1.lastValidityPos ≤
        64 * buf.weightFrom i bp := by
  simp only [encodePrimitiveBufferC, encodePrimitiveBuffer, PrimitiveBuffer.weightFrom]
  rcases hb : p.sub 64 j i with x | blockLen
  · rw [Counted.steps_bind_error (e := x) (by simp)]
    exact ⟨by simp, fun r h => by cases h⟩
  rw [Counted.steps_bind_ok (a := blockLen) (by simp), ok_bind]
  rcases hd : Varint.putVarint [] (Element.size α * blockLen) with x | data
  · rw [Counted.steps_bind_error (e := x) (by simp)]
    exact ⟨by simp, fun r h => by cases h⟩
  rw [Counted.steps_bind_ok (a := data) (by simp), ok_bind]
  rcases hs : slice buf.values i j with x | chunk
  · rw [Counted.steps_bind_error (e := x) (by simp)]
    exact ⟨by simp, fun r h => by cases h⟩
  have hlen := BinaryEnc.slice_length hs
  have hij : i ≤ j ∧ j ≤ buf.values.length := by
    rw [slice] at hs
    split at hs
    · assumption
    · cases hs
  rw [Counted.steps_bind_ok (a := chunk) (by simp), Counted.steps_bind_ok (a := ()) (by simp), ok_bind]
  simp only [Counted.steps_lift, Counted.steps_ticks, Nat.zero_add]
  obtain ⟨h1, h2⟩ := steps_encodeValidityC p buf.validity bp blockLen be
  rcases hv : encodeValidity p buf.validity bp blockLen be with x | ⟨r, v, be'⟩
  · rw [Counted.steps_bind_error (e := x) (by simp [hv])]
    exact ⟨by omega, fun r h => by cases h⟩
  · rw [Counted.steps_bind_ok (a := (r, v, be')) (by simp [hv])]
    obtain ⟨bits, k1, k2⟩ := h2 _ hv
    dsimp only at k1
    simp only [Counted.steps_pure]
    refine ⟨by omega, fun r' h => ?_⟩
    rw [ok_bind] at h
    cases h
    dsimp only
    omega

end PrimitiveEnc

namespace Timed
variable {E S α β : Type}

/-- Started in the encoder `e`, the call makes at most `B` steps; if it returns normally, `Q` holds of the result,
the encoder then and the steps. -/
def Bound (m : Timed (E × S) α) (e : E) (B : Nat) (Q : α → E → Nat → Prop) : Prop :=
  ∀ s, (m (e, s)).2 ≤ B ∧ ∀ a e' s', (m (e, s)).1 = (.ok a, (e', s')) → Q a e' (m (e, s)).2

theorem Bound.mono {m : Timed (E × S) α} {e : E} {B B' : Nat} {Q Q' : α → E → Nat → Prop} (h : Bound m e B Q)
    (hB : B ≤ B') (hQ : ∀ a e' n, n ≤ B → Q a e' n → Q' a e' n) : Bound m e B' Q' := fun s =>
  ⟨Nat.le_trans (h s).1 hB, fun a e' s' he => hQ _ _ _ (h s).1 ((h s).2 a e' s' he)⟩

theorem Bound.bind {m : Timed (E × S) α} {f : α → Timed (E × S) β} {e : E} {B B1 : Nat} {Q1 : α → E → Nat → Prop}
    {Q : β → E → Nat → Prop} (h : Bound m e B1 Q1) (hB : B1 ≤ B)
    (hf : ∀ a e' n, Q1 a e' n → ∃ B2, n + B2 ≤ B ∧ Bound (f a) e' B2 fun b e'' k => Q b e'' (n + k)) :
    Bound (m >>= f) e B Q := by
  intro s
  show (Timed.bind m f (e, s)).2 ≤ B ∧ ∀ b e' s', (Timed.bind m f (e, s)).1 = (.ok b, (e', s')) → Q b e' (Timed.bind m f (e, s)).2
  unfold Timed.bind
  obtain ⟨h1, h2⟩ := h s
  rcases hm : m (e, s) with ⟨⟨r, e1, s1⟩, n⟩
  rw [hm] at h1 h2
  cases r with
  | error x => exact ⟨Nat.le_trans h1 hB, fun b e' s' he => by cases he⟩
  | ok a =>
    obtain ⟨B2, hB2, hb⟩ := hf a e1 n (h2 a e1 s1 rfl)
    obtain ⟨k1, k2⟩ := hb s1
    exact ⟨Nat.le_trans (Nat.add_le_add_left k1 n) hB2, fun b e' s' he => k2 b e' s' he⟩

theorem Bound.pure {a : α} {e : E} {B : Nat} {Q : α → E → Nat → Prop} (h : Q a e 0) :
    Bound (Pure.pure a : Timed (E × S) α) e B Q := fun s =>
  ⟨Nat.zero_le _, fun b e' s' he => by cases he; exact h⟩

theorem Bound.set {e e' : E} {B : Nat} {Q : Unit → E → Nat → Prop} (h : Q () e' 0) :
    Bound (of (Run.set e') : Timed (E × S) Unit) e B Q := fun s =>
  ⟨Nat.zero_le _, fun b e'' s' he => by cases he; exact h⟩

theorem Bound.free {m : Run (E × S) α} {e : E} {B : Nat} {Q : β → E → Nat → Prop} {f : α → Timed (E × S) β}
    (h : ∀ s a e' s', m (e, s) = (.ok a, (e', s')) → Bound (f a) e' B Q) : Bound (of m >>= f) e B Q := by
  refine Bound.bind (B1 := 0) (Q1 := fun a e' n => n = 0 ∧ ∃ s s', m (e, s) = (.ok a, (e', s'))) (fun s => ?_)
    (Nat.zero_le _) ?_
  · exact ⟨Nat.le_refl _, fun a e' s' he => ⟨rfl, s, s', he⟩⟩
  · rintro a e' n ⟨rfl, s, s', hs⟩
    exact ⟨B, by omega, by simpa only [Nat.zero_add] using h s a e' s' hs⟩

theorem Bound.get_bind {e : E} {B : Nat} {Q : β → E → Nat → Prop} {f : E → Timed (E × S) β}
    (h : Bound (f e) e B Q) : Bound (of Run.get >>= f) e B Q :=
  .free fun s a e' s' hs => by cases hs; exact h

theorem Bound.set_bind {e e' : E} {B : Nat} {Q : β → E → Nat → Prop} {f : Unit → Timed (E × S) β}
    (h : Bound (f ()) e' B Q) : Bound (of (Run.set e') >>= f) e B Q :=
  .free fun s a e' s' hs => by cases hs; exact h

theorem Bound.lift_bind {r : Res α} {e : E} {B : Nat} {Q : β → E → Nat → Prop} {f : α → Timed (E × S) β}
    (h : ∀ a, r = .ok a → Bound (f a) e B Q) : Bound (of (Run.lift r) >>= f) e B Q :=
  .free fun s a e' s' hs => by
    cases r with
    | error x => cases (Prod.mk.inj hs).1
    | ok y =>
      obtain ⟨h1, h2⟩ := Prod.mk.inj hs
      cases h1; cases h2
      exact h _ rfl

theorem Bound.emit_bind {k : Sink S} {id : Nat} {data : Bytes} {e : E} {B : Nat} {Q : β → E → Nat → Prop}
    {f : Unit → Timed (E × S) β} (h : Bound (f ()) e B Q) : Bound (of (Run.emit k id data) >>= f) e B Q :=
  .free fun s a e' s' hs => by
    obtain ⟨_, h2⟩ := Prod.mk.inj hs
    cases h2
    exact h

theorem Bound.tick_bind {e : E} {B : Nat} {Q : β → E → Nat → Prop} {f : Unit → Timed (E × S) β}
    (h : Bound (f ()) e B fun b e' k => Q b e' (1 + k)) : Bound (tick >>= f) e (B + 1) Q := by
  refine Bound.bind (B1 := 1) (Q1 := fun _ e' n => e' = e ∧ n = 1) (fun s => ?_) (by omega) ?_
  · exact ⟨Nat.le_refl _, fun a e' s' he => by cases he; exact ⟨rfl, rfl⟩⟩
  · rintro a e' n ⟨rfl, rfl⟩
    exact ⟨B, by omega, h⟩

theorem Bound.counted_bind {c : Counted α} {left : E × S → E × S} {e : E} {B : Nat} {Q : β → E → Nat → Prop}
    {f : α → Timed (E × S) β} (hB : c.steps ≤ B)
    (h : ∀ a, c.result = .ok a → ∃ B2, c.steps + B2 ≤ B ∧ Bound (f a) e B2 fun b e' k => Q b e' (c.steps + k)) :
    Bound (lift c left >>= f) e B Q := by
  refine Bound.bind (B1 := c.steps) (Q1 := fun a e' n => c.result = .ok a ∧ e' = e ∧ n = c.steps) (fun s => ?_) hB ?_
  · refine ⟨Nat.le_refl _, fun a e' s' he => ?_⟩
    simp only [lift] at he
    cases hr : c.result with
    | error x => rw [hr] at he; cases (Prod.mk.inj he).1
    | ok y =>
      rw [hr] at he
      obtain ⟨h1, h2⟩ := Prod.mk.inj he
      cases h1; cases h2
      exact ⟨rfl, rfl, rfl⟩
  · rintro a e' n ⟨h1, rfl, rfl⟩
    exact h a h1

end Timed

namespace PrimitiveEnc
open Timed
variable {α : Type} [Element α] {S : Type} {k : Sink S}

theorem writeRange_bound (p : Profile) (buf : PrimitiveBuffer α) (i j bp : Nat) (hne : i ≠ j) (e : Encoder α) :
    Bound (writeRangeC p k buf i j bp) e (64 * buf.weightFrom i bp) fun r e' n =>
      n + 1 + 64 * buf.weightFrom j r.lastValidityPos ≤ 64 * buf.weightFrom i bp ∧
      e'.remaining = e.remaining ∧ e'.minBlockSize = e.minBlockSize := by
  obtain ⟨h1, h2⟩ := steps_encodePrimitiveBufferC p buf i j bp hne e.bitmapEncoder
  refine .get_bind (.counted_bind h1 fun r hr => ⟨0, by omega, ?_⟩)
  rw [result_encodePrimitiveBufferC] at hr
  refine .set_bind (.lift_bind fun rows _ => .set_bind (.lift_bind fun id _ => .emit_bind (.pure ?_)))
  exact ⟨h2 r hr, rfl, rfl⟩

theorem writeRemaining_bound (p : Profile) (e : Encoder α) (hl : e.remaining.len > 0) :
    Bound (writeRemainingC p k) e (64 * e.remaining.weight) fun _ e' n =>
      n + 1 ≤ 64 * e.remaining.weight ∧ e'.minBlockSize = e.minBlockSize := by
  refine .get_bind ((writeRange_bound p e.remaining 0 e.remaining.len 0 (by omega) e).mono (Nat.le_refl _) ?_)
  rintro a e' n - ⟨h1, h2, h3⟩
  rw [PrimitiveBuffer.weightFrom_zero] at h1
  exact ⟨by omega, h3⟩

theorem encodeLoop_bound (p : Profile) (buf : PrimitiveBuffer α) (fuel : Nat) : ∀ (bp vp : Nat) (e : Encoder α),
    SizeOk e → Bound (encodeLoopC p k buf fuel bp vp) e (66 * buf.weightFrom bp vp + 1) fun _ e' n =>
      n + 64 * e'.remaining.weight ≤ 64 * e.remaining.weight + 66 * buf.weightFrom bp vp + 1 ∧ SizeOk e' := by
  induction fuel with
  | zero => exact fun bp vp e hP s => ⟨Nat.zero_le _, fun a e' s' h => by cases h⟩
  | succ fuel ih =>
    intro bp vp e hP
    rw [encodeLoopC]
    split
    · rename_i hlt
      refine .tick_bind (.get_bind (.lift_bind fun stop hc => .lift_bind fun n hn => ?_))
      dsimp only
      split
      · obtain ⟨h1, h2⟩ := PrimitiveBuffer.steps_appendFromC e.remaining buf bp stop vp
        refine .counted_bind (by omega) fun r hr => ⟨0, by omega, .set ?_⟩
        rw [PrimitiveBuffer.result_appendFromC] at hr
        obtain ⟨k1, k2⟩ := h2 r.1 r.2 hr
        dsimp only
        refine ⟨?_, hP⟩
        rw [k2]
        omega
      · have hne := chunk_ne hlt hP.1 hP.2 hc
        refine .bind (writeRange_bound p buf bp stop vp hne e) (by omega) ?_
        rintro r e' n ⟨h1, h2, h3⟩
        have hP' : SizeOk e' := by
          unfold SizeOk; rw [h3]; exact hP
        refine ⟨66 * buf.weightFrom stop r.lastValidityPos + 1, by omega, (ih _ _ e' hP').mono (Nat.le_refl _) ?_⟩
        rintro a e'' n' - ⟨g1, g2⟩
        rw [h2] at g1
        exact ⟨by omega, g2⟩
    · exact .pure ⟨by omega, hP⟩

theorem clear_weight (b : PrimitiveBuffer α) : b.clear.weight = 0 := by
  rcases b with ⟨values, _ | v⟩ <;> rfl

theorem encode_bound (p : Profile) (buf : PrimitiveBuffer α) (e : Encoder α) (hP : SizeOk e) :
    Bound (encodeC p k buf) e (64 * e.remaining.weight + 66 * buf.weight + 1) fun _ e' n =>
      n + 64 * e'.remaining.weight ≤ 64 * e.remaining.weight + 66 * buf.weight + 1 ∧ SizeOk e' := by
  rw [← PrimitiveBuffer.weightFrom_zero buf]
  refine .get_bind ?_
  split
  · rename_i hl
    refine .lift_bind fun room _ => .lift_bind fun stop _ => ?_
    obtain ⟨h1, h2⟩ := PrimitiveBuffer.steps_appendFromC e.remaining buf 0 stop 0
    generalize hsteps : (e.remaining.appendFromC buf 0 stop 0).steps = n0 at h1 h2
    refine .counted_bind (by omega) fun r hr => ?_
    rw [PrimitiveBuffer.result_appendFromC] at hr
    obtain ⟨k1, k2⟩ := h2 r.1 r.2 hr
    have hlen := appendFrom_len hr
    rw [hsteps]
    refine ⟨64 * e.remaining.weight + 65 * n0 + 66 * buf.weightFrom stop r.2 + 1 - n0, by omega, .set_bind ?_⟩
    dsimp only
    split
    · refine .pure ⟨?_, hP⟩
      dsimp only
      rw [k2]
      omega
    · refine .bind (writeRemaining_bound p _ (by dsimp only; omega)) (by dsimp only; rw [k2]; omega) ?_
      rintro r' e' n ⟨g1, g2⟩
      dsimp only at g1 g2
      rw [k2] at g1
      have hP' : SizeOk { e' with remaining := e'.remaining.clear } := by
        unfold SizeOk; dsimp only; rw [g2]; exact hP
      refine ⟨66 * buf.weightFrom stop r.2 + 1, by omega, .get_bind (.set_bind ((encodeLoop_bound p buf _ _ _ _ hP').mono (Nat.le_refl _) ?_))⟩
      rintro a e'' n' - ⟨m1, m2⟩
      dsimp only at m1
      rw [clear_weight] at m1
      exact ⟨by omega, m2⟩
  · refine (encodeLoop_bound p buf _ _ _ e hP).mono (by omega) fun a e' n _ h => h

theorem flush_bound (p : Profile) (e : Encoder α) :
    Bound (flushC p k) e (64 * e.remaining.weight) fun _ _ _ => True := by
  refine .get_bind ?_
  split
  · rename_i hl
    refine .bind (writeRemaining_bound p e hl) (Nat.le_refl _) ?_
    rintro r e' n ⟨h1, _⟩
    exact ⟨0, by omega, .pure trivial⟩
  · exact .pure trivial

theorem encodeAll_bound (p : Profile) (bufs : List (PrimitiveBuffer α)) : ∀ (e : Encoder α), SizeOk e →
    Bound (encodeAllC p k bufs) e (64 * e.remaining.weight + 66 * (bufs.map PrimitiveBuffer.weight).sum + bufs.length)
      fun _ e' n => n + 64 * e'.remaining.weight ≤
        64 * e.remaining.weight + 66 * (bufs.map PrimitiveBuffer.weight).sum + bufs.length ∧ SizeOk e' := by
  induction bufs with
  | nil => exact fun e hP => .pure ⟨by simp, hP⟩
  | cons b bs ih =>
    intro e hP
    simp only [List.map_cons, List.sum_cons, List.length_cons]
    refine .bind (encode_bound p b e hP) (by omega) ?_
    rintro u e' n ⟨h1, h2⟩
    refine ⟨64 * e'.remaining.weight + 66 * (bs.map PrimitiveBuffer.weight).sum + bs.length, by omega,
      (ih e' h2).mono (Nat.le_refl _) ?_⟩
    rintro a e'' n' - ⟨g1, g2⟩
    exact ⟨by omega, g2⟩

theorem encodeColumn_bound (p : Profile) (bufs : List (PrimitiveBuffer α)) (e : Encoder α) (hP : SizeOk e) :
    Bound (encodeColumnC p k bufs) e (64 * e.remaining.weight + 66 * (bufs.map PrimitiveBuffer.weight).sum + bufs.length)
      fun _ _ _ => True := by
  refine .bind (encodeAll_bound p bufs e hP) (Nat.le_refl _) ?_
  rintro u e' n ⟨h1, _⟩
  exact ⟨64 * e'.remaining.weight, h1, flush_bound p e'⟩

end PrimitiveEnc

end Meerkat
