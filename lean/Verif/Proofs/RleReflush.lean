import Verif.Proofs.RleCanonical
import Verif.Props.RleCanonical

set_option autoImplicit false

/-! # The RLE encoder only ever adds to its output -/

namespace Meerkat.Rle
open Spec Varint

namespace Encoder

/-- The encoder with another output. -/
def setEnc (e : Encoder) (z : Bytes) : Encoder := { e with encodedValues := z }

/-- `f` adds to the output and does not look at it. -/
def Adds (f : Encoder → Res Encoder) : Prop :=
  ∀ (e : Encoder) (z : Bytes), f (e.setEnc z) = (f (e.setEnc [])).map fun e' => e'.setEnc (z ++ e'.encodedValues)

theorem Adds.at {f : Encoder → Res Encoder} (h : Adds f) {e e' : Encoder} {w : Bytes}
    (he : f (e.setEnc w) = .ok e') (z : Bytes) :
    ∃ d, e'.encodedValues = w ++ d ∧ f (e.setEnc z) = .ok (e'.setEnc (z ++ d)) := by
  rw [h] at he
  rw [h]
  rcases hf : f (e.setEnc []) with x | e0
  · rw [hf] at he; cases he
  · rw [hf] at he
    obtain rfl := Except.ok.inj he
    exact ⟨e0.encodedValues, rfl, rfl⟩

theorem Adds.comp {f g : Encoder → Res Encoder} (hf : Adds f) (hg : Adds g) : Adds (fun e => f e >>= g) := by
  intro e z
  simp only
  rcases h : f (e.setEnc []) with x | e0
  · rw [hf e z, h]; rfl
  · have h0 : e0 = e0.setEnc e0.encodedValues := rfl
    rw [hf e z, h]
    simp only [ok_bind, Except.map]
    rw [hg e0 (z ++ e0.encodedValues)]
    conv => rhs; rw [h0, hg e0 e0.encodedValues]
    rcases hh : g (e0.setEnc []) with x | e1
    · rfl
    · simp [Except.map, setEnc]

theorem Adds.pure' : Adds (fun e => .ok e) := fun e z => by simp [Except.map, setEnc]

theorem adds_emitLit (n : Nat) : Adds (fun e => e.emitBitmapLiteral n) := by
  intro e z
  simp only [emitBitmapLiteral, setEnc]
  by_cases hb : e.buffer.isEmpty
  · simp [hb, Except.map]
  · simp only [hb, Bool.false_eq_true, if_false]
    rcases encodeVarint (shl 64 n 1 ||| 1) (List.replicate MAX_VARINT_LEN 0) with x | ⟨h, l⟩
    · rfl
    simp only [ok_bind]
    rcases slice h 0 l with x | h
    · rfl
    simp only [ok_bind]
    rcases slice e.buffer 0 n with x | lit
    · rfl
    simp [Except.map]

theorem adds_emitRun (n : Nat) (b : Byte) : Adds (fun e => e.emitRun n b) := by
  intro e z
  simp only [emitRun, setEnc]
  rcases encodeVarint (shl 64 n 1) (List.replicate MAX_VARINT_LEN 0) with x | ⟨h, l⟩
  · rfl
  simp only [ok_bind]
  rcases slice h 0 l with x | h
  · rfl
  simp [Except.map]

theorem adds_append (p : Profile) (cur : Byte) : Adds (fun e => e.append p cur) := by
  intro e z
  simp only [append, appendMatch, setEnc]
  rcases hs : e.state with _ | _ | _ | _
  · simp [Except.map]
  · by_cases hc : e.lastValue = cur
    · simp only [hc, if_true]
      rcases p.sub 64 e.buffer.length 1 with x | n
      · rfl
      · simp [Except.map]
    · simp [hc, Except.map]
  · by_cases hc : e.lastValue = cur
    · by_cases hm : e.repeatCount + 1 = MIN_RUN_LEN
      · by_cases hr : e.runStartPos > 0
        · have := adds_emitLit e.runStartPos { e with buffer := e.buffer ++ [cur], repeatCount := e.repeatCount + 1 } z
          simp only [setEnc, hs] at this
          simp only [hc, ne_eq, not_true_eq_false, if_false, hm, if_true, hr]
          rw [hc, hm] at this
          rw [this]
          generalize emitBitmapLiteral _ e.runStartPos = x
          rcases x with x | x
          · rfl
          · rfl
        · simp [hc, hm, hr, Except.map]
      · simp [hc, hm, Except.map]
    · simp [hc, transitionToLiteral, Except.map]
  · by_cases hc : e.lastValue = cur
    · simp [hc, Except.map]
    · have := adds_emitRun e.repeatCount e.lastValue e z
      simp only [setEnc, hs] at this
      simp only [hc, ne_eq, not_false_eq_true, if_true]
      rw [this]
      generalize emitRun _ e.repeatCount e.lastValue = x
      rcases x with x | x
      · rfl
      · rfl

theorem adds_put (p : Profile) (b : Bool) : Adds (fun e => e.put p b) := by
  intro e z
  simp only [put]
  have hb : ∀ z, (e.setEnc z).setBit b = e.setBit b := fun z => rfl
  rw [hb, hb]
  rcases e.setBit b with x | byte
  · rfl
  simp only [ok_bind]
  by_cases h8 : e.bitPos + 1 = 8
  · have := adds_append p byte { e with byte := byte, bitPos := 0 } z
    simp only [setEnc] at this ⊢
    simp only [h8, if_true]
    rw [this]
    generalize append _ _ byte = x
    rcases x with x | x
    · rfl
    · rfl
  · simp [setEnc, h8, Except.map]

theorem adds_putAll (p : Profile) (bits : List Bool) : Adds (fun e => e.putAll p bits) := by
  induction bits with
  | nil => exact Adds.pure'
  | cons b bits ih => 
    have := (adds_put p b).comp ih
    exact this

theorem adds_finish : Adds finish := by
  rintro ⟨enc, byte, bitPos, buffer, repeatCount, lastValue, runStartPos, state⟩ z
  cases state
  · simp [finish, setEnc, Except.map]
  · exact adds_emitLit buffer.length ⟨enc, byte, bitPos, buffer, repeatCount, lastValue, runStartPos, .literal⟩ z
  · exact adds_emitLit buffer.length ⟨enc, byte, bitPos, buffer, repeatCount, lastValue, runStartPos, .startOfRun⟩ z
  · exact adds_emitRun repeatCount lastValue ⟨enc, byte, bitPos, buffer, repeatCount, lastValue, runStartPos, .run⟩ z

theorem adds_flush (p : Profile) : Adds (fun e => e.flush p) := by
  intro e z
  simp only [flush_eq]
  by_cases hb : e.bitPos > 0
  · have := ((adds_append p e.byte).comp adds_finish) e z
    rw [if_pos (show (e.setEnc z).bitPos > 0 from hb), if_pos (show (e.setEnc []).bitPos > 0 from hb)]
    exact this
  · rw [if_neg (show ¬ (e.setEnc z).bitPos > 0 from hb), if_neg (show ¬ (e.setEnc []).bitPos > 0 from hb)]
    exact adds_finish e z

/-- `finish` changes nothing but the output. -/
theorem finish_set {e : Encoder} {bs : Bytes} {fs ws : List Frame} (h : e.Neat bs fs ws) (hlen : bs.length < 2 ^ 62) :
    e.finish = .ok (e.setEnc (bytesAll (fs ++ ws))) := by
  obtain ⟨e', h1, h2⟩ := finish_neat e bs fs ws h hlen
  rw [h1, ← h2]
  obtain ⟨henc, hall, hp, hdiv⟩ := h
  have hall2 : bs = expandAll fs ++ expandAll ws := by rw [hall, expandAll_append]
  have hple : (expandAll ws).length ≤ bs.length := by rw [hall2]; simp
  have hlit : ws = [.bitmap e.buffer] → e.buffer ≠ [] → e.emitBitmapLiteral e.buffer.length = .ok e' →
      e' = e.setEnc e'.encodedValues := by
    rintro rfl hne h
    rw [emitLit_ok e e.buffer [] (by simp) hne (by simp [Frame.expand] at hple; omega)] at h
    obtain rfl := Except.ok.inj h
    rfl
  congr 1
  cases hst : e.state with
  | init =>
    simp only [finish, hst] at h1
    obtain rfl := Except.ok.inj h1
    rfl
  | literal =>
    simp only [Waits, hst] at hp
    obtain ⟨hw, pre, hb, _⟩ := hp
    simp only [finish, hst] at h1
    exact hlit hw (by simp [hb]) h1
  | startOfRun =>
    simp only [Waits, hst] at hp
    obtain ⟨hw, pre, hb, _⟩ := hp
    simp only [finish, hst] at h1
    exact hlit hw (by simp [hb]) h1
  | run =>
    simp only [Waits, hst] at hp
    obtain ⟨rfl, hb⟩ := hp
    have hrc : e.repeatCount < 2 ^ 63 := by simp [Frame.expand] at hple; omega
    simp only [finish, hst] at h1
    rw [emitRun_ok e _ _ hrc] at h1
    obtain rfl := Except.ok.inj h1
    rfl

theorem piece_inj {f g : Frame} (h : f.piece = g.piece) : f = g := by
  cases f <;> cases g <;> simp_all [Frame.piece]

/-- Frames that are written alike at the beginning are the same there. -/
theorem prefix_frames : ∀ (fs gs : List Frame) (d : Bytes), bytesAll gs = bytesAll fs ++ d →
    ∃ ys, gs = fs ++ ys ∧ d = bytesAll ys
  | [], gs, d, h => ⟨gs, rfl, by simpa using h.symm⟩
  | f :: fs, [], d, h => by
    have h1 := RleCanonical.written_ne (frame_written f)
    have h2 : ([] : Bytes) = f.bytes ++ bytesAll fs ++ d := by simpa [bytesAll] using h
    exact absurd (List.append_eq_nil_iff.1 (List.append_eq_nil_iff.1 h2.symm).1).1 h1
  | f :: fs, g :: gs, d, h => by
    have h2 : g.bytes ++ bytesAll gs = f.bytes ++ (bytesAll fs ++ d) := by
      simpa [bytesAll] using h
    obtain ⟨h3, h4⟩ := RleCanonical.piece_eq (frame_written g) (frame_written f) h2
    obtain ⟨ys, h5, h6⟩ := prefix_frames fs gs d h4
    exact ⟨ys, by rw [h5, piece_inj h3]; rfl, h6⟩

/-- The state of an encoder that has been flushed any number of times: but for its output it is the state of one that has
not been flushed. -/
structure Known (e : Encoder) (bs : Bytes) (r : List Bool) (fs ws : List Frame) : Prop where
  neat : (e.setEnc (bytesAll fs)).Neat bs fs ws
  part : e.Partial r

theorem Partial.congr {e e' : Encoder} {r : List Bool} (h : e.Partial r) (h1 : e'.byte = e.byte) (h2 : e'.bitPos = e.bitPos) :
    e'.Partial r := ⟨by rw [h2]; exact h.pos, h.lt, by rw [h1]; exact h.bits⟩

/-- Bits and a flush. -/
theorem Known.step (p : Profile) {e : Encoder} {bs : Bytes} {r : List Bool} {fs ws : List Frame} (h : e.Known bs r fs ws)
    (bits : List Bool) (hlen : 8 * bs.length + r.length + bits.length + 8 < 2 ^ 64) :
    ∃ e1 e' bs0 bs' r' fs' ws' ys pad, e.putAll p bits = .ok e1 ∧ e1.flush p = .ok e' ∧ e'.Known bs' r' fs' ws' ∧
      fs' ++ ws' = fs ++ ys ∧ e'.encodedValues = e.encodedValues ++ bytesAll ys ∧
      bytesBits bs0 ++ r' = bytesBits bs ++ r ++ bits ∧ bytesBits bs' = bytesBits bs0 ++ r' ++ List.replicate pad false ∧
      pad < 8 := by
  obtain ⟨e1, bs0, fs1, ws1, r', a1, a2, a3, a4⟩ := putAll_neat p bits (e.setEnc (bytesAll fs)) bs fs ws r h.neat
    (h.part.congr rfl rfl) (by omega)
  have hl := congrArg List.length a4
  simp only [List.length_append, bytesBits_length] at hl
  have hfl : ∃ (e2 : Encoder) (bs' : Bytes) (fs' ws' : List Frame) (pad : Nat), e1.flush p = .ok (e2.setEnc (bytesAll (fs' ++ ws'))) ∧
      e2.Neat bs' fs' ws' ∧ e2.Partial r' ∧ bytesBits bs' = bytesBits bs0 ++ r' ++ List.replicate pad false ∧ pad < 8 := by
    rw [flush_eq]
    by_cases h0 : e1.bitPos > 0
    · rw [if_pos h0]
      obtain ⟨e2, fs2, ws2, h1, h2, h3, h4⟩ := append_neat p e1 bs0 fs1 ws1 e1.byte a2 (by omega)
      refine ⟨e2, bs0 ++ [e1.byte], fs2, ws2, 8 - r'.length, by rw [h1]; exact finish_set h2 (by simp; omega), h2,
        a3.congr h3 h4, ?_, by rw [a3.pos] at h0; omega⟩
      simp [byteBits_of_testBit (Nat.le_of_lt a3.lt) a3.bits]
    · rw [if_neg h0]
      refine ⟨e1, bs0, fs1, ws1, 0, finish_set a2 (by omega), a2, a3, ?_, by omega⟩
      have : r' = [] := by rw [← List.length_eq_zero_iff, ← a3.pos]; omega
      rw [this]; simp
  obtain ⟨e2, bs', fs', ws', pad, b1, b2, b3, b4, b5⟩ := hfl
  have hrun : ((e.setEnc (bytesAll fs)).putAll p bits >>= fun e => e.flush p) =
      .ok (e2.setEnc (bytesAll (fs' ++ ws'))) := by rw [a1]; exact b1
  obtain ⟨d, c1, c2⟩ := ((adds_putAll p bits).comp (adds_flush p)).at hrun e.encodedValues
  obtain ⟨ys, d1, rfl⟩ := prefix_frames fs (fs' ++ ws') d c1
  rw [show e.setEnc e.encodedValues = e from rfl] at c2
  rcases hp : e.putAll p bits with x | e3
  · rw [hp] at c2; cases c2
  rw [hp] at c2
  refine ⟨e3, _, bs0, bs', r', fs', ws', ys, pad, rfl, c2, ⟨?_, b3.congr rfl rfl⟩, d1, rfl, a4, b4, b5⟩
  exact b2.congr b2.enc.symm rfl rfl rfl rfl rfl

theorem new_known : new.Known [] [] [] [] := ⟨new_neat, new_partial⟩

end Encoder
end Meerkat.Rle
