import Verif.Proofs.RleSteps

set_option autoImplicit false

/-! # C105: decoding a bitmap takes time in proportion to its input and output -/

namespace Meerkat

/-- C105. Whatever the input, the decoder makes at most eight steps (iterations of its loops) for each byte of
the input and each entry of the output slice, and eight more, until it returns or panics. Counting the steps
does not change what it does. -/
theorem C105_decode_steps (p : Profile) (encoded : Bytes) (decoded : List Nat) :
    (Rle.decodeC p encoded decoded).result = Rle.decode p encoded decoded ∧
    (Rle.decodeC p encoded decoded).steps ≤ 8 * (encoded.length + decoded.length + 1) := by
  constructor
  · simp only [Rle.decodeC, Rle.decode, Rle.Decoder.decode, Counted.result_bind, Counted.result_lift,
      Rle.Decoder.result_loop]
    rw [show (Rle.Decoder.new encoded decoded).encodedData = encoded from rfl]
    cases Rle.Decoder.decodeLoop p encoded.length (Rle.Decoder.new encoded decoded) <;> rfl
  · have h := Rle.Decoder.steps_loop p encoded.length (Rle.Decoder.new encoded decoded) (Nat.zero_le _) (Nat.zero_le _)
    simp only [Rle.Decoder.new, Nat.sub_zero] at h
    simp only [Rle.decodeC]
    cases hr : (Rle.Decoder.decodeLoopC p encoded.length (Rle.Decoder.new encoded decoded)).result with
    | error e => rw [Counted.steps_bind_error hr]; exact h
    | ok d => rw [Counted.steps_bind_ok hr, Counted.steps_lift]; exact h

namespace Counted

theorem steps_foldlM_ok {α σ : Type} (g : σ → α → Counted σ) (c : Nat)
    (h : ∀ s x a, (g s x).result = .ok a → (g s x).steps = c) (l : List α) :
    ∀ s a, (l.foldlM g s).result = .ok a → (l.foldlM g s).steps = c * l.length := by
  induction l with
  | nil => intro s a _; simp
  | cons x l ih =>
    intro s a ha
    simp only [List.foldlM_cons, result_bind] at ha ⊢
    cases hr : (g s x).result with
    | error e => rw [hr] at ha; cases ha
    | ok b =>
      rw [hr] at ha
      rw [steps_bind_ok hr, h s x b hr, ih b a ha, List.length_cons, Nat.mul_add]
      omega

end Counted

namespace Rle.Decoder
open Counted Spec

theorem byte_steps {p : Profile} {d d' : Decoder} {b : Byte} (h : (decodeByteC p d b).result = .ok d') :
    (decodeByteC p d b).steps = 8 := by
  refine (steps_foldlM_ok _ 1 ?_ _ d d' h).trans (by decide)
  intro s x a _
  rfl

theorem bytes_steps {p : Profile} {v : Byte} (n : Nat) : ∀ {d d' : Decoder}, (bytesLoopC p v n d).result = .ok d' →
    (bytesLoopC p v n d).steps = 8 * n := by
  induction n with
  | zero => intro d d' _; rfl
  | succ n ih =>
    intro d d' h
    simp only [bytesLoopC, result_bind] at h ⊢
    cases hr : (decodeByteC p d v).result with
    | error e => rw [hr] at h; cases h
    | ok d1 =>
      rw [hr] at h
      rw [steps_bind_ok hr, byte_steps hr, ih h]
      omega

theorem frame_stored {p : Profile} {d d' : Decoder} {f : Frame} (hd : d.decodedDataPos ≤ d.decodedData.length)
    (h : (decodeFrameC p d f).result = .ok d') : d'.decodedDataPos ≤ d.decodedDataPos + (decodeFrameC p d f).steps := by
  have hr := h
  rw [result_frame] at hr
  cases f with
  | bitmap bs =>
    simp only [decodeFrame, decodeBitmap_eq] at hr
    rw [(bitSteps_after _ hr).dpos]
    have h1 : (decodeBitmapC p d bs).steps = 8 * bs.length :=
      steps_foldlM_ok _ 8 (fun s x a ha => byte_steps ha) bs d d' h
    have h2 : (bytesBits bs).count true ≤ (bytesBits bs).length := List.count_le_length
    rw [bytesBits_length] at h2
    simp only [decodeFrameC]
    omega
  | run n v =>
    simp only [decodeFrameC, decodeRunC, decodeFrame, decodeRun] at h hr ⊢
    split at h
    · rename_i h0
      rw [if_pos h0] at hr
      cases ha : p.add 32 d.bitmapPos (shl 32 n 3) with
      | error e => rw [ha] at hr; cases hr
      | ok k => rw [ha] at hr; cases hr; exact Nat.le_add_right _ _
    · rename_i h0
      rw [if_neg h0] at hr ⊢
      split at h
      · rename_i h1
        rw [if_pos h1] at hr ⊢
        have := (steps_ones p (shl 32 n 3) d hd).2 d' h
        omega
      · rename_i h1
        rw [if_neg h1] at hr ⊢
        rw [bytes_steps n h]
        rw [bytesLoop_eq] at hr
        rw [(bitSteps_after _ hr).dpos]
        have h2 : (bytesBits (List.replicate n v)).count true ≤ (bytesBits (List.replicate n v)).length :=
          List.count_le_length
        rw [bytesBits_length, List.length_replicate] at h2
        omega

theorem loop_stored (p : Profile) (fuel : Nat) : ∀ (d d' : Decoder), d.decodedDataPos ≤ d.decodedData.length →
    (decodeLoopC p fuel d).result = .ok d' → d'.decodedDataPos ≤ d.decodedDataPos + (decodeLoopC p fuel d).steps := by
  induction fuel with
  | zero =>
    intro d d' _ h
    simp only [decodeLoopC, result_lift] at h
    split at h
    · cases h
    · cases h; omega
  | succ fuel ih =>
    intro d d' hd h
    simp only [decodeLoopC] at h ⊢
    split at h
    · rename_i hlt
      rw [if_pos hlt]
      simp only [result_bind, result_tick, ok_bind, result_lift] at h
      rw [steps_tick_bind]
      cases h1 : d.readFrame p with
      | error e => rw [h1] at h; cases h
      | ok x =>
        obtain ⟨d1, f⟩ := x
        rw [h1, ok_bind] at h
        rw [steps_bind_ok (by rfl)]
        simp only [steps_lift, Nat.zero_add] at h ⊢
        obtain ⟨g1, g2, g3, g4, g5⟩ := readFrame_cost h1
        have g6 : d1.decodedDataPos ≤ d1.decodedData.length := by rw [g2, g3]; exact hd
        cases h2 : (decodeFrameC p d1 f).result with
        | error e => rw [h2] at h; cases h
        | ok d2 =>
          rw [h2, ok_bind] at h
          rw [steps_bind_ok h2]
          have k := frame_stored g6 h2
          rw [result_frame] at h2
          obtain ⟨n, ha⟩ := frame_after h2
          have := ih d2 d' (ha.room g6) h
          omega
    · rename_i hlt
      rw [if_neg hlt]
      cases h
      omega

end Rle.Decoder

/-- C105, the other way round: no output without a step. A decoder that has stored `n` positions has made at least
`n` steps. -/
theorem C105_decode_stores (p : Profile) (fuel : Nat) (encoded : Bytes) (decoded : List Nat) (d : Rle.Decoder)
    (h : (Rle.Decoder.decodeLoopC p fuel (Rle.Decoder.new encoded decoded)).result = .ok d) :
    d.decodedDataPos ≤ (Rle.Decoder.decodeLoopC p fuel (Rle.Decoder.new encoded decoded)).steps := by
  have := Rle.Decoder.loop_stored p fuel (Rle.Decoder.new encoded decoded) d (Nat.zero_le _) h
  rwa [show (Rle.Decoder.new encoded decoded).decodedDataPos = 0 from rfl, Nat.zero_add] at this

/-- A header announcing a run of 2^31 bytes 0x81: with an output slice of three entries the decoder panics at
the fourth set bit, the sixteenth of its 2^34 bits; the frame counts one step. -/
example : ((Rle.decodeC .release [0x80, 0x80, 0x80, 0x80, 0x10, 0x81] [0, 0, 0]).result.toOption,
    (Rle.decodeC .release [0x80, 0x80, 0x80, 0x80, 0x10, 0x81] [0, 0, 0]).steps) = (none, 17) := by decide +kernel

/-- A literal of two bytes with three set bits: one step for the frame, eight for each byte. -/
example : ((Rle.decodeC .debug [5, 3, 128] [7, 7, 7, 7]).result.toOption,
    (Rle.decodeC .debug [5, 3, 128] [7, 7, 7, 7]).steps) = (some [0, 1, 15, 7], 17) := by decide +kernel

/-- A run of one byte of ones after 2^27 bytes of zeros: one step for each frame and each bit set. -/
example : ((Rle.decodeC .debug [0x80, 0x80, 0x80, 0x80, 0x01, 0, 2, 0xFF] (List.replicate 9 0)).result.toOption,
    (Rle.decodeC .debug [0x80, 0x80, 0x80, 0x80, 0x01, 0, 2, 0xFF] (List.replicate 9 0)).steps) =
    (some ((List.range' (2 ^ 30) 8) ++ [0]), 10) := by decide +kernel

end Meerkat
