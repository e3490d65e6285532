import Verif.Proofs.RleDecode
import Verif.Spec.RleFrames

set_option autoImplicit false

/-! # The RLE decoder on arbitrary sequences of frames, and on anything else -/

namespace Meerkat.Rle.Decoder
open Spec Varint

theorem bitSteps_full (p : Profile) (enc : Bytes) (pos : Nat) (bits : List Bool) :
    ∀ (done rest : List Nat) (b : Nat) (_ : rest.length < bits.count true) (_ : b + bits.length < 2 ^ 32),
    bitSteps p (st enc pos done rest b) bits = .error .index := by
  induction bits with
  | nil => intro done rest b h _; simp at h
  | cons x bits ih =>
    intro done rest b hr hb
    simp only [List.length_cons] at hb
    simp only [bitSteps, List.foldlM_cons]
    by_cases hx : x.toNat ≤ rest.length
    · rw [bitStep_st p enc pos done rest b x hx (by omega)]
      simp only [ok_bind]
      exact ih _ _ _ (by
        rw [List.count_cons] at hr
        cases x <;> simp at hr hx ⊢ <;> omega) (by omega)
    · cases x with
      | false => simp at hx
      | true =>
        have h0 : rest = [] := List.eq_nil_of_length_eq_zero (by have h1 : Bool.toNat true = 1 := rfl; omega)
        subst h0
        simp [bitStep, st, store]

theorem bitSteps_overflow (bits : List Bool) : ∀ (d : Decoder) (_ : 2 ^ 32 ≤ d.bitmapPos + bits.length)
    (_ : d.bitmapPos < 2 ^ 32), ∃ x, bitSteps .debug d bits = .error x := by
  induction bits with
  | nil => intro d h1 h2; simp at h1; omega
  | cons b bits ih =>
    intro d h1 h2
    simp only [bitSteps, List.foldlM_cons]
    cases h : bitStep .debug d b with
    | error x => exact ⟨x, rfl⟩
    | ok d1 =>
      simp only [ok_bind]
      have hpos : d1.bitmapPos = d.bitmapPos + 1 ∧ d1.bitmapPos < 2 ^ 32 := by
        have hadd : ∀ d0 : Decoder, d0.bitmapPos = d.bitmapPos →
            (do let pos ← Profile.add .debug 32 d0.bitmapPos 1
                pure { d0 with bitmapPos := pos } : Res Decoder) = .ok d1 →
            d1.bitmapPos = d.bitmapPos + 1 ∧ d1.bitmapPos < 2 ^ 32 := by
          intro d0 e0 h
          simp only [Profile.add] at h
          split at h
          · rename_i hlt
            cases h
            exact ⟨by simp only [e0], hlt⟩
          · cases h
        simp only [bitStep] at h
        cases b with
        | false => exact hadd d rfl h
        | true =>
          simp only [if_true, store] at h
          split at h
          · simp only [ok_bind, pure_eq_ok] at h
            exact hadd { d with decodedData := d.decodedData.set d.decodedDataPos d.bitmapPos, decodedDataPos := d.decodedDataPos + 1 }
              rfl h
          · cases h
      exact ih d1 (by rw [hpos.1]; simp only [List.length_cons] at h1; omega) hpos.2

theorem bytesBits_zero (n : Nat) : bytesBits (List.replicate n 0x00) = List.replicate (8 * n) false := by
  induction n with
  | zero => rfl
  | succ n ih =>
    rw [List.replicate_succ, bytesBits_cons, ih, show 8 * (n + 1) = 8 + 8 * n by omega,
      ← List.replicate_append_replicate]
    rfl

theorem bytesBits_ones (n : Nat) : bytesBits (List.replicate n 0xFF) = List.replicate (8 * n) true := by
  induction n with
  | zero => rfl
  | succ n ih =>
    rw [List.replicate_succ, bytesBits_cons, ih, show 8 * (n + 1) = 8 + 8 * n by omega,
      ← List.replicate_append_replicate]
    rfl

theorem decodeFrame_full (p : Profile) (enc : Bytes) (pos : Nat) (f : Frame) (done rest : List Nat) (b : Nat)
    (hr : rest.length < (bytesBits f.expand).count true) (hb : b + 8 * f.expand.length < 2 ^ 32) :
    (st enc pos done rest b).decodeFrame p f = .error .index := by
  have hgen := bitSteps_full p enc pos (bytesBits f.expand) done rest b hr (by simpa using hb)
  cases f with
  | bitmap bs => simp only [decodeFrame]; rw [decodeBitmap_eq]; exact hgen
  | run n v =>
    simp only [Frame.expand, List.length_replicate] at hr hb hgen ⊢
    have hs : shl 32 n 3 = 8 * n := by simp only [shl, Nat.shiftLeft_eq]; omega
    simp only [decodeFrame, decodeRun, hs]
    split
    · rename_i h0
      subst h0
      rw [bytesBits_zero, List.count_replicate] at hr
      simp at hr
    · split
      · rename_i _ h0
        subst h0
        rw [onesLoop_eq, ← bytesBits_ones]; exact hgen
      · rw [bytesLoop_eq]; exact hgen

/-- The part of a frame the decoder looks at. -/
def cut : Frame → Frame
  | .run n v => .run (if v = 0x00 ∨ v = 0xFF then n % 2 ^ 29 else n) v
  | .bitmap bs => .bitmap bs

theorem cut_cut (f : Frame) : cut (cut f) = cut f := by
  cases f with
  | bitmap bs => rfl
  | run n v => simp only [cut]; split <;> simp

theorem decodeFrame_cut (p : Profile) (d : Decoder) (f : Frame) : d.decodeFrame p f = d.decodeFrame p (cut f) := by
  cases f with
  | bitmap bs => rfl
  | run n v =>
    have hs : shl 32 (n % 2 ^ 29) 3 = shl 32 n 3 := by simp only [shl, Nat.shiftLeft_eq]; omega
    simp only [cut, decodeFrame, decodeRun]
    by_cases h0 : v = 0x00
    · simp only [if_pos h0, if_pos (Or.inl h0 : v = 0x00 ∨ v = 0xFF), hs]
    · by_cases h1 : v = 0xFF
      · simp only [if_neg h0, if_pos h1, if_pos (Or.inr h1 : v = 0x00 ∨ v = 0xFF), hs]
      · rw [if_neg (show ¬ (v = 0x00 ∨ v = 0xFF) from fun h => h.elim h0 h1)]

/-- With overflow checks, positions past the last one a `u32` holds are noticed, but for runs of `2^29` bytes and more. -/
theorem decodeFrame_overflow (f : Frame) (d : Decoder) (hb : 2 ^ 32 ≤ d.bitmapPos + 8 * f.expand.length)
    (hd : d.bitmapPos < 2 ^ 32) (hk : cut f = f) :
    ∃ x, d.decodeFrame .debug f = .error x := by
  have hgen := bitSteps_overflow (bytesBits f.expand) d (by simpa using hb) hd
  cases f with
  | bitmap bs => simp only [decodeFrame]; rw [decodeBitmap_eq]; exact hgen
  | run n v =>
    have hs : v = 0x00 ∨ v = 0xFF → shl 32 n 3 = 8 * n := by
      intro hv
      simp only [cut, if_pos hv, Frame.run.injEq, and_true] at hk
      simp only [shl, Nat.shiftLeft_eq]; omega
    simp only [Frame.expand, List.length_replicate] at hb hgen ⊢
    simp only [decodeFrame, decodeRun]
    split
    · rename_i h0
      rw [hs (.inl h0)]
      simp only [Profile.add]
      rw [if_neg (by omega)]
      exact ⟨_, rfl⟩
    · split
      · rename_i _ h0
        rw [hs (.inr h0)]
        subst h0
        rw [onesLoop_eq, ← bytesBits_ones]; exact hgen
      · rw [bytesLoop_eq]; exact hgen

/-! ## Reading a frame with any header -/

/-- What `readFrame` finds at `pre.length`. -/
theorem readFrame_run (p : Profile) {h : Bytes} {n : Nat} (hh : IsHeader h (2 * n)) (hn : n < 2 ^ 32) (v : Byte)
    (pre post : Bytes) (done rest : List Nat) (b : Nat) :
    (st (pre ++ (h ++ v :: post)) pre.length done rest b).readFrame p =
      .ok (st (pre ++ (h ++ v :: post)) (pre ++ (h ++ [v])).length done rest b, .run n v) := by
  have hd := decode_varint_ok p h (v :: post) hh.1 hh.2.1
  rw [hh.2.2] at hd
  have h1 : (2 * n) >>> 1 = n := by rw [Nat.shiftRight_eq_div_pow]; omega
  have h2 : (2 * n) &&& 1 = 0 := by rw [Nat.and_one_is_mod]; omega
  simp only [readFrame, st]
  rw [slice_tail]
  simp only [ok_bind, hd, h1, h2, hn, if_true, Nat.zero_ne_one, if_false]
  rw [index_ok (by simp)]
  simp [Nat.add_assoc]

theorem readFrame_literal (p : Profile) {h lit : Bytes} (hh : IsHeader h (2 * lit.length + 1)) (hn : lit.length < 2 ^ 32)
    (pre post : Bytes) (done rest : List Nat) (b : Nat) :
    (st (pre ++ (h ++ (lit ++ post))) pre.length done rest b).readFrame p =
      .ok (st (pre ++ (h ++ (lit ++ post))) (pre ++ (h ++ lit)).length done rest b, .bitmap lit) := by
  have hd := decode_varint_ok p h (lit ++ post) hh.1 hh.2.1
  rw [hh.2.2] at hd
  have h1 : (2 * lit.length + 1) >>> 1 = lit.length := by rw [Nat.shiftRight_eq_div_pow]; omega
  have h2 : (2 * lit.length + 1) &&& 1 = 1 := by rw [Nat.and_one_is_mod]; omega
  simp only [readFrame, st]
  rw [slice_tail]
  simp only [ok_bind, hd, h1, h2, hn, if_true]
  rw [slice, if_pos ⟨by omega, by simp; omega⟩]
  have h3 : ((pre ++ (h ++ (lit ++ post))).drop (pre.length + h.length)).take
      (pre.length + h.length + lit.length - (pre.length + h.length)) = lit := by
    rw [Nat.add_sub_cancel_left, ← List.append_assoc, ← List.length_append, List.drop_left, List.take_left]
  simp [Nat.add_assoc] at h3 ⊢
  exact h3

theorem header_pos {h : Bytes} {v : Nat} (hh : IsHeader h v) : 1 ≤ h.length := by
  cases h with
  | nil => exact hh.1.elim
  | cons _ _ => simp

/-- Frames whose positions fit. -/
theorem decodeLoop_frames (p : Profile) {enc bytes : Bytes} (hF : CutFrames enc bytes) :
    ∀ (pre : Bytes) (done rest : List Nat) (b fuel : Nat) (_ : b + 8 * bytes.length < 2 ^ 32) (_ : enc.length ≤ fuel),
    decodeLoop p fuel (st (pre ++ enc) pre.length done rest b) =
      if (bytesBits bytes).count true ≤ rest.length then
        .ok (st (pre ++ enc) (pre ++ enc).length (done ++ posFrom b (bytesBits bytes))
          (rest.drop ((bytesBits bytes).count true)) (b + 8 * bytes.length))
      else .error .index := by
  have main : ∀ (f : Frame) (fb enc bytes : Bytes), 1 ≤ fb.length →
      (∀ (pre : Bytes) (done rest : List Nat) (b : Nat), (st (pre ++ (fb ++ enc)) pre.length done rest b).readFrame p =
        .ok (st (pre ++ (fb ++ enc)) (pre ++ fb).length done rest b, f)) →
      (∀ (pre : Bytes) (done rest : List Nat) (b fuel : Nat) (_ : b + 8 * bytes.length < 2 ^ 32) (_ : enc.length ≤ fuel),
        decodeLoop p fuel (st (pre ++ enc) pre.length done rest b) =
        if (bytesBits bytes).count true ≤ rest.length then
          .ok (st (pre ++ enc) (pre ++ enc).length (done ++ posFrom b (bytesBits bytes))
            (rest.drop ((bytesBits bytes).count true)) (b + 8 * bytes.length))
        else .error .index) →
      ∀ (pre : Bytes) (done rest : List Nat) (b fuel : Nat) (_ : b + 8 * ((cut f).expand ++ bytes).length < 2 ^ 32)
        (_ : (fb ++ enc).length ≤ fuel),
        decodeLoop p fuel (st (pre ++ (fb ++ enc)) pre.length done rest b) =
        if (bytesBits ((cut f).expand ++ bytes)).count true ≤ rest.length then
          .ok (st (pre ++ (fb ++ enc)) (pre ++ (fb ++ enc)).length (done ++ posFrom b (bytesBits ((cut f).expand ++ bytes)))
            (rest.drop ((bytesBits ((cut f).expand ++ bytes)).count true)) (b + 8 * ((cut f).expand ++ bytes).length))
        else .error .index := by
    intro f fb enc bytes hfb hread ih pre done rest b fuel hb hf
    simp only [List.length_append] at hb hf
    cases fuel with
    | zero => omega
    | succ fuel =>
      rw [decodeLoop, if_pos (by simp [st]; omega)]
      simp only [hread, ok_bind]
      by_cases hc : (bytesBits (cut f).expand).count true ≤ rest.length
      · rw [decodeFrame_cut, decodeFrame_st p _ _ (cut f) done rest b hc (by omega)]
        simp only [ok_bind]
        rw [← List.append_assoc, ih (pre ++ fb) _ _ _ fuel (by omega) (by omega)]
        rw [bytesBits_append, posFrom_append, List.count_append, List.drop_drop, bytesBits_length,
          List.length_append (as := (cut f).expand), List.append_assoc done, Nat.mul_add, ← Nat.add_assoc, List.length_drop]
        congr 1
        exact propext ⟨fun h => by omega, fun h => by omega⟩
      · rw [decodeFrame_cut, decodeFrame_full p _ _ (cut f) done rest b (by omega) (by omega)]
        simp only [error_bind]
        rw [if_neg (by rw [bytesBits_append, List.count_append]; omega)]
  induction hF with
  | done =>
    intro pre done rest b fuel _ _
    rw [if_pos (by simp)]
    cases fuel <;> (rw [decodeLoop, if_neg (by simp [st])]; simp [posFrom])
  | @run h n v enc bytes hh hn _ ih =>
    have := main (.run n v) (h ++ [v]) enc bytes (by simp)
      (fun pre done rest b => by simpa using readFrame_run p hh hn v pre enc done rest b) ih
    intro pre done rest b fuel hb hf
    have := this pre done rest b fuel hb (by simpa using hf)
    simpa only [List.append_assoc, List.singleton_append, cut, Frame.expand] using this
  | @literal h lit enc bytes hh hn _ ih =>
    have := main (.bitmap lit) (h ++ lit) enc bytes (by have := header_pos hh; simp; omega)
      (fun pre done rest b => by simpa only [List.append_assoc] using readFrame_literal p hh hn pre enc done rest b) ih
    intro pre done rest b fuel hb hf
    have := this pre done rest b fuel hb (by simpa using hf)
    simpa only [List.append_assoc, cut, Frame.expand] using this

/-- Frames whose positions do not fit, with overflow checks. -/
theorem decodeLoop_overflow {enc bytes : Bytes} (hF : CutFrames enc bytes) :
    ∀ (pre : Bytes) (done rest : List Nat) (b fuel : Nat) (_ : 2 ^ 32 ≤ b + 8 * bytes.length) (_ : b < 2 ^ 32)
      (_ : enc.length ≤ fuel), ∃ x, decodeLoop .debug fuel (st (pre ++ enc) pre.length done rest b) = .error x := by
  have main : ∀ (f : Frame) (fb enc bytes : Bytes), 1 ≤ fb.length →
      (∀ (pre : Bytes) (done rest : List Nat) (b : Nat), (st (pre ++ (fb ++ enc)) pre.length done rest b).readFrame .debug =
        .ok (st (pre ++ (fb ++ enc)) (pre ++ fb).length done rest b, f)) →
      (∀ (pre : Bytes) (done rest : List Nat) (b fuel : Nat) (_ : 2 ^ 32 ≤ b + 8 * bytes.length) (_ : b < 2 ^ 32)
        (_ : enc.length ≤ fuel), ∃ x, decodeLoop .debug fuel (st (pre ++ enc) pre.length done rest b) = .error x) →
      ∀ (pre : Bytes) (done rest : List Nat) (b fuel : Nat) (_ : 2 ^ 32 ≤ b + 8 * ((cut f).expand ++ bytes).length)
        (_ : b < 2 ^ 32) (_ : (fb ++ enc).length ≤ fuel),
        ∃ x, decodeLoop .debug fuel (st (pre ++ (fb ++ enc)) pre.length done rest b) = .error x := by
    intro f fb enc bytes hfb hread ih pre done rest b fuel hb hlt hf
    simp only [List.length_append] at hb hf
    cases fuel with
    | zero => omega
    | succ fuel =>
      rw [decodeLoop, if_pos (by simp [st]; omega)]
      simp only [hread, ok_bind]
      by_cases hfit : b + 8 * (cut f).expand.length < 2 ^ 32
      · by_cases hc : (bytesBits (cut f).expand).count true ≤ rest.length
        · rw [decodeFrame_cut, decodeFrame_st .debug _ _ (cut f) done rest b hc hfit]
          simp only [ok_bind]
          rw [← List.append_assoc]
          exact ih (pre ++ fb) _ _ _ fuel (by omega) (by omega) (by omega)
        · rw [decodeFrame_cut, decodeFrame_full .debug _ _ (cut f) done rest b (by omega) hfit]
          exact ⟨_, rfl⟩
      · obtain ⟨x, hx⟩ := decodeFrame_overflow (cut f) (st (pre ++ (fb ++ enc)) (pre ++ fb).length done rest b)
          (by simp only [st]; omega) hlt (cut_cut f)
        rw [decodeFrame_cut, hx]
        exact ⟨x, rfl⟩
  induction hF with
  | done => intro pre done rest b fuel h1 h2; simp at h1; omega
  | @run h n v enc bytes hh hn _ ih =>
    have := main (.run n v) (h ++ [v]) enc bytes (by simp) 
      (fun pre done rest b => by simpa using readFrame_run .debug hh hn v pre enc done rest b) ih
    intro pre done rest b fuel hb hlt hf
    have := this pre done rest b fuel hb hlt (by simpa using hf)
    simpa only [List.append_assoc, List.singleton_append, cut, Frame.expand] using this
  | @literal h lit enc bytes hh hn _ ih =>
    have := main (.bitmap lit) (h ++ lit) enc bytes (by have := header_pos hh; simp; omega)
      (fun pre done rest b => by simpa only [List.append_assoc] using readFrame_literal .debug hh hn pre enc done rest b) ih
    intro pre done rest b fuel hb hlt hf
    have := this pre done rest b fuel hb hlt (by simpa using hf)
    simpa only [List.append_assoc, cut, Frame.expand] using this

/-! ## Without overflow checks -/

/-- What remains of a position. -/
def wrap (x : Nat) : Nat := x % 2 ^ 32

theorem add_wrap (b n : Nat) : Profile.add .release 32 (wrap b) n = .ok (wrap (b + n)) := by
  have hw : wrap (wrap b + n) = wrap (b + n) := by simp only [wrap]; omega
  rw [← hw]
  by_cases hx : wrap b + n < 2 ^ 32
  · simp only [Profile.add, if_pos hx]
    exact congrArg Except.ok (Nat.mod_eq_of_lt hx).symm
  · simp only [Profile.add, if_neg hx]
    rfl

/-- Bits, when positions are kept modulo `2^32`. -/
theorem bitSteps_wrap (enc : Bytes) (pos : Nat) (bits : List Bool) : ∀ (done rest : List Nat) (b : Nat),
    bitSteps .release (st enc pos done rest (wrap b)) bits =
      if bits.count true ≤ rest.length then
        .ok (st enc pos (done ++ (posFrom b bits).map wrap) (rest.drop (bits.count true)) (wrap (b + bits.length)))
      else .error .index := by
  induction bits with
  | nil => intro done rest b; rw [if_pos (by simp)]; simp [bitSteps, posFrom]
  | cons x bits ih =>
    intro done rest b
    have hadd := add_wrap b 1
    simp only [bitSteps, List.foldlM_cons]
    cases x with
    | false =>
      simp only [bitStep, Bool.false_eq_true, if_false, pure_eq_ok, ok_bind]
      rw [show (st enc pos done rest (wrap b)).bitmapPos = wrap b from rfl, hadd]
      simp only [ok_bind]
      have := ih done rest (b + 1)
      simp only [bitSteps] at this
      rw [show ({ st enc pos done rest (wrap b) with bitmapPos := wrap (b + 1) } : Decoder) =
        st enc pos done rest (wrap (b + 1)) from rfl, this]
      rw [show (false :: bits).count true = bits.count true by simp]
      simp only [posFrom, List.length_cons]
      rw [show b + 1 + bits.length = b + (bits.length + 1) by omega]
    | true =>
      cases rest with
      | nil =>
        rw [if_neg (by simp)]
        simp [bitStep, st, store]
      | cons y rest =>
        have hstep : bitStep .release (st enc pos done (y :: rest) (wrap b)) true =
            .ok (st enc pos (done ++ [wrap b]) rest (wrap (b + 1))) := by
          simp only [bitStep, st, if_true, store, List.length_append, List.length_cons]
          rw [if_pos (by omega)]
          simp only [ok_bind, pure_eq_ok]
          rw [hadd]
          simp
        rw [hstep]
        simp only [ok_bind]
        have := ih (done ++ [wrap b]) rest (b + 1)
        simp only [bitSteps] at this
        rw [this]
        simp only [List.count_cons, beq_self_eq_true, if_true, posFrom, List.length_cons, List.map_cons,
          List.drop_succ_cons, List.append_assoc, List.singleton_append, Nat.add_le_add_iff_right]
        rw [show b + 1 + bits.length = b + (bits.length + 1) by omega]

theorem decodeFrame_wrap (enc : Bytes) (pos : Nat) (f : Frame) (done rest : List Nat) (b : Nat)
    (hk : cut f = f) :
    (st enc pos done rest (wrap b)).decodeFrame .release f =
      if (bytesBits f.expand).count true ≤ rest.length then
        .ok (st enc pos (done ++ (posFrom b (bytesBits f.expand)).map wrap)
          (rest.drop ((bytesBits f.expand).count true)) (wrap (b + 8 * f.expand.length)))
      else .error .index := by
  have hgen := bitSteps_wrap enc pos (bytesBits f.expand) done rest b
  rw [bytesBits_length] at hgen
  cases f with
  | bitmap bs => simp only [decodeFrame]; rw [decodeBitmap_eq]; exact hgen
  | run n v =>
    have hs : v = 0x00 ∨ v = 0xFF → shl 32 n 3 = 8 * n := by
      intro hv
      simp only [cut, if_pos hv, Frame.run.injEq, and_true] at hk
      simp only [shl, Nat.shiftLeft_eq]; omega
    simp only [Frame.expand, List.length_replicate] at hgen ⊢
    simp only [decodeFrame, decodeRun]
    split
    · rename_i h0
      rw [hs (.inl h0)]
      subst h0
      have hadd := add_wrap b (8 * n)
      rw [bytesBits_zero, posFrom_false, if_pos (by simp [List.count_replicate])]
      simp only [st]
      rw [hadd]
      simp [List.count_replicate]
    · split
      · rename_i _ h0
        rw [hs (.inr h0)]
        subst h0
        rw [onesLoop_eq, ← bytesBits_ones]; exact hgen
      · rw [bytesLoop_eq]; exact hgen

theorem decodeLoop_wrap {enc bytes : Bytes} (hF : CutFrames enc bytes) :
    ∀ (pre : Bytes) (done rest : List Nat) (b fuel : Nat) (_ : enc.length ≤ fuel),
    decodeLoop .release fuel (st (pre ++ enc) pre.length done rest (wrap b)) =
      if (bytesBits bytes).count true ≤ rest.length then
        .ok (st (pre ++ enc) (pre ++ enc).length (done ++ (posFrom b (bytesBits bytes)).map wrap)
          (rest.drop ((bytesBits bytes).count true)) (wrap (b + 8 * bytes.length)))
      else .error .index := by
  have main : ∀ (f : Frame) (fb enc bytes : Bytes), 1 ≤ fb.length →
      (∀ (pre : Bytes) (done rest : List Nat) (b : Nat), (st (pre ++ (fb ++ enc)) pre.length done rest b).readFrame .release =
        .ok (st (pre ++ (fb ++ enc)) (pre ++ fb).length done rest b, f)) →
      (∀ (pre : Bytes) (done rest : List Nat) (b fuel : Nat) (_ : enc.length ≤ fuel),
        decodeLoop .release fuel (st (pre ++ enc) pre.length done rest (wrap b)) =
        if (bytesBits bytes).count true ≤ rest.length then
          .ok (st (pre ++ enc) (pre ++ enc).length (done ++ (posFrom b (bytesBits bytes)).map wrap)
            (rest.drop ((bytesBits bytes).count true)) (wrap (b + 8 * bytes.length)))
        else .error .index) →
      ∀ (pre : Bytes) (done rest : List Nat) (b fuel : Nat) (_ : (fb ++ enc).length ≤ fuel),
        decodeLoop .release fuel (st (pre ++ (fb ++ enc)) pre.length done rest (wrap b)) =
        if (bytesBits ((cut f).expand ++ bytes)).count true ≤ rest.length then
          .ok (st (pre ++ (fb ++ enc)) (pre ++ (fb ++ enc)).length
            (done ++ (posFrom b (bytesBits ((cut f).expand ++ bytes))).map wrap)
            (rest.drop ((bytesBits ((cut f).expand ++ bytes)).count true)) (wrap (b + 8 * ((cut f).expand ++ bytes).length)))
        else .error .index := by
    intro f fb enc bytes hfb hread ih pre done rest b fuel hf
    simp only [List.length_append] at hf
    cases fuel with
    | zero => omega
    | succ fuel =>
      rw [decodeLoop, if_pos (by simp [st]; omega)]
      simp only [hread, ok_bind]
      rw [decodeFrame_cut, decodeFrame_wrap _ _ (cut f) done rest b (cut_cut f)]
      by_cases hc : (bytesBits (cut f).expand).count true ≤ rest.length
      · rw [if_pos hc]
        simp only [ok_bind]
        rw [← List.append_assoc, ih (pre ++ fb) _ _ _ fuel (by omega)]
        rw [bytesBits_append, posFrom_append, List.count_append, List.drop_drop, bytesBits_length, List.map_append,
          List.length_append (as := (cut f).expand), List.append_assoc done, Nat.mul_add, ← Nat.add_assoc, List.length_drop]
        congr 1
        exact propext ⟨fun h => by omega, fun h => by omega⟩
      · rw [if_neg hc]
        simp only [error_bind]
        rw [if_neg (by rw [bytesBits_append, List.count_append]; omega)]
  induction hF with
  | done =>
    intro pre done rest b fuel _
    rw [if_pos (by simp)]
    cases fuel <;> (rw [decodeLoop, if_neg (by simp [st])]; simp [posFrom])
  | @run h n v enc bytes hh hn _ ih =>
    have := main (.run n v) (h ++ [v]) enc bytes (by simp) 
      (fun pre done rest b => by simpa using readFrame_run .release hh hn v pre enc done rest b) ih
    intro pre done rest b fuel hf
    have := this pre done rest b fuel (by simpa using hf)
    simpa only [List.append_assoc, List.singleton_append, cut, Frame.expand] using this
  | @literal h lit enc bytes hh hn _ ih =>
    have := main (.bitmap lit) (h ++ lit) enc bytes (by have := header_pos hh; simp; omega)
      (fun pre done rest b => by simpa only [List.append_assoc] using readFrame_literal .release hh hn pre enc done rest b) ih
    intro pre done rest b fuel hf
    have := this pre done rest b fuel (by simpa using hf)
    simpa only [List.append_assoc, cut, Frame.expand] using this

/-! ## Whatever is read is a frame -/

theorem readFrame_inv {p : Profile} {d d' : Decoder} {f : Frame} (hs : d.readFrame p = .ok (d', f)) (bytes : Bytes)
    (hF : Frames (2 ^ 32) (d'.encodedData.drop d'.encodedDataPos) bytes) :
    Frames (2 ^ 32) (d.encodedData.drop d.encodedDataPos) (f.expand ++ bytes) := by
  simp only [readFrame] at hs
  cases h1 : slice d.encodedData d.encodedDataPos d.encodedData.length with
  | error e => rw [h1] at hs; simp at hs
  | ok tail =>
    rw [h1] at hs
    simp only [ok_bind] at hs
    have ht : tail = d.encodedData.drop d.encodedDataPos := by
      simp only [slice] at h1
      split at h1
      · cases h1; rw [List.take_of_length_le (by simp)]
      · cases h1
    rw [← ht]
    rcases varint_cases 10 tail with ⟨s, t, e, hv, hl⟩ | ⟨s, t, e, hv, hl⟩ | ⟨hv, hl⟩
    · have hdr : d.encodedData.drop (d.encodedDataPos + s.length) = t := by
        rw [← List.drop_drop, ← ht, e, List.drop_left]
      rw [e, decode_varint_ok p s t hv hl] at hs
      simp only [ok_bind] at hs
      generalize hw : leb128 s % 2 ^ 64 = w at hs
      have hhalf : w >>> 1 = w / 2 := by rw [Nat.shiftRight_eq_div_pow]
      rw [hhalf, Nat.and_one_is_mod] at hs
      rw [e]
      split at hs
      · rename_i hlt
        split at hs
        · rename_i hodd
          simp only [slice] at hs
          split at hs
          · rename_i hc
            simp only [ok_bind, pure_eq_ok, Except.ok.injEq, Prod.mk.injEq] at hs
            obtain ⟨rfl, rfl⟩ := hs
            rw [Nat.add_sub_cancel_left, hdr]
            simp only at hF
            rw [← List.drop_drop, hdr] at hF
            have htl : (t.take (w / 2)).length = w / 2 := by
              have := congrArg List.length hdr
              simp only [List.length_drop] at this
              rw [List.length_take]; omega
            have := Frames.literal (k := 2 ^ 32) (h := s) (lit := t.take (w / 2)) ⟨hv, hl, by rw [htl]; omega⟩
              (by rw [htl]; exact hlt) hF
            rwa [List.take_append_drop] at this
          · cases hs
        · rename_i heven
          simp only [index] at hs
          cases hg : d.encodedData[d.encodedDataPos + s.length]? with
          | none => rw [hg] at hs; cases hs
          | some v =>
            rw [hg] at hs
            simp only [ok_bind, pure_eq_ok, Except.ok.injEq, Prod.mk.injEq] at hs
            obtain ⟨rfl, rfl⟩ := hs
            simp only at hF
            have hcons : t = v :: d.encodedData.drop (d.encodedDataPos + s.length + 1) := by
              obtain ⟨hi, hv⟩ := List.getElem?_eq_some_iff.mp hg
              rw [← hdr, List.drop_eq_getElem_cons hi, hv]
            rw [hcons]
            exact Frames.run ⟨hv, hl, by omega⟩ hlt hlt hF
      · cases hs
    · rw [e, decode_varint_err p s t hv hl] at hs; simp at hs
    · rw [decode_varint_panic p tail hv hl] at hs; simp at hs

theorem decodeLoop_inv {p : Profile} {out : List Nat} : ∀ (fuel : Nat) (d d' : Decoder) (_ : Sound p out d)
    (_ : decodeLoop p fuel d = .ok d'), ∃ bytes, Frames (2 ^ 32) (d.encodedData.drop d.encodedDataPos) bytes := by
  have last : ∀ d : Decoder, ¬ d.encodedDataPos < d.encodedData.length →
      ∃ bytes, Frames (2 ^ 32) (d.encodedData.drop d.encodedDataPos) bytes := by
    intro d h
    rw [List.drop_of_length_le (by omega)]
    exact ⟨[], .done⟩
  intro fuel
  induction fuel with
  | zero =>
    intro d d' _ h
    rw [decodeLoop] at h
    split at h
    · cases h
    · rename_i hn; exact last d hn
  | succ fuel ih =>
    intro d d' hS h
    rw [decodeLoop] at h
    split at h
    · cases h1 : d.readFrame p with
      | error x => rw [h1] at h; cases h
      | ok r =>
        obtain ⟨d1, f⟩ := r
        rw [h1] at h
        simp only [ok_bind] at h
        cases h2 : d1.decodeFrame p f with
        | error x => rw [h2] at h; cases h
        | ok d2 =>
          rw [h2] at h
          simp only [ok_bind] at h
          have s1 := readFrame_sound hS h1
          have s2 := decodeFrame_sound f s1.1 h2
          obtain ⟨bytes, hF⟩ := ih d2 d' s2.1 h
          rw [s2.2.1, s2.2.2] at hF
          exact ⟨_, readFrame_inv h1 bytes hF⟩
    · rename_i hn; exact last d hn

end Meerkat.Rle.Decoder
