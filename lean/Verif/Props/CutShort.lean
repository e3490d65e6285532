import Verif.Props.RleFrames

set_option autoImplicit false

/-!
# C121: a compressed bitmap that was cut short gives no wrong position
-/

namespace Meerkat
open Spec

namespace CutShort

theorem frames_rest {k k' : Nat} {a x : Bytes} (ha : Frames k a x) : ∀ {b y : Bytes}, Frames k' (a ++ b) y →
    ∃ z, y = x ++ z ∧ Frames k' b z := by
  induction ha with
  | done => intro b y hb; exact ⟨y, rfl, hb⟩
  | @run h n v enc bytes hh hn hk _ ih =>
    intro b y hb
    generalize he : (h ++ v :: enc) ++ b = e at hb
    rw [List.append_assoc, List.cons_append] at he
    cases hb with
    | done => simp at he
    | @run _ m _ _ _ hh' _ _ hF =>
      obtain ⟨_, h2, h3⟩ := RleFrames.header_unique hh hh' he
      simp only [List.cons.injEq] at h2
      obtain ⟨rfl, rfl⟩ := h2
      obtain ⟨z, rfl, hz⟩ := ih hF
      exact ⟨z, by rw [show n = m by omega, List.append_assoc], hz⟩
    | literal hh' _ _ =>
      have := (RleFrames.header_unique hh hh' he).2.2
      omega
  | @literal h lit enc bytes hh hn _ ih =>
    intro b y hb
    generalize he : (h ++ (lit ++ enc)) ++ b = e at hb
    rw [List.append_assoc, List.append_assoc] at he
    cases hb with
    | done =>
      have := Rle.Decoder.header_pos hh
      have h2 := congrArg List.length he
      rw [List.length_append, List.length_nil] at h2
      omega
    | run hh' _ _ hF =>
      have := (RleFrames.header_unique hh hh' he).2.2
      omega
    | literal hh' _ hF =>
      obtain ⟨_, h2, h3⟩ := RleFrames.header_unique hh hh' he
      obtain ⟨h4, h5⟩ := List.append_inj h2 (by omega)
      subst h4
      subst h5
      obtain ⟨z, rfl, hz⟩ := ih hF
      exact ⟨z, by rw [List.append_assoc], hz⟩

theorem frames_join {k : Nat} {a x b y : Bytes} (ha : Frames k a x) (hb : Frames k b y) : Frames k (a ++ b) (x ++ y) := by
  induction ha with
  | done => exact hb
  | run hh hn hk _ ih =>
    rw [List.append_assoc, List.cons_append, List.append_assoc]
    exact .run hh hn hk ih
  | literal hh hn _ ih =>
    rw [List.append_assoc, List.append_assoc, List.append_assoc]
    exact .literal hh hn ih

theorem frames_mono {k k' : Nat} {a x : Bytes} (h : Frames k a x) (hk : k ≤ k') : Frames k' a x := by
  induction h with
  | done => exact .done
  | run hh hn hm _ ih => exact .run hh hn (by omega) ih
  | literal hh hn _ ih => exact .literal hh hn ih

theorem bytesBits_append (a b : Bytes) : bytesBits (a ++ b) = bytesBits a ++ bytesBits b := by
  simp [bytesBits]

theorem setPositions_append (a b : List Bool) :
    setPositions (a ++ b) = setPositions a ++ (setPositions b).map (a.length + ·) := by
  simp only [setPositions, List.length_append, List.range_add, List.filter_append, List.filter_map]
  congr 1
  · apply List.filter_congr
    intro i hi
    rw [List.mem_range] at hi
    simp [List.getD, List.getElem?_append_left hi]
  · congr 1
    apply List.filter_congr
    intro i _
    simp [List.getD, List.getElem?_append_right]

end CutShort

/-- C121: what the decoder does with the first `t` bytes of a compressed bitmap, in both builds. Either they end in the middle of a
frame, and it panics, or they stand for the first bytes of the bitmap, the rest standing for the other ones, and it writes the
positions set in these. -/
theorem C121_cut_exact (p : Profile) (enc bytes : Bytes) (hF : Frames (2 ^ 32) enc bytes) (hfit : 8 * bytes.length < 2 ^ 32)
    (out : List Nat) (hroom : (setPositions (bytesBits bytes)).length ≤ out.length) (t : Nat) :
    ((¬ ∃ part, Frames (2 ^ 32) (enc.take t) part) ∧ ∃ x, x ≠ .diverge ∧ (Rle.Decoder.new (enc.take t) out).decode p = .error x) ∨
    ∃ part rest, bytes = part ++ rest ∧ Frames (2 ^ 32) (enc.take t) part ∧ Frames (2 ^ 32) (enc.drop t) rest ∧
      ∃ d, (Rle.Decoder.new (enc.take t) out).decode p = .ok (d, (setPositions (bytesBits part)).length) ∧
        d.decodedData = setPositions (bytesBits part) ++ out.drop (setPositions (bytesBits part)).length := by
  by_cases h : ∃ part, Frames (2 ^ 32) (enc.take t) part
  · obtain ⟨part, hp⟩ := h
    obtain ⟨rest, rfl, hr⟩ := CutShort.frames_rest hp (b := enc.drop t) (y := bytes) (by rw [List.take_append_drop]; exact hF)
    refine .inr ⟨part, rest, rfl, hp, hr, ?_⟩
    rw [CutShort.bytesBits_append, CutShort.setPositions_append, List.length_append] at hroom
    rw [List.length_append] at hfit
    exact (C74_rle_frames_partial p (enc.take t) part out hp (by omega)).1 (by omega)
  · exact .inl ⟨h, C74_rle_malformed_panics p (enc.take t) out h⟩

/-- C121: of the bits that were put into an encoder, the decoder finds the set ones among the first few, or panics, when the bytes
it gets were cut short. It gives no other position. -/
theorem C121_cut (p p' : Profile) (bits : List Bool) (hlen : bits.length + 7 < 2 ^ 32) (e e' : Rle.Encoder)
    (hput : Rle.Encoder.new.putAll p bits = .ok e) (hflush : e.flush p = .ok e') (out : List Nat)
    (hroom : (setPositions bits).length ≤ out.length) (t : Nat) (d : Rle.Decoder) (n : Nat)
    (h : (Rle.Decoder.new (e'.encodedValues.take t) out).decode p' = .ok (d, n)) :
    ∃ rows, n = (setPositions (bits.take rows)).length ∧
      d.decodedData = setPositions (bits.take rows) ++ out.drop (setPositions (bits.take rows)).length := by
  obtain ⟨_, _, bytes, pad, h1, h2, hF, hbits, hpad⟩ := C74_encoder_frames p bits (by omega)
  rw [hput] at h1; cases h1
  rw [hflush] at h2; cases h2
  have hl := congrArg List.length hbits
  simp only [Rle.bytesBits_length, List.length_append, List.length_replicate] at hl
  have hzero : ∀ m, setPositions (List.replicate m false) = [] := by
    intro m
    rw [setPositions, List.filter_eq_nil_iff]
    intro i _
    simp only [List.getD, List.getElem?_replicate]
    split <;> simp
  have hset : setPositions (bytesBits bytes) = setPositions bits := by
    rw [hbits, CutShort.setPositions_append, hzero]; simp
  rcases C121_cut_exact p' _ bytes (CutShort.frames_mono hF (by omega)) (by omega) out (by rw [hset]; exact hroom) t with
    ⟨_, x, _, hx⟩ | ⟨part, rest, rfl, _, _, d', hd, hd'⟩
  · rw [hx] at h; cases h
  · rw [hd] at h; cases h
    have hpart : setPositions (bytesBits part) = setPositions (bits.take (8 * part.length)) := by
      rw [CutShort.bytesBits_append] at hbits
      have ht := congrArg (List.take (8 * part.length)) hbits
      rw [List.take_left' (Rle.bytesBits_length part), List.take_append, List.take_replicate] at ht
      rw [ht, CutShort.setPositions_append, hzero]; simp
    exact ⟨8 * part.length, by rw [hpart], by rw [hd', hpart]⟩

/-- C121 when `flush` was not called: what the encoder has written by then is cut between two frames, and the decoder finds the
set bits among the first ones. -/
theorem C121_unflushed (p p' : Profile) (bits : List Bool) (hlen : bits.length < 2 ^ 32) (e : Rle.Encoder)
    (hput : Rle.Encoder.new.putAll p bits = .ok e) (out : List Nat) (hroom : (setPositions bits).length ≤ out.length) :
    ∃ rows d, rows ≤ bits.length ∧
      (Rle.Decoder.new e.encodedValues out).decode p' = .ok (d, (setPositions (bits.take rows)).length) ∧
      d.decodedData = setPositions (bits.take rows) ++ out.drop (setPositions (bits.take rows)).length := by
  obtain ⟨_, bs, fs, pend, r, h1, hc, _, hbits⟩ :=
    Rle.Encoder.putAll_ok p bits .new [] [] [] [] Rle.Encoder.new_core Rle.Encoder.new_partial (by simp; omega)
  rw [hput] at h1; cases h1
  rw [hc.all, CutShort.bytesBits_append, show bytesBits [] ++ [] ++ bits = bits from rfl, List.append_assoc] at hbits
  have hl := congrArg List.length hbits
  simp only [Rle.bytesBits_length, List.length_append] at hl
  have htake : bits.take (8 * (Rle.expandAll fs).length) = bytesBits (Rle.expandAll fs) := by
    rw [← hbits, List.take_left' (Rle.bytesBits_length _)]
  have hle : (setPositions (bytesBits (Rle.expandAll fs))).length ≤ out.length := by
    rw [← hbits, CutShort.setPositions_append, List.length_append] at hroom
    omega
  refine ⟨8 * (Rle.expandAll fs).length, ?_⟩
  rw [htake, hc.enc]
  obtain ⟨d, hd, hd'⟩ := (C74_rle_frames_partial p' (Rle.bytesAll fs) (Rle.expandAll fs) out
    (RleFrames.of_bytesAll _ fs (by omega) (by omega)) (by omega)).1 hle
  exact ⟨d, by omega, hd, hd'⟩

/-- C121, the other way round: compressed bitmaps one after the other stand for their bytes one after the other. -/
theorem C121_join (p : Profile) (a x b y : Bytes) (ha : Frames (2 ^ 32) a x) (hb : Frames (2 ^ 32) b y)
    (hfit : 8 * (x.length + y.length) < 2 ^ 32) (out : List Nat)
    (hroom : (setPositions (bytesBits x)).length + (setPositions (bytesBits y)).length ≤ out.length) :
    ∃ d, (Rle.Decoder.new (a ++ b) out).decode p =
        .ok (d, (setPositions (bytesBits x)).length + (setPositions (bytesBits y)).length) ∧
      d.decodedData = setPositions (bytesBits x) ++ ((setPositions (bytesBits y)).map (8 * x.length + ·) ++
        out.drop ((setPositions (bytesBits x)).length + (setPositions (bytesBits y)).length)) := by
  have h := (C74_rle_frames_partial p (a ++ b) (x ++ y) out (CutShort.frames_join ha hb)
    (by rw [List.length_append]; omega)).1
  rw [CutShort.bytesBits_append, CutShort.setPositions_append, List.length_append, List.length_map, Rle.bytesBits_length] at h
  simpa using h hroom

/-- The bytes `0x01, 0x82` as they are and a run of three `0x01`, cut after each byte: the decoder panics but at the ends of frames. -/
example :
    let enc : Bytes := [5, 0x01, 0x82, 6, 0x01]
    (List.range 6).map (fun t => (Rle.Decoder.new (enc.take t) (List.replicate 6 99)).decode .debug |>.toOption.map
      fun r => r.1.decodedData.take r.2) =
      [some [], none, none, some [0, 9, 15], none, some [0, 9, 15, 16, 24, 32]] := by
  decide +kernel

end Meerkat
