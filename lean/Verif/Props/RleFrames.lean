import Verif.Proofs.RleFrames

set_option autoImplicit false

/-!
# The bitmap decoder and the format of compressed bitmaps (C74)

`Spec.Frames` says which byte strings are compressed bitmaps and which bytes they stand for, without the encoder or the decoder.
-/

namespace Meerkat
open Spec Varint

namespace RleFrames

theorem header_unique {h h' t t' : Bytes} {v v' : Nat} (a : IsHeader h v) (b : IsHeader h' v') (e : h ++ t = h' ++ t') :
    h = h' ∧ t = t' ∧ v = v' := by
  have hh : h = h' := by
    rcases Nat.le_total h.length h'.length with hl | hl
    · exact isVarint_prefix a.1 b.1
        (List.prefix_of_prefix_length_le (List.prefix_append h t) (e.symm ▸ List.prefix_append h' t') hl)
    · exact (isVarint_prefix b.1 a.1
        (List.prefix_of_prefix_length_le (List.prefix_append h' t') (e ▸ List.prefix_append h t) hl)).symm
  subst hh
  exact ⟨rfl, List.append_cancel_left e, a.2.2.symm.trans b.2.2⟩

theorem mono {k k' : Nat} {enc bytes : Bytes} (hF : Frames k enc bytes) (h : k ≤ k') : Frames k' enc bytes := by
  induction hF with
  | done => exact .done
  | run hh hn hk _ ih => exact .run hh hn (by omega) ih
  | literal hh hn _ ih => exact .literal hh hn ih

/-- Without long runs of equal bits nothing is cut. -/
theorem cut_short {enc bytes : Bytes} (hF : Frames (2 ^ 29) enc bytes) : CutFrames enc bytes := by
  induction hF with
  | done => exact .done
  | @run h n v _ _ hh hn hk _ ih =>
    have := CutFrames.run (b := v) hh hn ih
    rwa [Nat.mod_eq_of_lt hk, ite_self] at this
  | literal hh hn _ ih => exact .literal hh hn ih

theorem short_of_length {k : Nat} {enc bytes : Bytes} (hF : Frames k enc bytes) (j : Nat) (hl : bytes.length < j) :
    Frames j enc bytes := by
  induction hF with
  | done => exact .done
  | run hh hn _ _ ih =>
    simp only [List.length_append, List.length_replicate] at hl
    exact .run hh hn (by omega) (ih (by omega))
  | literal hh hn _ ih =>
    simp only [List.length_append] at hl
    exact .literal hh hn (ih (by omega))

theorem cut_of_fit {k : Nat} {enc bytes : Bytes} (hF : Frames k enc bytes) (hfit : 8 * bytes.length < 2 ^ 32) :
    CutFrames enc bytes := cut_short (short_of_length hF _ (by omega))

theorem exists_cut {k : Nat} {enc bytes : Bytes} (hF : Frames k enc bytes) : ∃ c, CutFrames enc c ∧ c.length ≤ bytes.length := by
  induction hF with
  | done => exact ⟨_, .done, Nat.le_refl _⟩
  | @run h n v _ _ hh hn _ _ ih =>
    obtain ⟨c, hc, hl⟩ := ih
    refine ⟨_, .run (b := v) hh hn hc, ?_⟩
    have := Nat.mod_le n (2 ^ 29)
    simp only [List.length_append, List.length_replicate]
    split <;> omega
  | @literal h lit _ _ hh hn _ ih =>
    obtain ⟨c, hc, hl⟩ := ih
    exact ⟨_, .literal hh hn hc, by simp only [List.length_append]; omega⟩

theorem exists_frames {enc c : Bytes} (hF : CutFrames enc c) : ∃ bytes, Frames (2 ^ 32) enc bytes := by
  induction hF with
  | done => exact ⟨_, .done⟩
  | @run h n v _ _ hh hn _ ih => obtain ⟨b, hb⟩ := ih; exact ⟨_, .run (b := v) hh hn hn hb⟩
  | literal hh hn _ ih => obtain ⟨b, hb⟩ := ih; exact ⟨_, .literal hh hn hb⟩

/-- The frames the encoder writes. -/
theorem of_bytesAll (k : Nat) (fs : List Rle.Frame) (hk : (Rle.expandAll fs).length < k)
    (h32 : (Rle.expandAll fs).length < 2 ^ 32) : Frames k (Rle.bytesAll fs) (Rle.expandAll fs) := by
  induction fs with
  | nil => exact .done
  | cons f fs ih =>
    rw [show f :: fs = [f] ++ fs from rfl, Rle.expandAll_append, Rle.expandAll_one, List.length_append] at hk h32
    rw [show f :: fs = [f] ++ fs from rfl, Rle.expandAll_append, Rle.expandAll_one, Rle.bytesAll_append, Rle.bytesAll_one]
    have ih := ih (by omega) (by omega)
    have head : ∀ v, v < 2 ^ 64 → IsHeader (varintBytes v) v := fun v hv =>
      ⟨varintBytes_isVarint v, varintBytes_length_le_ten hv, by rw [varintBytes_leb, Nat.mod_eq_of_lt hv]⟩
    cases f with
    | run n v =>
      simp only [Rle.Frame.expand, List.length_replicate] at hk h32
      have := Frames.run (b := v) (head (2 * n) (by omega)) (by omega) (by omega) ih
      simpa [Rle.Frame.bytes, Rle.Frame.expand] using this
    | bitmap bs =>
      simp only [Rle.Frame.expand] at hk h32
      have := Frames.literal (lit := bs) (head (2 * bs.length + 1) (by omega)) (by omega) ih
      simpa [Rle.Frame.bytes, Rle.Frame.expand] using this

theorem decode_run (p : Profile) (enc : Bytes) (out : List Nat) : (Rle.Decoder.new enc out).decode p =
    (do let d ← Rle.Decoder.decodeLoop p enc.length (Rle.Decoder.st enc 0 [] out 0); return (d, d.decodedDataPos)) := by
  simp [Rle.Decoder.decode, Rle.Decoder.new, Rle.Decoder.st]

end RleFrames

/-- A byte string stands for one sequence of bytes at most. -/
theorem C74_frames_unique {k k' : Nat} {enc a b : Bytes} (ha : Frames k enc a) (hb : Frames k' enc b) : a = b := by
  induction ha generalizing b with
  | done =>
    generalize he : ([] : Bytes) = e at hb
    cases hb with
    | done => rfl
    | run hh _ _ _ => simp at he
    | @literal h _ _ _ hh _ _ => have := Rle.Decoder.header_pos hh; have := congrArg List.length he; simp at this; omega
  | @run h n v enc bytes hh hn hk _ ih =>
    generalize he : h ++ v :: enc = e at hb
    cases hb with
    | done => simp at he
    | @run _ m _ _ _ hh' _ _ hF =>
      obtain ⟨_, h2, h3⟩ := RleFrames.header_unique hh hh' he
      simp only [List.cons.injEq] at h2
      obtain ⟨rfl, rfl⟩ := h2
      rw [ih hF, show n = m by omega]
    | literal hh' _ _ =>
      have := (RleFrames.header_unique hh hh' he).2.2
      omega
  | @literal h lit enc bytes hh hn _ ih =>
    generalize he : h ++ (lit ++ enc) = e at hb
    cases hb with
    | done =>
      have := Rle.Decoder.header_pos hh
      have h2 := congrArg List.length he
      rw [List.length_append, List.length_nil] at h2
      omega
    | run hh' _ _ hF =>
      have := (RleFrames.header_unique hh hh' he).2.2
      omega
    | literal hh' _ hF =>
      obtain ⟨_, h2, h3⟩ := RleFrames.header_unique hh hh' he
      obtain ⟨h4, h5⟩ := List.append_inj h2 (by omega)
      subst h4
      subst h5
      rw [ih hF]

/-- So does it when long runs of equal bits are cut. -/
theorem C74_cut_frames_unique {enc a b : Bytes} (ha : CutFrames enc a) (hb : CutFrames enc b) : a = b := by
  induction ha generalizing b with
  | done =>
    generalize he : ([] : Bytes) = e at hb
    cases hb with
    | done => rfl
    | run hh _ _ => simp at he
    | @literal h _ _ _ hh _ _ => have := Rle.Decoder.header_pos hh; have := congrArg List.length he; simp at this; omega
  | @run h n v enc bytes hh hn _ ih =>
    generalize he : h ++ v :: enc = e at hb
    cases hb with
    | done => simp at he
    | @run _ m _ _ _ hh' _ hF =>
      obtain ⟨_, h2, h3⟩ := RleFrames.header_unique hh hh' he
      simp only [List.cons.injEq] at h2
      obtain ⟨rfl, rfl⟩ := h2
      rw [ih hF, show n = m by omega]
    | literal hh' _ _ =>
      have := (RleFrames.header_unique hh hh' he).2.2
      omega
  | @literal h lit enc bytes hh hn _ ih =>
    generalize he : h ++ (lit ++ enc) = e at hb
    cases hb with
    | done =>
      have := Rle.Decoder.header_pos hh
      have h2 := congrArg List.length he
      rw [List.length_append, List.length_nil] at h2
      omega
    | run hh' _ hF =>
      have := (RleFrames.header_unique hh hh' he).2.2
      omega
    | literal hh' _ hF =>
      obtain ⟨_, h2, h3⟩ := RleFrames.header_unique hh hh' he
      obtain ⟨h4, h5⟩ := List.append_inj h2 (by omega)
      subst h4
      subst h5
      rw [ih hF]

/-- C74: on a sequence of frames whose bits have positions below `2^32`, the decoder writes the positions of the set bits and
returns their number when there is room for them, and panics when there is not. In both builds. -/
theorem C74_rle_frames_partial (p : Profile) (enc bytes : Bytes) (out : List Nat) (hF : Frames (2 ^ 32) enc bytes)
    (hfit : 8 * bytes.length < 2 ^ 32) :
    let ones := setPositions (bytesBits bytes)
    (ones.length ≤ out.length → ∃ d, (Rle.Decoder.new enc out).decode p = .ok (d, ones.length) ∧
      d.decodedData = ones ++ out.drop ones.length) ∧
    (out.length < ones.length → (Rle.Decoder.new enc out).decode p = .error .index) := by
  intro ones
  have hc : ones.length = (bytesBits bytes).count true := by
    simp only [ones]; rw [Rle.setPositions_eq, Rle.posFrom_length]
  have h := Rle.Decoder.decodeLoop_frames p (RleFrames.cut_of_fit hF hfit) [] [] out 0 enc.length (by omega) (Nat.le_refl _)
  simp only [List.nil_append, List.length_nil] at h
  rw [RleFrames.decode_run, h]
  constructor
  · intro hr
    rw [if_pos (by omega)]
    exact ⟨_, by simp only [ok_bind, pure_eq_ok, Rle.Decoder.st]; rw [hc, Rle.posFrom_length], by
      simp only [ones]; rw [Rle.setPositions_eq, Rle.posFrom_length]⟩
  · intro hr
    rw [if_neg (by omega)]
    rfl

/-- Three zero bytes and a literal, with a header of two bytes where one would do, are read like the shortest form. -/
example : Frames (2 ^ 32) [0x86, 0x00, 0x00, 3, 0x81] [0, 0, 0, 0x81] ∧
    Rle.decode .debug [0x86, 0x00, 0x00, 3, 0x81] [9, 9, 9] = .ok [24, 31, 9] := by
  refine ⟨?_, by decide +kernel⟩
  have h1 : IsHeader [3] (2 * [0x81].length + 1) := ⟨by simp [IsVarint], by simp, by decide⟩
  have h2 : IsHeader [0x86, 0x00] (2 * 3) := ⟨by simp [IsVarint], by simp, by decide⟩
  exact Frames.run (b := 0x00) h2 (by decide) (by decide) (Frames.literal (lit := [0x81]) h1 (by decide) .done)

/-- C74: what is not a sequence of frames is never decoded: the decoder panics. In both builds. -/
theorem C74_rle_malformed_panics (p : Profile) (enc : Bytes) (out : List Nat) (h : ¬ ∃ bytes, Frames (2 ^ 32) enc bytes) :
    ∃ x, x ≠ .diverge ∧ (Rle.Decoder.new enc out).decode p = .error x := by
  have hs := Rle.Decoder.decodeLoop_sound enc.length _ (Rle.Decoder.new_sound p enc out) (by simp [Rle.Decoder.new])
  cases hd : Rle.Decoder.decodeLoop p enc.length (Rle.Decoder.new enc out) with
  | ok d =>
    have := Rle.Decoder.decodeLoop_inv _ _ _ (Rle.Decoder.new_sound p enc out) hd
    exact (h (by simpa [Rle.Decoder.new] using this)).elim
  | error x =>
    rw [hd] at hs
    exact ⟨x, fun e => hs.1 (by rw [e]), by
      show (Rle.Decoder.decodeLoop p enc.length (Rle.Decoder.new enc out) >>= _) = _
      rw [hd]; rfl⟩

/-- A run without its byte, and a literal cut short. -/
example : Rle.decode .release [6] [] = .error .index ∧ Rle.decode .release [5, 1] [] = .error .index := by decide +kernel

/-- C74: with overflow checks, frames that stand for `2^29` bytes or more are refused, unless one run alone does. -/
theorem C74_rle_too_long_debug (enc bytes : Bytes) (out : List Nat) (hF : Frames (2 ^ 29) enc bytes)
    (hbig : 2 ^ 32 ≤ 8 * bytes.length) : ∃ x, (Rle.Decoder.new enc out).decode .debug = .error x := by
  obtain ⟨x, hx⟩ := Rle.Decoder.decodeLoop_overflow (RleFrames.cut_short hF) [] [] out 0 enc.length (by omega) (by decide) (Nat.le_refl _)
  simp only [List.nil_append, List.length_nil] at hx
  rw [RleFrames.decode_run, hx]
  exact ⟨x, rfl⟩

/-- C74: what the decoder does with overflow checks, for every byte string. It returns exactly when the string is a sequence of
frames, the positions fit and there is room, and it writes the positions of the set bits; but of runs of zero bits and of one bits
it sees only the length modulo `2^29` bytes. -/
theorem C74_rle_debug_exact (enc : Bytes) (out res : List Nat) :
    Rle.decode .debug enc out = .ok res ↔
      ∃ bytes, CutFrames enc bytes ∧ 8 * bytes.length < 2 ^ 32 ∧
        (setPositions (bytesBits bytes)).length ≤ out.length ∧
        res = setPositions (bytesBits bytes) ++ out.drop (setPositions (bytesBits bytes)).length := by
  have key : ∀ bytes, CutFrames enc bytes → 8 * bytes.length < 2 ^ 32 → Rle.decode .debug enc out =
      if (setPositions (bytesBits bytes)).length ≤ out.length then
        .ok (setPositions (bytesBits bytes) ++ out.drop (setPositions (bytesBits bytes)).length)
      else .error .index := by
    intro bytes hF hfit
    have h := Rle.Decoder.decodeLoop_frames .debug hF [] [] out 0 enc.length (by omega) (Nat.le_refl _)
    simp only [List.nil_append, List.length_nil] at h
    simp only [Rle.decode]
    rw [RleFrames.decode_run, h, Rle.setPositions_eq, Rle.posFrom_length]
    split
    · rfl
    · rfl
  constructor
  · intro h
    by_cases hex : ∃ bytes, Frames (2 ^ 32) enc bytes
    · obtain ⟨_, hF⟩ := hex
      obtain ⟨bytes, hC, _⟩ := RleFrames.exists_cut hF
      by_cases hbig : 8 * bytes.length < 2 ^ 32
      · rw [key bytes hC hbig] at h
        split at h
        · rename_i hr
          exact ⟨bytes, hC, hbig, hr, (Except.ok.inj h).symm⟩
        · cases h
      · obtain ⟨x, hx⟩ := Rle.Decoder.decodeLoop_overflow hC [] [] out 0 enc.length (by omega) (by decide) (Nat.le_refl _)
        simp only [List.nil_append, List.length_nil] at hx
        simp only [Rle.decode] at h
        rw [RleFrames.decode_run, hx] at h
        cases h
    · obtain ⟨x, _, hx⟩ := C74_rle_malformed_panics .debug enc out hex
      simp only [Rle.decode, hx] at h
      cases h
  · rintro ⟨bytes, hF, hfit, hr, rfl⟩
    rw [key bytes hF hfit, if_pos hr]

/-- C74: and without overflow checks. It returns exactly when the string is a sequence of frames and there is room; positions are
kept modulo `2^32`. -/
theorem C74_rle_release_exact (enc : Bytes) (out res : List Nat) :
    Rle.decode .release enc out = .ok res ↔
      ∃ bytes, CutFrames enc bytes ∧ (setPositions (bytesBits bytes)).length ≤ out.length ∧
        res = (setPositions (bytesBits bytes)).map (· % 2 ^ 32) ++ out.drop (setPositions (bytesBits bytes)).length := by
  have key : ∀ bytes, CutFrames enc bytes → Rle.decode .release enc out =
      if (setPositions (bytesBits bytes)).length ≤ out.length then
        .ok ((setPositions (bytesBits bytes)).map (· % 2 ^ 32) ++ out.drop (setPositions (bytesBits bytes)).length)
      else .error .index := by
    intro bytes hF
    have h := Rle.Decoder.decodeLoop_wrap hF [] [] out 0 enc.length (Nat.le_refl _)
    simp only [List.nil_append, List.length_nil, show Rle.Decoder.wrap 0 = 0 from rfl] at h
    simp only [Rle.decode]
    rw [RleFrames.decode_run, h, Rle.setPositions_eq, Rle.posFrom_length]
    split
    · rfl
    · rfl
  constructor
  · intro h
    by_cases hex : ∃ bytes, Frames (2 ^ 32) enc bytes
    · obtain ⟨_, hF⟩ := hex
      obtain ⟨bytes, hC, _⟩ := RleFrames.exists_cut hF
      rw [key bytes hC] at h
      split at h
      · rename_i hr
        exact ⟨bytes, hC, hr, (Except.ok.inj h).symm⟩
      · cases h
    · obtain ⟨x, _, hx⟩ := C74_rle_malformed_panics .release enc out hex
      simp only [Rle.decode, hx] at h
      cases h
  · rintro ⟨bytes, hF, hr, rfl⟩
    rw [key bytes hF, if_pos hr]

/-- C74: the two readings of a string differ only if one of its runs has `2^29` bytes or more, so that without such a run, or when
all positions fit, the theorems above are about the bytes the string stands for; and one exists exactly when the other does. -/
theorem C74_cut_frames (enc : Bytes) :
    (∀ bytes, Frames (2 ^ 29) enc bytes → CutFrames enc bytes) ∧
    (∀ bytes, Frames (2 ^ 32) enc bytes → 8 * bytes.length < 2 ^ 32 → CutFrames enc bytes) ∧
    ((∃ bytes, Frames (2 ^ 32) enc bytes) ↔ ∃ bytes, CutFrames enc bytes) :=
  ⟨fun _ h => RleFrames.cut_short h, fun _ h hf => RleFrames.cut_of_fit h hf,
    fun ⟨_, h⟩ => (RleFrames.exists_cut h).imp fun _ x => x.1, fun ⟨_, h⟩ => RleFrames.exists_frames h⟩

/-- C74: with overflow checks the decoder is wrong about exactly the strings that stand for `2^29` bytes or more, but for fewer
once the long runs of equal bits are cut, when the output has room for the positions that are left. -/
theorem C74_rle_debug_wrong_iff (enc bytes cut : Bytes) (out : List Nat) (hF : Frames (2 ^ 32) enc bytes)
    (hC : CutFrames enc cut) :
    (∃ res, Rle.decode .debug enc out = .ok res ∧ ¬ (8 * bytes.length < 2 ^ 32 ∧
      (setPositions (bytesBits bytes)).length ≤ out.length ∧
      res = setPositions (bytesBits bytes) ++ out.drop (setPositions (bytesBits bytes)).length)) ↔
    2 ^ 32 ≤ 8 * bytes.length ∧ 8 * cut.length < 2 ^ 32 ∧ (setPositions (bytesBits cut)).length ≤ out.length := by
  constructor
  · rintro ⟨res, h, hn⟩
    obtain ⟨c, h1, h2, h3, h4⟩ := (C74_rle_debug_exact enc out res).mp h
    obtain rfl := C74_cut_frames_unique h1 hC
    refine ⟨?_, h2, h3⟩
    refine Nat.le_of_not_lt fun hfit => hn ?_
    obtain rfl := C74_cut_frames_unique h1 (RleFrames.cut_of_fit hF hfit)
    exact ⟨hfit, h3, h4⟩
  · rintro ⟨h1, h2, h3⟩
    exact ⟨_, (C74_rle_debug_exact enc out _).mpr ⟨cut, hC, h2, h3, rfl⟩, fun h => by omega⟩

/-- C74: what the encoder writes is a sequence of frames that stands for the bits, filled up with zero bits to a whole byte. -/
theorem C74_encoder_frames (p : Profile) (bits : List Bool) (hlen : bits.length < 2 ^ 32) :
    ∃ e e' bytes pad, Rle.Encoder.new.putAll p bits = .ok e ∧ e.flush p = .ok e' ∧
      Frames (bytes.length + 1) e'.encodedValues bytes ∧ bytesBits bytes = bits ++ List.replicate pad false ∧ pad < 8 := by
  obtain ⟨e, h1, hs1⟩ := Rle.Encoder.putAll_safe p bits _ Rle.Encoder.new_safe
  obtain ⟨e', h2, _⟩ := Rle.Encoder.flush_safe p e hs1
  have hrun := Rle.run_eq p .new bits (by omega)
  rw [show Rle.Encoder.new.clear = Rle.Encoder.new from rfl, Rle.Encoder.run, h1] at hrun
  simp only [ok_bind, h2, pure_eq_ok, Except.ok.injEq] at hrun
  obtain ⟨fs, pad, g1, g2, g3, _, _⟩ := Rle.rleBytes_frames bits (by omega)
  have hl := congrArg List.length g2
  simp only [Rle.bytesBits_length, List.length_append, List.length_replicate] at hl
  refine ⟨e, e', Rle.expandAll fs, pad, h1, h2, ?_, g2, g3⟩
  rw [hrun, g1]
  exact RleFrames.of_bytesAll _ fs (by omega) (by omega)

example : (Rle.Encoder.new.putAll .debug (List.replicate 33 true) >>= fun e => e.flush .debug).map (·.encodedValues) =
    .ok [8, 0xFF, 3, 1] ∧
    Frames 5 [8, 0xFF, 3, 1] [0xFF, 0xFF, 0xFF, 0xFF, 1] := by
  refine ⟨by decide +kernel, ?_⟩
  have h1 : IsHeader [3] (2 * [1].length + 1) := ⟨by simp [IsVarint], by simp, by decide⟩
  have h2 : IsHeader [8] (2 * 4) := ⟨by simp [IsVarint], by simp, by decide⟩
  exact Frames.run (b := 0xFF) h2 (by decide) (by decide) (Frames.literal (lit := [1]) h1 (by decide) .done)

namespace RleFrames

theorem posFrom_zero (n : Nat) : ∀ b, Rle.posFrom b (List.replicate n false) = [] := by
  induction n with
  | zero => intro b; rfl
  | succ n ih => intro b; rw [List.replicate_succ]; simp [Rle.posFrom, ih]

/-- `2^29` zero bytes in one run, then the byte `1`. -/
def oneRun : Bytes := [0x80, 0x80, 0x80, 0x80, 0x04, 0x00, 3, 1]

/-- `2^28` zero bytes in a run, twice, then the byte `1`. -/
def twoRuns : Bytes := [0x80, 0x80, 0x80, 0x80, 0x02, 0x00, 0x80, 0x80, 0x80, 0x80, 0x02, 0x00, 3, 1]

theorem last_frame (k : Nat) : Frames k [3, 1] [1] :=
  Frames.literal (h := [3]) (lit := [1]) ⟨by simp [IsVarint], by simp, by decide⟩ (by decide) .done

theorem oneRun_frames : Frames (2 ^ 32) oneRun (List.replicate (2 ^ 29) 0 ++ [1]) :=
  Frames.run (h := [0x80, 0x80, 0x80, 0x80, 0x04]) (b := 0x00) ⟨by simp [IsVarint], by simp, by decide⟩ (by decide) (by decide)
    (last_frame _)

theorem twoRuns_frames : Frames (2 ^ 29) twoRuns (List.replicate (2 ^ 28) 0 ++ (List.replicate (2 ^ 28) 0 ++ [1])) := by
  have hh : IsHeader [0x80, 0x80, 0x80, 0x80, 0x02] (2 * 2 ^ 28) := ⟨by simp [IsVarint], by simp, by decide⟩
  exact Frames.run (b := 0x00) hh (by decide) (by decide) (Frames.run (b := 0x00) hh (by decide) (by decide) (last_frame _))

theorem oneRun_cut : CutFrames oneRun [1] := by
  have h3 : IsHeader [3] (2 * [1].length + 1) := ⟨by simp [IsVarint], by simp, by decide⟩
  have hh : IsHeader [0x80, 0x80, 0x80, 0x80, 0x04] (2 * 2 ^ 29) := ⟨by simp [IsVarint], by simp, by decide⟩
  exact CutFrames.run (b := 0x00) hh (by decide) (CutFrames.literal (lit := [1]) h3 (by decide) .done)

/-- The string and its two readings. -/
example : Frames (2 ^ 32) oneRun (List.replicate (2 ^ 29) 0 ++ [1]) ∧ CutFrames oneRun [1] ∧ Rle.decode .debug oneRun [7] = .ok [0] :=
  ⟨oneRun_frames, oneRun_cut, by decide +kernel⟩

theorem ones_after (n : Nat) (b : Bytes) (hb : b = List.replicate n 0 ++ [1]) : setPositions (bytesBits b) = [8 * n] := by
  rw [hb, Rle.setPositions_eq, Rle.bytesBits_append, Rle.posFrom_append, Rle.Decoder.bytesBits_zero, posFrom_zero,
    List.length_replicate, Nat.zero_add]
  rw [show bytesBits [1] = [true] ++ List.replicate 7 false by decide, Rle.posFrom_append, posFrom_zero]
  simp [Rle.posFrom]

end RleFrames

/-- C74 fails: after one run of `2^29` zero bytes the position `2^32` is read as position 0, with and without overflow checks,
because `len << 3` on a `u32` drops the high bits and is not an overflow. After two runs of half the length it is read as
position 0 without overflow checks, and is a panic with them. -/
theorem C74_rle_long_runs_violated :
    (∃ enc bytes, Frames (2 ^ 32) enc bytes ∧ setPositions (bytesBits bytes) = [2 ^ 32] ∧
      ∀ p, Rle.decode p enc [7] = .ok [0]) ∧
    (∃ enc bytes, Frames (2 ^ 29) enc bytes ∧ setPositions (bytesBits bytes) = [2 ^ 32] ∧
      Rle.decode .release enc [7] = .ok [0] ∧ ∃ x, Rle.decode .debug enc [7] = .error x) := by
  refine ⟨⟨_, _, RleFrames.oneRun_frames, RleFrames.ones_after (2 ^ 29) _ rfl, ?_⟩,
    ⟨_, _, RleFrames.twoRuns_frames, RleFrames.ones_after (2 ^ 29) _ ?_, ?_, ?_⟩⟩
  · intro p; cases p <;> decide +kernel
  · rw [← List.append_assoc, List.replicate_append_replicate]
  · decide +kernel
  · exact ⟨.overflow, by decide +kernel⟩

end Meerkat
