import Verif.Proofs.RleBits

set_option autoImplicit false

/-! # The RLE decoder -/

namespace Meerkat.Rle
open Spec Varint

/-- Positions of the set bits, counting from `b`. -/
def posFrom (b : Nat) : List Bool → List Nat
  | [] => []
  | true :: l => b :: posFrom (b + 1) l
  | false :: l => posFrom (b + 1) l

theorem posFrom_append (b : Nat) (l m : List Bool) :
    posFrom b (l ++ m) = posFrom b l ++ posFrom (b + l.length) m := by
  induction l generalizing b with
  | nil => simp [posFrom]
  | cons x l ih =>
    have : b + (l.length + 1) = b + 1 + l.length := by omega
    cases x <;> simp [posFrom, ih, this]

theorem posFrom_length (b : Nat) (l : List Bool) : (posFrom b l).length = l.count true := by
  induction l generalizing b with
  | nil => rfl
  | cons x l ih => cases x <;> simp [posFrom, ih]

theorem posFrom_false (b n : Nat) : posFrom b (List.replicate n false) = [] := by
  induction n generalizing b with
  | zero => rfl
  | succ n ih => simp [List.replicate_succ, posFrom, ih]

theorem setPositions_eq_aux (l : List Bool) (b : Nat) :
    posFrom b l = ((List.range l.length).filter (fun i => l.getD i false)).map (· + b) := by
  induction l generalizing b with
  | nil => rfl
  | cons x l ih =>
    simp only [List.length_cons, List.range_succ_eq_map, List.filter_cons, List.filter_map]
    have hf : ((fun i => (x :: l).getD i false) ∘ Nat.succ) = fun i => l.getD i false := by
      funext i; simp
    have hm : ∀ (L : List Nat), L.map (· + (b + 1)) = (L.map Nat.succ).map (· + b) := by
      intro L; rw [List.map_map]; apply List.map_congr_left; intro a _; simp; omega
    rw [hf]
    cases x
    · simp only [posFrom, ih, hm]; simp
    · simp only [posFrom, ih, hm]; simp

theorem setPositions_eq (l : List Bool) : setPositions l = posFrom 0 l := by
  rw [setPositions_eq_aux]; simp [setPositions]

namespace Decoder

/-- The effect of one bit of the bitmap. -/
def bitStep (p : Profile) (d : Decoder) (b : Bool) : Res Decoder := do
  let d ← if b then do
      let d ← d.store
      pure { d with decodedDataPos := d.decodedDataPos + 1 }
    else pure d
  let pos ← p.add 32 d.bitmapPos 1
  return { d with bitmapPos := pos }

/-- The effect of a sequence of bits. -/
def bitSteps (p : Profile) (d : Decoder) (bits : List Bool) : Res Decoder := bits.foldlM (bitStep p) d

theorem bitSteps_append (p : Profile) (d : Decoder) (a b : List Bool) :
    bitSteps p d (a ++ b) = bitSteps p d a >>= fun d => bitSteps p d b := by
  simp [bitSteps, List.foldlM_append]

theorem decodeByte_eq (p : Profile) (d : Decoder) (byte : Byte) :
    decodeByte p d byte = bitSteps p d (byteBits byte) := by
  have hmask : BIT_MASK = (List.range 8).map (fun k => UInt8.ofNat (2 ^ k)) := by decide
  have h : ∀ (ks : List Nat) (_ : ∀ k ∈ ks, k < 8) (d : Decoder),
      (ks.map (fun k => UInt8.ofNat (2 ^ k))).foldlM (decodeBit p byte) d =
        (ks.map byte.toNat.testBit).foldlM (bitStep p) d := by
    intro ks
    induction ks with
    | nil => intros; rfl
    | cons k ks ih =>
      intro hk d
      have h1 : decodeBit p byte d (UInt8.ofNat (2 ^ k)) = bitStep p d (byte.toNat.testBit k) := by
        simp only [decodeBit, bitStep, Bitmap.and_mask_ne_zero byte (hk k (by simp))]
      simp only [List.map_cons, List.foldlM_cons, h1]
      congr 1
      funext d'
      exact ih (fun k hk' => hk k (by simp [hk'])) d'
  simp only [decodeByte, bitSteps, byteBits, hmask]
  exact h _ (by simp) d

theorem decodeBitmap_eq (p : Profile) (bs : Bytes) : ∀ (d : Decoder),
    decodeBitmap p d bs = bitSteps p d (bytesBits bs) := by
  induction bs with
  | nil => intro d; rfl
  | cons b bs ih =>
    intro d
    simp only [decodeBitmap, List.foldlM_cons, bytesBits_cons, bitSteps_append, decodeByte_eq]
    congr 1; funext d'; exact ih d'

theorem onesLoop_eq (p : Profile) (n : Nat) : ∀ (d : Decoder),
    onesLoop p n d = bitSteps p d (List.replicate n true) := by
  induction n with
  | zero => intro d; rfl
  | succ n ih =>
    intro d
    simp only [onesLoop, bitSteps, List.replicate_succ, List.foldlM_cons, bitStep, if_true]
    cases hs : d.store with
    | error e => rfl
    | ok d1 =>
      simp only [ok_bind, pure_eq_ok]
      cases ha : p.add 32 d1.bitmapPos 1 with
      | error e => rfl
      | ok v => simp only [ok_bind]; exact ih _

theorem bytesLoop_eq (p : Profile) (v : Byte) (n : Nat) : ∀ (d : Decoder),
    bytesLoop p v n d = bitSteps p d (bytesBits (List.replicate n v)) := by
  induction n with
  | zero => intro d; rfl
  | succ n ih =>
    intro d
    simp only [bytesLoop, List.replicate_succ, bytesBits_cons, bitSteps_append, decodeByte_eq]
    congr 1; funext d'; exact ih d'

/-! ## Decoding what fits -/

/-- A decoder that has written `done` and has `rest` left of its output. -/
def st (enc : Bytes) (pos : Nat) (done rest : List Nat) (b : Nat) : Decoder :=
  { encodedData := enc, decodedData := done ++ rest, encodedDataPos := pos,
    decodedDataPos := done.length, bitmapPos := b }

theorem bitStep_st (p : Profile) (enc : Bytes) (pos : Nat) (done rest : List Nat) (b : Nat) (x : Bool)
    (hr : x.toNat ≤ rest.length) (hb : b + 1 < 2 ^ 32) :
    bitStep p (st enc pos done rest b) x =
      .ok (st enc pos (done ++ posFrom b [x]) (rest.drop x.toNat) (b + 1)) := by
  cases x with
  | false =>
    simp only [bitStep, st, Bool.false_eq_true, if_false, pure_eq_ok, ok_bind]
    rw [Profile.add_ok _ (by omega)]
    simp [posFrom]
  | true =>
    match rest, hr with
    | y :: rest, _ =>
      simp only [bitStep, st, if_true, store, List.length_append, List.length_cons]
      rw [if_pos (by omega)]
      simp only [ok_bind, pure_eq_ok]
      rw [Profile.add_ok _ (by omega)]
      simp [posFrom]

theorem bitSteps_st (p : Profile) (enc : Bytes) (pos : Nat) (bits : List Bool) :
    ∀ (done rest : List Nat) (b : Nat) (_ : bits.count true ≤ rest.length)
      (_ : b + bits.length < 2 ^ 32),
    bitSteps p (st enc pos done rest b) bits =
      .ok (st enc pos (done ++ posFrom b bits) (rest.drop (bits.count true)) (b + bits.length)) := by
  induction bits with
  | nil => intro done rest b _ _; simp [bitSteps, posFrom]
  | cons x bits ih =>
    intro done rest b hr hb
    simp only [List.length_cons] at hb
    have hr1 : x.toNat ≤ rest.length ∧ bits.count true ≤ (rest.drop x.toNat).length := by
      cases x <;> simp [List.count_cons] at hr ⊢ <;> omega
    simp only [bitSteps, List.foldlM_cons]
    rw [bitStep_st p enc pos done rest b x hr1.1 (by omega)]
    simp only [ok_bind]
    have := ih (done ++ posFrom b [x]) (rest.drop x.toNat) (b + 1) hr1.2 (by omega)
    simp only [bitSteps] at this
    rw [this]
    congr 1
    have h2 := posFrom_append b [x] bits
    simp only [List.length_cons, List.length_nil] at h2
    rw [show x :: bits = [x] ++ bits from rfl, h2]
    have h3 : ([x] ++ bits).count true = x.toNat + bits.count true := by cases x <;> simp [List.count_cons]; omega
    rw [h3, List.drop_drop, List.append_assoc]
    congr 1
    simp; omega

/-- A frame's content, decoded. -/
theorem decodeFrame_st (p : Profile) (enc : Bytes) (pos : Nat) (f : Frame) (done rest : List Nat) (b : Nat)
    (hr : (bytesBits f.expand).count true ≤ rest.length) (hb : b + 8 * f.expand.length < 2 ^ 32) :
    (st enc pos done rest b).decodeFrame p f =
    .ok (st enc pos (done ++ posFrom b (bytesBits f.expand))
      (rest.drop ((bytesBits f.expand).count true)) (b + 8 * f.expand.length)) := by
  have hgen := bitSteps_st p enc pos (bytesBits f.expand) done rest b hr (by simpa using hb)
  rw [bytesBits_length] at hgen
  cases f with
  | bitmap bs => simp only [decodeFrame]; rw [decodeBitmap_eq]; exact hgen
  | run n v =>
    simp only [Frame.expand, List.length_replicate] at hr hb hgen ⊢
    have hs : shl 32 n 3 = 8 * n := by simp only [shl, Nat.shiftLeft_eq]; omega
    simp only [decodeFrame, decodeRun, hs]
    split
    · rename_i h0
      subst h0
      have hz : bytesBits (List.replicate n 0x00) = List.replicate (8 * n) false := by
        clear hgen hr hb hs
        induction n with
        | zero => rfl
        | succ n ih =>
          rw [List.replicate_succ, bytesBits_cons, ih, show 8 * (n + 1) = 8 + 8 * n by omega,
            ← List.replicate_append_replicate]
          rfl
      rw [hz, posFrom_false]
      simp only [st]
      rw [Profile.add_ok _ (by omega)]
      simp [List.count_replicate]
    · split
      · rename_i _ h0
        subst h0
        have hz : bytesBits (List.replicate n 0xFF) = List.replicate (8 * n) true := by
          clear hgen hr hb hs
          induction n with
          | zero => rfl
          | succ n ih =>
            rw [List.replicate_succ, bytesBits_cons, ih, show 8 * (n + 1) = 8 + 8 * n by omega,
              ← List.replicate_append_replicate]
            rfl
        rw [onesLoop_eq, ← hz]; exact hgen
      · rw [bytesLoop_eq]; exact hgen

theorem slice_tail (a b : Bytes) : slice (a ++ b) a.length (a ++ b).length = .ok b := by
  rw [slice, if_pos ⟨by simp, by simp⟩]; simp

theorem readFrame_st (p : Profile) (pre post : Bytes) (f : Frame) (done rest : List Nat) (b : Nat)
    (hn : f.expand.length < 2 ^ 32) :
    (st (pre ++ f.bytes ++ post) pre.length done rest b).readFrame p =
      .ok (st (pre ++ f.bytes ++ post) (pre ++ f.bytes).length done rest b, f) := by
  cases f with
  | run n v =>
    simp only [Frame.expand, List.length_replicate] at hn
    have hd := decode_varintBytes p (v := 2 * n) (by omega) ([v] ++ post)
    have h1 : (2 * n) >>> 1 = n := by rw [Nat.shiftRight_eq_div_pow]; omega
    have h2 : (2 * n) &&& 1 = 0 := by rw [Nat.and_one_is_mod]; omega
    simp only [readFrame, st]
    rw [List.append_assoc, slice_tail]
    simp only [ok_bind, Frame.bytes, List.append_assoc]
    rw [hd]
    simp only [ok_bind, h1, h2, hn, if_true, Nat.zero_ne_one, if_false]
    rw [index_ok (by simp)]
    simp [Nat.add_assoc]
  | bitmap bs =>
    simp only [Frame.expand] at hn
    have hd := decode_varintBytes p (v := 2 * bs.length + 1) (by omega) (bs ++ post)
    have h1 : (2 * bs.length + 1) >>> 1 = bs.length := by rw [Nat.shiftRight_eq_div_pow]; omega
    have h2 : (2 * bs.length + 1) &&& 1 = 1 := by rw [Nat.and_one_is_mod]; omega
    simp only [readFrame, st]
    rw [List.append_assoc, slice_tail]
    simp only [ok_bind, Frame.bytes, List.append_assoc]
    rw [hd]
    simp only [ok_bind, h1, h2, hn, if_true]
    rw [slice, if_pos ⟨by omega, by simp; omega⟩]
    have h3 : ((pre ++ (varintBytes (2 * bs.length + 1) ++ (bs ++ post))).drop
        (pre.length + (varintBytes (2 * bs.length + 1)).length)).take
        (pre.length + (varintBytes (2 * bs.length + 1)).length + bs.length -
          (pre.length + (varintBytes (2 * bs.length + 1)).length)) = bs := by
      rw [Nat.add_sub_cancel_left, ← List.append_assoc, ← List.length_append, List.drop_left, List.take_left]
    simp [Nat.add_assoc] at h3 ⊢
    exact h3

theorem frame_bytes_ne (f : Frame) : 1 ≤ f.bytes.length := by
  cases f with
  | run n v => simp [Frame.bytes]
  | bitmap bs =>
    have := List.length_pos_iff.mpr (varintBytes_ne_nil (2 * bs.length + 1))
    simp [Frame.bytes]; omega

theorem decodeLoop_st (p : Profile) (fs : List Frame) : ∀ (pre : Bytes) (done rest : List Nat) (b fuel : Nat)
    (_ : (bytesBits (expandAll fs)).count true ≤ rest.length)
    (_ : b + 8 * (expandAll fs).length < 2 ^ 32) (_ : (bytesAll fs).length ≤ fuel),
    decodeLoop p fuel (st (pre ++ bytesAll fs) pre.length done rest b) =
      .ok (st (pre ++ bytesAll fs) (pre ++ bytesAll fs).length
        (done ++ posFrom b (bytesBits (expandAll fs)))
        (rest.drop ((bytesBits (expandAll fs)).count true)) (b + 8 * (expandAll fs).length)) := by
  induction fs with
  | nil =>
    intro pre done rest b fuel _ _ _
    cases fuel <;> (rw [decodeLoop, if_neg (by simp [st])]; simp [posFrom])
  | cons f fs ih =>
    intro pre done rest b fuel hr hb hf
    have e1 : expandAll (f :: fs) = f.expand ++ expandAll fs := by simp [expandAll]
    have e2 : bytesAll (f :: fs) = f.bytes ++ bytesAll fs := by simp [bytesAll]
    have hpos := frame_bytes_ne f
    rw [e1] at hr hb
    rw [e2] at hf
    simp only [bytesBits_append, List.count_append, List.length_append] at hr hb hf
    rw [e1, e2, ← List.append_assoc]
    cases fuel with
    | zero => omega
    | succ fuel =>
      rw [decodeLoop, if_pos (by simp [st]; omega)]
      simp only [readFrame_st p pre (bytesAll fs) f done rest b (by omega), ok_bind]
      have h1 := decodeFrame_st p (pre ++ f.bytes ++ bytesAll fs) (pre ++ f.bytes).length f done rest b
        (by omega) (by omega)
      rw [h1]
      simp only [ok_bind]
      rw [ih (pre ++ f.bytes) _ _ _ fuel (by simp; omega) (by omega) (by omega)]
      rw [bytesBits_append, posFrom_append, List.count_append, List.drop_drop, bytesBits_length,
        List.length_append (as := f.expand), List.append_assoc done, Nat.mul_add, ← Nat.add_assoc]

/-- Decoding the canonical encoding. -/
theorem decode_rleBytes (p : Profile) (bits : List Bool) (out : List Nat)
    (hlen : bits.length < 2 ^ 32 - 7) (hout : bits.count true ≤ out.length) :
    ∃ d, (Decoder.new (rleBytes bits) out).decode p = .ok (d, bits.count true) ∧
      d.decodedData = setPositions bits ++ out.drop (bits.count true) := by
  obtain ⟨fs, pad, h1, h2, h3, _⟩ := rleBytes_frames bits (by omega)
  have hc : (bytesBits (expandAll fs)).count true = bits.count true := by
    rw [h2, List.count_append, List.count_replicate]; simp
  have hl := congrArg List.length h2
  simp only [bytesBits_length, List.length_append, List.length_replicate] at hl
  have hmain := decodeLoop_st p fs [] [] out 0 (bytesAll fs).length (by omega) (by omega) (Nat.le_refl _)
  have hpos : posFrom 0 (bytesBits (expandAll fs)) = setPositions bits := by
    rw [h2, posFrom_append, posFrom_false, setPositions_eq]; simp
  simp only [List.nil_append, List.length_nil] at hmain
  rw [hpos, hc] at hmain
  have hnew : Decoder.new (rleBytes bits) out = st (bytesAll fs) 0 [] out 0 := by rw [h1]; rfl
  refine ⟨st (bytesAll fs) (bytesAll fs).length (setPositions bits) (out.drop (bits.count true))
      (0 + 8 * (expandAll fs).length), ?_, ?_⟩
  · rw [hnew, decode, show (st (bytesAll fs) 0 [] out 0).encodedData = bytesAll fs from rfl, hmain]
    simp only [ok_bind, pure_eq_ok, st, setPositions_eq, posFrom_length]
  · rfl

/-! ## Decoding anything -/

/-- What holds whatever is decoded, relative to the caller's slice. -/
structure Sound (p : Profile) (out : List Nat) (d : Decoder) : Prop where
  len : d.decodedData.length = out.length
  pos : d.decodedDataPos ≤ out.length
  tail : d.decodedData.drop d.decodedDataPos = out.drop d.decodedDataPos
  sorted : p = .debug → (d.decodedData.take d.decodedDataPos).Pairwise (· < ·)
  below : p = .debug → ∀ x ∈ d.decodedData.take d.decodedDataPos, x < d.bitmapPos

theorem Sound.setPos {p : Profile} {out : List Nat} {d : Decoder} (h : Sound p out d) (k : Nat)
    (hk : p = .debug → d.bitmapPos ≤ k) : Sound p out { d with bitmapPos := k } :=
  ⟨h.len, h.pos, h.tail, h.sorted, fun hp x hx => Nat.lt_of_lt_of_le (h.below hp x hx) (hk hp)⟩

theorem Sound.setEnc {p : Profile} {out : List Nat} {d : Decoder} (h : Sound p out d) (k : Nat) :
    Sound p out { d with encodedDataPos := k } := ⟨h.len, h.pos, h.tail, h.sorted, h.below⟩

theorem add_debug {w a b v : Nat} (h : Profile.add .debug w a b = .ok v) : v = a + b := by
  simp only [Profile.add] at h
  split at h
  · simpa using h.symm
  · simp at h

theorem bitStep_sound {p : Profile} {out : List Nat} {d d' : Decoder} (h : Sound p out d) (b : Bool)
    (hs : bitStep p d b = .ok d') :
    Sound p out d' ∧ d'.encodedData = d.encodedData ∧ d'.encodedDataPos = d.encodedDataPos := by
  cases b with
  | false =>
    simp only [bitStep, Bool.false_eq_true, if_false, pure_eq_ok, ok_bind] at hs
    cases ha : p.add 32 d.bitmapPos 1 with
    | error e => rw [ha] at hs; simp at hs
    | ok v =>
      rw [ha] at hs
      simp only [ok_bind, Except.ok.injEq] at hs
      subst hs
      refine ⟨h.setPos v ?_, rfl, rfl⟩
      intro hp; subst hp; have := add_debug ha; omega
  | true =>
    simp only [bitStep, if_true, store] at hs
    by_cases hlt : d.decodedDataPos < d.decodedData.length
    · rw [if_pos hlt] at hs
      simp only [ok_bind, pure_eq_ok] at hs
      cases ha : p.add 32 d.bitmapPos 1 with
      | error e => rw [ha] at hs; simp at hs
      | ok v =>
        rw [ha] at hs
        simp only [ok_bind, Except.ok.injEq] at hs
        subst hs
        have htake : (d.decodedData.set d.decodedDataPos d.bitmapPos).take (d.decodedDataPos + 1) =
            d.decodedData.take d.decodedDataPos ++ [d.bitmapPos] := by
          rw [List.take_succ_eq_append_getElem (by simpa using hlt), List.take_set_of_le (Nat.le_refl _)]
          simp
        refine ⟨⟨by simpa using h.len, ?_, ?_, ?_, ?_⟩, rfl, rfl⟩
        · have := h.len; simp only; omega
        · simp only
          rw [List.drop_set_of_lt (by omega), ← List.drop_drop, ← List.drop_drop, h.tail]
        · intro hp
          simp only
          rw [htake, List.pairwise_append]
          refine ⟨h.sorted hp, by simp, ?_⟩
          intro x hx y hy
          simp only [List.mem_cons, List.not_mem_nil, or_false] at hy
          subst hy
          exact h.below hp x hx
        · intro hp x hx
          simp only at hx ⊢
          rw [htake] at hx
          have hv : v = d.bitmapPos + 1 := by subst hp; exact add_debug ha
          simp only [List.mem_append, List.mem_cons, List.not_mem_nil, or_false] at hx
          rcases hx with hx | hx
          · have := h.below hp x hx; omega
          · omega
    · rw [if_neg hlt] at hs; simp at hs

theorem bitSteps_sound {p : Profile} {out : List Nat} (bits : List Bool) : ∀ {d d' : Decoder} (_ : Sound p out d)
    (_ : bitSteps p d bits = .ok d'),
    Sound p out d' ∧ d'.encodedData = d.encodedData ∧ d'.encodedDataPos = d.encodedDataPos := by
  induction bits with
  | nil => intro d d' h hs; simp [bitSteps] at hs; subst hs; exact ⟨h, rfl, rfl⟩
  | cons b bits ih =>
    intro d d' h hs
    simp only [bitSteps, List.foldlM_cons] at hs
    cases h1 : bitStep p d b with
    | error e => rw [h1] at hs; simp at hs
    | ok d1 =>
      rw [h1] at hs
      obtain ⟨g1, g2, g3⟩ := bitStep_sound h b h1
      obtain ⟨k1, k2, k3⟩ := ih g1 hs
      exact ⟨k1, k2.trans g2, k3.trans g3⟩

theorem decodeFrame_sound {p : Profile} {out : List Nat} (f : Frame) {d d' : Decoder} (h : Sound p out d)
    (hs : d.decodeFrame p f = .ok d') :
    Sound p out d' ∧ d'.encodedData = d.encodedData ∧ d'.encodedDataPos = d.encodedDataPos := by
  cases f with
  | bitmap bs =>
    simp only [decodeFrame, decodeBitmap_eq] at hs
    exact bitSteps_sound _ h hs
  | run n v =>
    simp only [decodeFrame, decodeRun] at hs
    split at hs
    · cases ha : p.add 32 d.bitmapPos (shl 32 n 3) with
      | error e => rw [ha] at hs; simp at hs
      | ok k =>
        rw [ha] at hs
        simp only [ok_bind, pure_eq_ok, Except.ok.injEq] at hs
        subst hs
        refine ⟨h.setPos k ?_, rfl, rfl⟩
        intro hp; subst hp; have := add_debug ha; omega
    · split at hs
      · rw [onesLoop_eq] at hs; exact bitSteps_sound _ h hs
      · rw [bytesLoop_eq] at hs; exact bitSteps_sound _ h hs

theorem bitSteps_no_diverge (p : Profile) (bits : List Bool) : ∀ (d : Decoder), bitSteps p d bits ≠ .error .diverge := by
  induction bits with
  | nil => intro d; simp [bitSteps]
  | cons b bits ih =>
    intro d h
    simp only [bitSteps, List.foldlM_cons] at h
    cases h1 : bitStep p d b with
    | ok d1 => rw [h1] at h; exact ih d1 h
    | error e =>
      rw [h1] at h
      simp only [error_bind, Except.error.injEq] at h
      subst h
      have hadd : ∀ a b, p.add 32 a b ≠ .error .diverge := by
        intro a b; cases p <;> simp [Profile.add] <;> split <;> simp
      have hstore : d.store ≠ .error .diverge := by simp only [store]; split <;> simp
      have hsecond : ∀ d : Decoder, (do
          let pos ← p.add 32 d.bitmapPos 1
          return { d with bitmapPos := pos } : Res Decoder) ≠ .error .diverge := by
        intro d h
        cases ha : p.add 32 d.bitmapPos 1 with
        | ok v => rw [ha] at h; simp at h
        | error e =>
          rw [ha] at h; simp at h; subst h
          exact hadd _ _ ha
      cases b with
      | false => exact hsecond d h1
      | true =>
        simp only [bitStep, if_true] at h1
        cases hst : d.store with
        | error e => rw [hst] at h1; simp at h1; subst h1; exact hstore hst
        | ok d1 => rw [hst] at h1; exact hsecond _ h1

theorem decodeFrame_no_diverge (p : Profile) (d : Decoder) (f : Frame) : d.decodeFrame p f ≠ .error .diverge := by
  cases f with
  | bitmap bs => simp only [decodeFrame, decodeBitmap_eq]; exact bitSteps_no_diverge _ _ _
  | run n v =>
    simp only [decodeFrame, decodeRun]
    split
    · cases p <;> simp [Profile.add] <;> split <;> simp
    · split
      · rw [onesLoop_eq]; exact bitSteps_no_diverge _ _ _
      · rw [bytesLoop_eq]; exact bitSteps_no_diverge _ _ _

theorem readFrame_sound {p : Profile} {out : List Nat} {d d' : Decoder} {f : Frame} (h : Sound p out d)
    (hs : d.readFrame p = .ok (d', f)) :
    Sound p out d' ∧ d'.encodedData = d.encodedData ∧ d.encodedDataPos < d'.encodedDataPos := by
  simp only [readFrame] at hs
  cases h1 : slice d.encodedData d.encodedDataPos d.encodedData.length with
  | error e => rw [h1] at hs; simp at hs
  | ok tail =>
    rw [h1] at hs
    simp only [ok_bind] at hs
    cases h2 : decodeVarint p tail with
    | error e => rw [h2] at hs; simp at hs
    | ok o =>
      rw [h2] at hs
      simp only [ok_bind] at hs
      cases o with
      | none => simp at hs
      | some hv =>
        obtain ⟨header, n⟩ := hv
        have hn : 1 ≤ n := (decode_some_pos h2).1
        simp only at hs
        split at hs
        · split at hs
          · cases h3 : slice d.encodedData (d.encodedDataPos + n) (d.encodedDataPos + n + header >>> 1) with
            | error e => rw [h3] at hs; simp at hs
            | ok bs =>
              rw [h3] at hs
              simp only [ok_bind, pure_eq_ok, Except.ok.injEq, Prod.mk.injEq] at hs
              obtain ⟨rfl, _⟩ := hs
              exact ⟨h.setEnc _, rfl, by simp only; omega⟩
          · cases h3 : index d.encodedData (d.encodedDataPos + n) with
            | error e => rw [h3] at hs; simp at hs
            | ok v =>
              rw [h3] at hs
              simp only [ok_bind, pure_eq_ok, Except.ok.injEq, Prod.mk.injEq] at hs
              obtain ⟨rfl, _⟩ := hs
              exact ⟨h.setEnc _, rfl, by simp only; omega⟩
        · simp at hs

theorem readFrame_no_diverge (p : Profile) (d : Decoder) : d.readFrame p ≠ .error .diverge := by
  intro hs
  simp only [readFrame] at hs
  cases h1 : slice d.encodedData d.encodedDataPos d.encodedData.length with
  | error e =>
    rw [h1] at hs
    simp only [slice] at h1
    split at h1 <;> simp at h1
    subst h1; simp at hs
  | ok tail =>
    rw [h1] at hs
    simp only [ok_bind] at hs
    cases h2 : decodeVarint p tail with
    | error e =>
      rw [h2] at hs
      have := decode_error h2
      subst this
      simp at hs
    | ok o =>
      rw [h2] at hs
      simp only [ok_bind] at hs
      cases o with
      | none => simp at hs
      | some hv =>
        obtain ⟨header, n⟩ := hv
        simp only at hs
        split at hs
        · split at hs
          · simp only [slice] at hs
            split at hs <;> simp at hs
          · simp only [index] at hs
            split at hs <;> simp at hs
        · simp at hs

theorem decodeLoop_sound {p : Profile} {out : List Nat} : ∀ (fuel : Nat) (d : Decoder) (_ : Sound p out d)
    (_ : d.encodedData.length ≤ fuel + d.encodedDataPos),
    decodeLoop p fuel d ≠ .error .diverge ∧ ∀ d', decodeLoop p fuel d = .ok d' → Sound p out d' := by
  intro fuel
  induction fuel with
  | zero =>
    intro d h hf
    rw [decodeLoop, if_neg (by omega)]
    refine ⟨by simp, ?_⟩
    intro d' hd; simp at hd; subst hd; exact h
  | succ fuel ih =>
    intro d h hf
    rw [decodeLoop]
    by_cases hlt : d.encodedDataPos < d.encodedData.length
    · rw [if_pos hlt]
      simp only
      cases h1 : d.readFrame p with
      | error e =>
        refine ⟨?_, by simp⟩
        have := readFrame_no_diverge p d
        rw [h1] at this
        simpa using this
      | ok df =>
        obtain ⟨d1, f⟩ := df
        obtain ⟨g1, g2, g3⟩ := readFrame_sound h h1
        simp only [ok_bind]
        cases h2 : d1.decodeFrame p f with
        | error e =>
          refine ⟨?_, by simp⟩
          have := decodeFrame_no_diverge p d1 f
          rw [h2] at this
          simpa using this
        | ok d2 =>
          obtain ⟨k1, k2, k3⟩ := decodeFrame_sound f g1 h2
          simp only [ok_bind]
          exact ih d2 k1 (by rw [k2, k3, g2]; omega)
    · rw [if_neg hlt]
      refine ⟨by simp, ?_⟩
      intro d' hd; simp at hd; subst hd; exact h

theorem new_sound (p : Profile) (enc : Bytes) (out : List Nat) : Sound p out (Decoder.new enc out) where
  len := rfl
  pos := Nat.zero_le _
  tail := rfl
  sorted _ := by simp [new]
  below _ := by simp [new]

end Decoder
end Meerkat.Rle
