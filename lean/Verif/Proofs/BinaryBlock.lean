import Verif.Model.BinaryEnc
import Verif.Spec.BinaryBlock
import Verif.Proofs.PrimitiveBlock
import Verif.Proofs.Offsets

set_option autoImplicit false

/-! # One binary block: what is written and how it reads back -/

namespace Meerkat.BinaryEnc
open Spec Varint

/-- The bytes of the block holding the items of `rows` and the validity bits `bits`. -/
def blockWith (nullable : Bool) (rows : List (Option Bytes)) (bits : List Bool) : Bytes :=
  varintBytes (byteCount rows) ++ (valuesOf rows).flatten ++
    Offsets.offsetBytes ((valuesOf rows).map List.length) ++
    if nullable then Rle.rleBytes bits else []

/-- The bytes of the block holding the items and validity bits of `rows`. -/
def blockBytes (nullable : Bool) (rows : List (Option Bytes)) : Bytes :=
  varintBytes (byteCount rows) ++ (valuesOf rows).flatten ++
    Offsets.offsetBytes ((valuesOf rows).map List.length) ++
    if nullable then Rle.rleBytes (validityOf rows) else []

theorem blockWith_validityOf (nullable : Bool) (rows : List (Option Bytes)) :
    blockWith nullable rows (validityOf rows) = blockBytes nullable rows := rfl

/-! ## Reading back -/

theorem natOfBits_testBit (x b : Nat) : natOfBits x.testBit b = x % 2 ^ b := by
  induction b with
  | zero => simp [natOfBits, Nat.mod_one]
  | succ b ih =>
    rw [natOfBits, ih, Nat.mod_pow_succ, Nat.testBit_eq_decide_div_mod_eq]
    rcases Nat.mod_two_eq_zero_or_one (x / 2 ^ b) with h | h <;> simp [h]

theorem natOfBits_congr {f g : Nat → Bool} {b : Nat} (h : ∀ c, c < b → f c = g c) :
    natOfBits f b = natOfBits g b := by
  induction b with
  | zero => rfl
  | succ b ih => rw [natOfBits, natOfBits, ih (fun c hc => h c (by omega)), h b (by omega)]

theorem cut_flatten (vs : List Bytes) : cut (vs.map List.length) vs.flatten = some vs := by
  induction vs with
  | nil => rfl
  | cons v vs ih =>
    rw [List.map_cons, List.flatten_cons, cut, if_pos (by simp), List.drop_left, List.take_left, ih]
    rfl

/-- What reading the packed lengths gives back. -/
theorem unpack_offsetBytes (xs : List Nat) (h128 : xs.length ≤ 128) (hr : ReadableLengths xs) :
    unpack (Offsets.width xs) xs.length
      ((Offsets.pack (Offsets.width xs) (xs ++ List.replicate (128 - xs.length) 0)).take
        ((xs.length * Offsets.width xs + 7) / 8)) = xs := by
  obtain ⟨b, hw, hfit⟩ := hr
  have hb := (Offsets.width_eq_iff xs b).mpr hw
  subst hb
  apply List.ext_getElem
  · simp [unpack]
  · intro i h1 h2
    simp only [unpack, List.getElem_map, List.getElem_range]
    have hx : xs[i] < 2 ^ Offsets.width xs := hw.1 _ (List.getElem_mem ..)
    rw [natOfBits_congr (g := xs[i].testBit), natOfBits_testBit, Nat.mod_eq_of_lt hx]
    intro c hc
    have hp := Offsets.bytePos_lt (Offsets.width xs) i c (by omega) hc
    have hgd : xs.getD i 0 = xs[i] := by simp [h2]
    by_cases hlt : bytePos (Offsets.width xs) i c < (xs.length * Offsets.width xs + 7) / 8
    · have hget : (List.take ((xs.length * Offsets.width xs + 7) / 8)
          (Offsets.pack (Offsets.width xs) (xs ++ List.replicate (128 - xs.length) 0)))[bytePos (Offsets.width xs) i c]? =
          some (Offsets.byteOf (Offsets.packBit (Offsets.width xs) (xs ++ List.replicate (128 - xs.length) 0)
            (bytePos (Offsets.width xs) i c))) := by
        rw [List.getElem?_take_of_lt hlt]
        simp [Offsets.pack, hp]
      rw [List.getD_eq_getElem?_getD, hget, Option.getD_some, Offsets.byteOf_testBit _ (by omega),
        Offsets.packBit_bytePos _ _ _ _ hc]
      rw [List.getD_eq_getElem?_getD, List.getElem?_append_left h2]
      simp [h2]
    · have hnb : xs[i].testBit c = false := by
        cases hbit : xs[i].testBit c with
        | false => rfl
        | true => exact absurd (hfit i c h2 (by rw [hgd]; exact hbit)) hlt
      rw [List.getD_eq_getElem?_getD, List.getElem?_eq_none (by rw [List.length_take]; omega), hnb]
      simp

theorem rows_of_nonnull {rows : List (Option Bytes)} (h : none ∉ rows) : (valuesOf rows).map some = rows := by
  induction rows with
  | nil => rfl
  | cons r rows ih =>
    cases r with
    | none => simp at h
    | some v =>
      have := ih (fun h' => h (List.mem_cons_of_mem _ h'))
      have e2 : valuesOf (some v :: rows) = v :: valuesOf rows := rfl
      rw [e2, List.map_cons, this]

theorem splitBlock_blockBytes (q : Profile) (nullable : Bool) (rows : List (Option Bytes))
    (hsize : byteCount rows < 2 ^ 32) (h128 : (valuesOf rows).length ≤ 128) :
    splitBlock q (valuesOf rows).length (blockBytes nullable rows) =
      some ((valuesOf rows).flatten, Offsets.width ((valuesOf rows).map List.length),
        (Offsets.pack (Offsets.width ((valuesOf rows).map List.length)) ((valuesOf rows).map List.length ++
          List.replicate (128 - ((valuesOf rows).map List.length).length) 0)).take
            ((((valuesOf rows).map List.length).length * Offsets.width ((valuesOf rows).map List.length) + 7) / 8),
        if nullable then Rle.rleBytes (validityOf rows) else []) := by
  have hw : Offsets.width ((valuesOf rows).map List.length) ≤ 32 := by
    apply Offsets.width_le_32
    intro x hx
    obtain ⟨v, hv, rfl⟩ := List.mem_map.mp hx
    have := (List.sublist_flatten_of_mem hv).length_le
    unfold byteCount at hsize
    omega
  have hb : blockBytes nullable rows = varintBytes (byteCount rows) ++ ((valuesOf rows).flatten ++
    (Offsets.offsetBytes ((valuesOf rows).map List.length) ++
    if nullable then Rle.rleBytes (validityOf rows) else [])) := by
    simp [blockBytes]
  have hd : ∀ t : Bytes, ((valuesOf rows).flatten ++ t).take (byteCount rows) = (valuesOf rows).flatten := by
    intro t; rw [byteCount, List.take_left]
  have hd2 : ∀ t : Bytes, ((valuesOf rows).flatten ++ t).drop (byteCount rows) = t := by
    intro t; rw [byteCount, List.drop_left]
  rw [splitBlock, hb, decode_varintBytes q (by omega)]
  simp only [List.drop_left, hd]
  rw [← List.drop_drop, List.drop_left, hd2]
  generalize hxs : (valuesOf rows).map List.length = xs at *
  have hxl : xs.length = (valuesOf rows).length := by rw [← hxs, List.length_map]
  have htn : (UInt8.ofNat (Offsets.width xs)).toNat = Offsets.width xs := by
    rw [UInt8.toNat_ofNat']; omega
  have hceil : Util.ceil8 (Offsets.width xs * xs.length) = ((valuesOf rows).length * Offsets.width xs + 7) / 8 := by
    rw [Util.ceil8_eq, Nat.mul_comm, hxl]
  have hplen : ((Offsets.pack (Offsets.width xs) (xs ++ List.replicate (128 - xs.length) 0)).take
      (((valuesOf rows).length * Offsets.width xs + 7) / 8)).length =
      ((valuesOf rows).length * Offsets.width xs + 7) / 8 := by
    rw [List.length_take, Offsets.pack_length, Nat.min_eq_left]
    have h : (valuesOf rows).length * Offsets.width xs ≤ 128 * Offsets.width xs := Nat.mul_le_mul_right _ h128
    omega
  rw [Offsets.offsetBytes, List.cons_append]
  simp only [htn, hceil]
  generalize hP : ((Offsets.pack (Offsets.width xs) (xs ++ List.replicate (128 - xs.length) 0)).take
      (((valuesOf rows).length * Offsets.width xs + 7) / 8)) = P at *
  have ht : ∀ t : Bytes, (P ++ t).take (((valuesOf rows).length * Offsets.width xs + 7) / 8) = P := by
    intro t; rw [← hplen, List.take_left]
  have ht2 : ∀ t : Bytes, (P ++ t).drop (((valuesOf rows).length * Offsets.width xs + 7) / 8) = t := by
    intro t; rw [← hplen, List.drop_left]
  rw [hxl] at hP
  rw [ht, ht2, hxl, hP]

theorem blockData_blockWith (q : Profile) (nullable : Bool) (rows : List (Option Bytes)) (bits : List Bool)
    (hsize : byteCount rows < 2 ^ 32) :
    blockData q (blockWith nullable rows bits) = some (valuesOf rows).flatten := by
  have hb : blockWith nullable rows bits = varintBytes (byteCount rows) ++ ((valuesOf rows).flatten ++
    (Offsets.offsetBytes ((valuesOf rows).map List.length) ++
    if nullable then Rle.rleBytes bits else [])) := by
    simp [blockWith]
  rw [blockData, hb, decode_varintBytes q (by omega)]
  simp only [List.drop_left]
  rw [if_pos (by simp only [List.length_append]; unfold byteCount; omega), byteCount, List.take_left]

theorem blockData_blockBytes (q : Profile) (nullable : Bool) (rows : List (Option Bytes))
    (hsize : byteCount rows < 2 ^ 32) :
    blockData q (blockBytes nullable rows) = some (valuesOf rows).flatten :=
  blockData_blockWith q nullable rows _ hsize

theorem readPositions_blockBytes (q : Profile) (rows : List (Option Bytes)) (hlen : rows.length < 2 ^ 32 - 7)
    (hsize : byteCount rows < 2 ^ 32) (h128 : (valuesOf rows).length ≤ 128) :
    readPositions q (valuesOf rows).length (blockBytes true rows) = some (setPositions (validityOf rows)) := by
  rw [readPositions, splitBlock_blockBytes q true rows hsize h128]
  obtain ⟨d, h3, h4⟩ := Rle.Decoder.decode_rleBytes q (validityOf rows)
    (List.replicate (valuesOf rows).length 0) (by simpa using hlen) (by simp [count_validityOf])
  have hdec : Rle.decode q (Rle.rleBytes (validityOf rows)) (List.replicate (valuesOf rows).length 0) =
      .ok (setPositions (validityOf rows)) := by
    simp only [Rle.decode, h3, ok_bind, pure_eq_ok, h4, count_validityOf]
    simp
  simp only [if_true, hdec]
  rfl

theorem readBinary_blockBytes (q : Profile) (nullable : Bool) (rows : List (Option Bytes))
    (hend : EndsWithValue rows) (hacc : Accepts nullable rows) (hlen : rows.length < 2 ^ 32 - 7)
    (hsize : byteCount rows < 2 ^ 32) (h128 : (valuesOf rows).length ≤ 128)
    (hr : ReadableLengths ((valuesOf rows).map List.length)) :
    readBinary q nullable (valuesOf rows).length (blockBytes nullable rows) = some rows := by
  rw [readBinary, splitBlock_blockBytes q nullable rows hsize h128]
  have hun := unpack_offsetBytes ((valuesOf rows).map List.length) (by simpa using h128) hr
  have hl : ((valuesOf rows).map List.length).length = (valuesOf rows).length := List.length_map ..
  rw [hl] at hun ⊢
  simp only [hun, cut_flatten]
  cases nullable with
  | false =>
    have hn : none ∉ rows := by
      rcases hacc with h | h
      · cases h
      · exact h
    simp [rows_of_nonnull hn]
  | true =>
    simp only [if_true, readPositions_blockBytes q rows hlen hsize h128]
    rw [Rle.setPositions_eq]
    exact PrimitiveEnc.placeRows_eq rows 0 hend

end Meerkat.BinaryEnc
