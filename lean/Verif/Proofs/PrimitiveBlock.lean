import Verif.Model.PrimitiveEnc
import Verif.Spec.PrimitiveBlock
import Verif.Proofs.ColumnRows
import Verif.Proofs.Varint
import Verif.Proofs.RleDecode

set_option autoImplicit false

/-! # One primitive block: what is written and how it reads back -/

namespace Meerkat.PrimitiveEnc
open Spec Varint
variable {α : Type} [Element α]

/-- The bytes of the block holding `rows`. -/
def blockBytes (nullable : Bool) (rows : List (Option α)) : Bytes :=
  varintBytes (Element.size α * (valuesOf rows).length) ++ toByteSlice (valuesOf rows) ++
    if nullable then Rle.rleBytes (validityOf rows) else []

omit [Element α] in
theorem encodeValidity_ok (p : Profile) (nullable : Bool) (pre mid post : List (Option α)) (pos : Nat)
    (be : Rle.Encoder) (hend : EndsWithValue mid) (hlen : mid.length < 2 ^ 64)
    (hpos : nullable = true → pos = pre.length) :
    ∃ be', encodeValidity p (validityOfBits nullable (validityOf (pre ++ mid ++ post))) pos
        (valuesOf mid).length be =
      .ok (⟨if nullable then pre.length + mid.length else (valuesOf mid).length,
            if nullable then pre.length + mid.length else 0⟩,
          if nullable then Rle.rleBytes (validityOf mid) else [], be') := by
  cases nullable with
  | false => exact ⟨be, rfl⟩
  | true =>
    have hpos := hpos rfl
    subst hpos
    have hdrop : (validityOf (pre ++ mid ++ post)).drop pre.length = validityOf (mid ++ post) := by
      rw [List.append_assoc, validityOf_append]
      rw [List.drop_append, List.drop_of_length_le (by simp)]; simp
    obtain ⟨e1, h1, hs1⟩ := Rle.Encoder.putAll_safe p (validityOf mid) _ (Rle.Encoder.clear_safe be)
    obtain ⟨e2, h2, _⟩ := Rle.Encoder.flush_safe p e1 hs1
    have hrun := Rle.run_eq p be (validityOf mid) (by simpa using hlen)
    rw [Rle.Encoder.run, h1] at hrun
    simp only [ok_bind, h2, pure_eq_ok, Except.ok.injEq] at hrun
    refine ⟨e2, ?_⟩
    simp only [encodeValidity, validityOfBits, if_true]
    rw [Rle.Encoder.putFrom_eq p (Bitmap.ofBits_reads _) _ (Rle.Encoder.clear_safe be), hdrop,
      takeSet_validityOf mid post hend]
    simp only [h1, ok_bind, h2, pure_eq_ok, hrun, validityOf_length]

theorem encodePrimitiveBuffer_ok (p : Profile) (nullable : Bool) (pre mid post : List (Option α))
    (pos : Nat) (be : Rle.Encoder) (hend : EndsWithValue mid) (hlen : mid.length < 2 ^ 60)
    (hpos : nullable = true → pos = pre.length) :
    ∃ be', encodePrimitiveBuffer p (PrimitiveBuffer.ofRows nullable (pre ++ mid ++ post))
        (valuesOf pre).length (valuesOf (pre ++ mid)).length pos be =
      .ok (⟨if nullable then pre.length + mid.length else (valuesOf mid).length,
            if nullable then pre.length + mid.length else 0⟩, blockBytes nullable mid, be') := by
  obtain ⟨be', hv⟩ := encodeValidity_ok p nullable pre mid post pos be hend (by omega) hpos
  refine ⟨be', ?_⟩
  have hl : (valuesOf (pre ++ mid)).length - (valuesOf pre).length = (valuesOf mid).length := by simp
  have hle := valuesOf_length_le mid
  have hsz := Element.size_eq (α := α)
  have hsz' : Element.size α * (valuesOf mid).length < 2 ^ 64 := by
    rcases hsz with h | h <;> rw [h] <;> omega
  simp only [encodePrimitiveBuffer, PrimitiveBuffer.ofRows]
  rw [Profile.sub_ok p (by simp), hl]
  simp only [ok_bind, putVarint_ok [] hsz', valuesOf_take_of_prefix, hv, pure_eq_ok, blockBytes,
    List.nil_append]

/-! ## Reading back -/

theorem toByteSlice_length (vs : List α) : (toByteSlice vs).length = Element.size α * vs.length := by
  induction vs with
  | nil => simp [toByteSlice]
  | cons v vs ih =>
    simp only [toByteSlice, List.flatMap_cons, List.length_append, Element.bytes_length,
      List.length_cons] at ih ⊢
    rw [ih, Nat.mul_add]; omega

theorem pieces_toByteSlice (vs : List α) (fuel : Nat) (hf : vs.length ≤ fuel) :
    (pieces (Element.size α) fuel (toByteSlice vs)).map Element.ofBytes = vs := by
  have hsz := Element.size_eq (α := α)
  induction vs generalizing fuel with
  | nil => cases fuel <;> simp [pieces, toByteSlice]
  | cons v vs ih =>
    obtain ⟨f, rfl⟩ : ∃ f, fuel = f + 1 := ⟨fuel - 1, by simp at hf; omega⟩
    have hb : toByteSlice (v :: vs) = Element.bytes v ++ toByteSlice vs := by simp [toByteSlice]
    have hl := Element.bytes_length v
    have hne : ¬ (Element.bytes v ++ toByteSlice vs) = [] := by
      intro h; have := congrArg List.length h; rw [List.length_append, List.length_nil] at this; omega
    rw [hb, pieces, if_neg hne]
    have ht : (Element.bytes v ++ toByteSlice vs).take (Element.size α) = Element.bytes v := by
      rw [← hl, List.take_left]
    have hd : (Element.bytes v ++ toByteSlice vs).drop (Element.size α) = toByteSlice vs := by
      rw [← hl, List.drop_left]
    rw [ht, hd, List.map_cons, ih f (by simpa using hf), Element.ofBytes_bytes]

omit [Element α] in
theorem placeRows_none {at_ : Nat} {ps : List Nat} {vs : List α} (hp : ∀ q ∈ ps, at_ < q)
    (hne : ps ≠ []) : placeRows at_ ps vs = (placeRows (at_ + 1) ps vs).map (none :: ·) := by
  cases ps with
  | nil => exact absurd rfl hne
  | cons q ps =>
    cases vs with
    | nil => rfl
    | cons v vs =>
      have hq := hp q (List.mem_cons_self ..)
      simp only [placeRows]
      rw [if_pos (by omega), if_pos (by omega : at_ + 1 ≤ q)]
      have : q - at_ = (q - (at_ + 1)) + 1 := by omega
      rw [this, List.replicate_succ]
      cases placeRows (q + 1) ps vs <;> simp

omit [Element α] in
theorem posFrom_gt (b : Nat) (l : List Bool) : ∀ q ∈ Rle.posFrom b l, b ≤ q := by
  induction l generalizing b with
  | nil => simp [Rle.posFrom]
  | cons x l ih =>
    intro q hq
    cases x with
    | true =>
      simp only [Rle.posFrom, List.mem_cons] at hq
      rcases hq with rfl | hq
      · omega
      · have := ih _ q hq; omega
    | false =>
      have := ih _ q hq; omega

omit [Element α] in
theorem placeRows_eq (rows : List (Option α)) (at_ : Nat) (h : EndsWithValue rows) :
    placeRows at_ (Rle.posFrom at_ (validityOf rows)) (valuesOf rows) = some rows := by
  induction rows generalizing at_ with
  | nil => rfl
  | cons r rows ih =>
    have h' : EndsWithValue rows := EndsWithValue.of_append (p := [r]) h
    cases r with
    | some v =>
      have e1 : Rle.posFrom at_ (validityOf (some v :: rows)) =
        at_ :: Rle.posFrom (at_ + 1) (validityOf rows) := rfl
      have e2 : valuesOf (some v :: rows) = v :: valuesOf rows := rfl
      rw [e1, e2, placeRows, if_pos (Nat.le_refl _), ih _ h']
      simp
    | none =>
      have e1 : Rle.posFrom at_ (validityOf (none :: rows)) =
        Rle.posFrom (at_ + 1) (validityOf rows) := rfl
      have e2 : valuesOf (none :: rows) = valuesOf rows := rfl
      rw [e1, e2, placeRows_none, ih _ h']
      · rfl
      · intro q hq; have := posFrom_gt _ _ q hq; omega
      · intro hnil
        have hc := Rle.posFrom_length (at_ + 1) (validityOf rows)
        rw [hnil, count_validityOf] at hc
        rcases h with h | ⟨v, h⟩
        · simp at h
        · have hm : v ∈ valuesOf (none :: rows) := by
            simp only [valuesOf, List.mem_filterMap, id]
            exact ⟨_, List.mem_of_getLast? h, rfl⟩
          rw [e2, List.eq_nil_of_length_eq_zero hc.symm] at hm
          simp at hm

theorem readPrimitive_blockBytes (q : Profile) (nullable : Bool) (rows : List (Option α))
    (hend : EndsWithValue rows) (hacc : Accepts nullable rows) (hlen : rows.length < 2 ^ 32 - 7) :
    readPrimitive q nullable (blockBytes nullable rows) = some rows := by
  have hle := valuesOf_length_le rows
  have hsz := Element.size_eq (α := α)
  have hsz' : Element.size α * (valuesOf rows).length < 2 ^ 64 := by
    rcases hsz with h | h <;> rw [h] <;> omega
  have hfuel : (valuesOf rows).length ≤ Element.size α * (valuesOf rows).length := by
    rcases hsz with h | h <;> rw [h] <;> omega
  have hb : blockBytes nullable rows = varintBytes (Element.size α * (valuesOf rows).length) ++
      (toByteSlice (valuesOf rows) ++ if nullable then Rle.rleBytes (validityOf rows) else []) := by
    simp [blockBytes]
  have hd : ∀ t : Bytes, ((toByteSlice (valuesOf rows) ++ t).take
      (Element.size α * (valuesOf rows).length)) = toByteSlice (valuesOf rows) := by
    intro t; rw [← toByteSlice_length, List.take_left]
  have hd2 : ∀ t : Bytes, ((toByteSlice (valuesOf rows) ++ t).drop
      (Element.size α * (valuesOf rows).length)) = t := by
    intro t; rw [← toByteSlice_length, List.drop_left]
  rw [readPrimitive, hb, decode_varintBytes q hsz']
  simp only [List.drop_left, hd, toByteSlice_length]
  rw [← List.drop_drop, List.drop_left, hd2, pieces_toByteSlice _ _ hfuel]
  cases nullable with
  | false =>
    have hn : none ∉ rows := by
      rcases hacc with h | h
      · cases h
      · exact h
    have : (valuesOf rows).map some = rows := by
      clear hend hacc hlen hle hsz' hfuel hb hd hd2
      induction rows with
      | nil => rfl
      | cons r rows ih =>
        cases r with
        | none => simp at hn
        | some v =>
          have := ih (fun h => hn (List.mem_cons_of_mem _ h))
          have e2 : valuesOf (some v :: rows) = v :: valuesOf rows := rfl
          rw [e2, List.map_cons, this]
    simp [this]
  | true =>
    obtain ⟨d, h3, h4⟩ := Rle.Decoder.decode_rleBytes q (validityOf rows)
      (List.replicate (valuesOf rows).length 0) (by simpa using hlen) (by simp [count_validityOf])
    have hdec : Rle.decode q (Rle.rleBytes (validityOf rows)) (List.replicate (valuesOf rows).length 0) =
        .ok (setPositions (validityOf rows)) := by
      simp only [Rle.decode, h3, ok_bind, pure_eq_ok, h4, count_validityOf]
      simp
    simp only [if_true, hdec]
    rw [Rle.setPositions_eq]
    exact placeRows_eq rows 0 hend

end Meerkat.PrimitiveEnc
