import Verif.Props.BinaryExact

set_option autoImplicit false

/-! # Which blocks of byte strings determine their rows at all (C31)

`C31_binary_block_exact` is about the reader of `Spec/BinaryBlock.lean`, which takes the bits that were dropped for zero.
A cleverer reader can use more: the number of data bytes is the sum of the lengths. Here no reader is fixed. A block
determines its rows when no other rows with as many items have the same block. -/

namespace Meerkat
open Spec BinaryEnc

namespace Spec

/-- Two lists of lengths that the offsets kept and the number of data bytes do not tell apart. -/
def Alike (xs ys : List Nat) : Prop :=
  ys.length = xs.length ∧ ys.sum = xs.sum ∧ ∃ b, Width xs b ∧ Width ys b ∧
    ∀ i c, i < xs.length → c < b → bytePos b i c < (xs.length * b + 7) / 8 →
      (ys.getD i 0).testBit c = (xs.getD i 0).testBit c

/-- The block of all rows of a buffer built through the API. -/
def blockAlone (p : Profile) (nullable : Bool) (rows : List (Option Bytes)) : Option Bytes :=
  match (BinaryBuffer.new nullable).pushAll rows with
  | .error _ => none
  | .ok b =>
    match encodeBinaryBuffer p b
        { startPos := 0, endPos := (valuesOf rows).length, startOffset := 0, endOffset := (valuesOf rows).flatten.length,
          size := (valuesOf rows).flatten.length, len := (valuesOf rows).length } 0 (Rle.Encoder.new) with
    | .error _ => none
    | .ok r => some r.data

end Spec

namespace AnyReader

/-- The bytes of a packed list depend on the bits that are kept only. -/
theorem offsetBytes_alike {xs ys : List Nat} (hl : ys.length = xs.length) (h128 : xs.length ≤ 128)
    (hw : Offsets.width ys = Offsets.width xs)
    (hbits : ∀ i c, i < xs.length → c < Offsets.width xs →
      bytePos (Offsets.width xs) i c < (xs.length * Offsets.width xs + 7) / 8 →
      (ys.getD i 0).testBit c = (xs.getD i 0).testBit c) :
    Offsets.offsetBytes ys = Offsets.offsetBytes xs := by
  simp only [Offsets.offsetBytes, hw, hl]
  congr 1
  apply List.ext_getElem
  · simp
  · intro k h1 h2
    simp only [Offsets.pack, List.length_take, List.length_map, List.length_range] at h1
    simp only [Offsets.pack, List.getElem_take, List.getElem_map, List.getElem_range]
    apply Offsets.byteOf_congr
    intro s hs
    have hb : 0 < Offsets.width xs := by omega
    simp only [Offsets.packBit]
    generalize hL : 32 * (k / 16) + 8 * (k % 4) + s = L
    generalize hi : 4 * (L / Offsets.width xs) + k % 16 / 4 = i
    have hpos : bytePos (Offsets.width xs) i (L % Offsets.width xs) = k := by
      have h3 : i / 4 = L / Offsets.width xs := by omega
      have h4 : (i / 4) * Offsets.width xs + L % Offsets.width xs = L := by
        rw [h3, Nat.mul_comm]; exact Nat.div_add_mod L _
      simp only [bytePos, h4]
      omega
    by_cases hix : i < xs.length
    · have := hbits i (L % Offsets.width xs) hix (Nat.mod_lt _ hb) (by
        rw [hpos, Nat.mul_comm]
        rw [Util.ceil8_eq] at h1
        omega)
      simp only [List.getD_eq_getElem?_getD] at this ⊢
      rw [List.getElem?_append_left (by omega), List.getElem?_append_left hix, this]
    · simp only [List.getD_eq_getElem?_getD]
      rw [List.getElem?_append_right (by omega), List.getElem?_append_right (by omega), hl]

/-- Bytes cut in pieces of given lengths. -/
theorem recut : ∀ (lens : List Nat) (data : Bytes), lens.sum = data.length →
    ∃ vs : List Bytes, vs.map List.length = lens ∧ vs.flatten = data
  | [], data, h => ⟨[], rfl, by simpa using h.symm⟩
  | l :: ls, data, h => by
    rw [List.sum_cons] at h
    obtain ⟨vs, h1, h2⟩ := recut ls (data.drop l) (by rw [List.length_drop]; omega)
    refine ⟨data.take l :: vs, ?_, ?_⟩
    · rw [List.map_cons, h1, List.length_take, Nat.min_eq_left (by omega)]
    · rw [List.flatten_cons, h2, List.take_append_drop]

/-- Other values at the same places. -/
theorem replaced {α : Type} : ∀ (rows : List (Option α)) (vs : List α), vs.length = (valuesOf rows).length →
    ∃ rows' : List (Option α), valuesOf rows' = vs ∧ validityOf rows' = validityOf rows
  | [], vs, h => ⟨[], by cases vs with | nil => rfl | cons v vs => simp [valuesOf] at h, rfl⟩
  | none :: rows, vs, h => by
    obtain ⟨rows', h1, h2⟩ := replaced rows vs (by simpa [valuesOf] using h)
    exact ⟨none :: rows', by simpa [valuesOf] using h1, by simpa [validityOf] using h2⟩
  | some v :: rows, [], h => by simp [valuesOf] at h
  | some v :: rows, w :: vs, h => by
    obtain ⟨rows', h1, h2⟩ := replaced rows vs (by simpa [valuesOf] using h)
    exact ⟨some w :: rows', by simpa [valuesOf] using h1, by simpa [validityOf] using h2⟩

theorem ends_of_validity {rows rows' : List (Option Bytes)} (h : validityOf rows' = validityOf rows)
    (hr : ∃ l v, rows = l ++ [some v]) : ∃ l v, rows' = l ++ [some v] := by
  obtain ⟨l, v, rfl⟩ := hr
  have hne : rows' ≠ [] := by rintro rfl; simp [validityOf] at h
  have h1 : (validityOf rows').getLast? = some true := by rw [h]; simp [validityOf]
  rw [validityOf, List.getLast?_map, List.getLast?_eq_some_getLast hne] at h1
  simp only [Option.map_some, Option.some.injEq] at h1
  obtain ⟨w, hw⟩ := Option.isSome_iff_exists.mp h1
  exact ⟨rows'.dropLast, w, by rw [← hw, List.dropLast_concat_getLast hne]⟩

theorem accepts_of_validity {nullable : Bool} {rows rows' : List (Option Bytes)} (h : validityOf rows' = validityOf rows)
    (hr : Accepts nullable rows) : Accepts nullable rows' := by
  rcases hr with hr | hr
  · exact .inl hr
  · refine .inr fun hn => hr ?_
    have : false ∈ validityOf rows := by rw [← h]; exact List.mem_map.mpr ⟨none, hn, rfl⟩
    obtain ⟨x, hx, hxn⟩ := List.mem_map.mp this
    rw [Option.isSome_eq_false_iff, Option.isNone_iff_eq_none] at hxn
    rwa [← hxn]

theorem rows_ext {α : Type} : ∀ {a b : List (Option α)}, validityOf a = validityOf b → valuesOf a = valuesOf b → a = b
  | [], [], _, _ => rfl
  | [], b :: bs, h, _ => by simp [validityOf] at h
  | a :: as, [], h, _ => by simp [validityOf] at h
  | none :: as, none :: bs, h, h' => by
    rw [rows_ext (a := as) (b := bs) (by simpa [validityOf] using h) (by simpa [valuesOf] using h')]
  | none :: as, some b :: bs, h, _ => by simp [validityOf] at h
  | some a :: as, none :: bs, h, _ => by simp [validityOf] at h
  | some a :: as, some b :: bs, h, h' => by
    have h1 : a = b ∧ valuesOf as = valuesOf bs := by simpa [valuesOf] using h'
    rw [h1.1, rows_ext (a := as) (b := bs) (by simpa [validityOf] using h) h1.2]

theorem blockAlone_eq (p : Profile) (nullable : Bool) (rows : List (Option Bytes)) (hacc : Accepts nullable rows)
    (hend : ∃ l v, rows = l ++ [some v]) (hlen : rows.length < 2 ^ 32) (hsize : byteCount rows < 2 ^ 32)
    (h128 : (valuesOf rows).length ≤ 128) : blockAlone p nullable rows = some (blockBytes nullable rows) := by
  have hU : U32_MAX = 2 ^ 32 - 1 := rfl
  have hb := BinaryBuffer.new_pushAll nullable rows hacc (by unfold BinaryBuffer.dataLen; unfold byteCount at hsize; omega)
  have h1 : 1 ≤ (valuesOf rows).length := by
    obtain ⟨l, v, rfl⟩ := hend; simp [valuesOf]
  have hend' : EndsWithValue rows := by
    obtain ⟨l, v, rfl⟩ := hend; simp [EndsWithValue]
  have hsrc := holds_ofRows nullable ([] ++ rows ++ [])
  obtain ⟨be', ds, h⟩ := encodeBinaryBuffer_ok p hsrc 0 (hsrc.shows_mid hacc hend') Rle.Encoder.new
    (by rw [validityOf_length]; omega) (by omega) h1 h128
  rw [List.nil_append, List.append_nil] at h
  have hc : chunkOf [] rows =
      { startPos := 0, endPos := (valuesOf rows).length, startOffset := 0, endOffset := (valuesOf rows).flatten.length,
        size := (valuesOf rows).flatten.length, len := (valuesOf rows).length } := rfl
  rw [hc] at h
  simp only [blockAlone, hb, h]
  rfl

theorem blockAlone_some {p : Profile} {nullable : Bool} {rows : List (Option Bytes)} {block : Bytes}
    (h : blockAlone p nullable rows = some block) : Accepts nullable rows ∧ byteCount rows < 2 ^ 32 := by
  unfold blockAlone at h
  split at h
  · cases h
  · rename_i b hb
    obtain ⟨hA, hd, _⟩ := BinaryBuffer.new_pushAll_ok hb
    have hU : U32_MAX = 2 ^ 32 - 1 := rfl
    refine ⟨hA, ?_⟩
    unfold byteCount
    unfold BinaryBuffer.dataLen at hd
    omega

/-- Other lengths that are alike give other rows with the same block. -/
theorem same_of_alike {nullable : Bool} {rows : List (Option Bytes)} {lens : List Nat} (h128 : (valuesOf rows).length ≤ 128)
    (h : Alike ((valuesOf rows).map List.length) lens) :
    ∃ rows' : List (Option Bytes), (valuesOf rows').map List.length = lens ∧ validityOf rows' = validityOf rows ∧
      rows'.length = rows.length ∧ byteCount rows' = byteCount rows ∧ (valuesOf rows').length = (valuesOf rows).length ∧
      blockBytes nullable rows' = blockBytes nullable rows := by
  obtain ⟨hl, hs, b, hb1, hb2, hbits⟩ := h
  have hsum : ((valuesOf rows).map List.length).sum = byteCount rows := by rw [byteCount, List.length_flatten]
  obtain ⟨vs, hv1, hv2⟩ := recut lens (valuesOf rows).flatten (by rw [hs, hsum]; rfl)
  obtain ⟨rows', hr1, hr2⟩ := replaced rows vs (by
    rw [← List.length_map (as := vs) List.length, hv1, hl, List.length_map])
  have hn : rows'.length = rows.length := by
    rw [← validityOf_length, hr2, validityOf_length]
  have hsz : byteCount rows' = byteCount rows := by rw [byteCount, hr1, hv2]; rfl
  have hcount : (valuesOf rows').length = (valuesOf rows).length := by
    rw [hr1, ← List.length_map (as := vs) List.length, hv1, hl, List.length_map]
  have hw1 := (Offsets.width_eq_iff _ _).mpr hb1
  have hw2 := (Offsets.width_eq_iff _ _).mpr hb2
  have hoff : Offsets.offsetBytes lens = Offsets.offsetBytes ((valuesOf rows).map List.length) :=
    offsetBytes_alike hl (by rw [List.length_map]; exact h128) (by rw [hw1, hw2]) (by
      rw [hw1]; exact hbits)
  refine ⟨rows', by rw [hr1, hv1], hr2, hn, hsz, hcount, ?_⟩
  simp only [blockBytes, hsz, hr1, hv1, hv2, hr2, hoff]

/-- Rows with the same block have lengths that are alike; if the lengths are the same, so are the items. -/
theorem alike_of_same {nullable : Bool} {rows rows' : List (Option Bytes)} (hsize : byteCount rows < 2 ^ 32)
    (hsize' : byteCount rows' < 2 ^ 32) (h128 : (valuesOf rows).length ≤ 128)
    (hcount : (valuesOf rows').length = (valuesOf rows).length)
    (hsame : blockBytes nullable rows' = blockBytes nullable rows) :
    Alike ((valuesOf rows).map List.length) ((valuesOf rows').map List.length) ∧
    ((valuesOf rows').map List.length = (valuesOf rows).map List.length → valuesOf rows' = valuesOf rows) := by
  have hdata : (valuesOf rows').flatten = (valuesOf rows).flatten := by
    have h1 := blockData_blockBytes .debug nullable rows hsize
    rw [← hsame, blockData_blockBytes .debug nullable rows' hsize'] at h1
    exact Option.some.inj h1
  have hsp := splitBlock_blockBytes .debug nullable rows hsize h128
  have hsp' := splitBlock_blockBytes .debug nullable rows' hsize' (by omega)
  rw [hcount, hsame, hsp, Option.some.injEq, Prod.mk.injEq, Prod.mk.injEq, Prod.mk.injEq] at hsp'
  obtain ⟨_, hw, hp, hval⟩ := hsp'
  have hoff : Offsets.offsetBytes ((valuesOf rows').map List.length) =
      Offsets.offsetBytes ((valuesOf rows).map List.length) := by
    simp only [Offsets.offsetBytes, Util.ceil8_eq]
    rw [Nat.mul_comm, ← hp, Nat.mul_comm (Offsets.width ((valuesOf rows).map List.length)), hw]
  refine ⟨⟨by simpa using hcount, ?_, _, (Offsets.width_eq_iff _ _).mp hw, (Offsets.width_eq_iff _ _).mp rfl, ?_⟩, fun hlens => ?_⟩
  · rw [← List.length_flatten, ← List.length_flatten, hdata]
  · intro i c hi hc hpos
    have hi' : i < ((valuesOf rows').map List.length).length := by
      rw [List.length_map, hcount]; simpa using hi
    have hll : ((valuesOf rows').map List.length).length = ((valuesOf rows).map List.length).length := by simpa using hcount
    obtain ⟨y1, g1, g2⟩ := Offsets.offsetBytes_bit _ i c hi' (by rw [List.length_map]; omega) hc (by
      rw [Util.ceil8_eq, Nat.mul_comm, hll]; exact hpos)
    obtain ⟨y2, k1, k2⟩ := Offsets.offsetBytes_bit _ i c hi (by rw [List.length_map]; omega) (by rw [hw]; exact hc) (by
      rw [Util.ceil8_eq, Nat.mul_comm, hw]; exact hpos)
    rw [hw, ← hoff, g1, Option.some.injEq] at k1
    rw [hw, ← k1, g2] at k2
    rw [List.getD_eq_getElem?_getD, List.getD_eq_getElem?_getD, List.getElem?_eq_getElem hi, List.getElem?_eq_getElem hi']
    exact k2
  · have h1 := cut_flatten (valuesOf rows')
    rw [hlens, hdata, cut_flatten] at h1
    exact (Option.some.inj h1).symm

end AnyReader

open AnyReader in
/-- C31, for any reader: rows are determined by their block and the number of their items if and only if no other lengths
with the same sum have the same width and the same bits in the bytes of the offsets that are kept. -/
theorem C31_any_reader_exact (p : Profile) (nullable : Bool) (rows : List (Option Bytes)) (block : Bytes)
    (hblock : blockAlone p nullable rows = some block) (hend : ∃ l v, rows = l ++ [some v])
    (hlen : rows.length < 2 ^ 32 - 7) (h128 : (valuesOf rows).length ≤ 128) :
    (∀ rows', (∃ l v, rows' = l ++ [some v]) → rows'.length < 2 ^ 32 - 7 →
        (valuesOf rows').length = (valuesOf rows).length → blockAlone p nullable rows' = some block → rows' = rows) ↔
      ∀ lens, Alike ((valuesOf rows).map List.length) lens → lens = (valuesOf rows).map List.length := by
  obtain ⟨hacc, hsize⟩ := blockAlone_some hblock
  rw [blockAlone_eq p nullable rows hacc hend (by omega) hsize h128, Option.some.injEq] at hblock
  constructor
  · intro h lens hal
    obtain ⟨rows', hv1, hr2, hn, hsz, hcount, hsame⟩ := same_of_alike (nullable := nullable) h128 hal
    have := h rows' (ends_of_validity hr2 hend) (by omega) hcount (by
      rw [blockAlone_eq p nullable rows' (accepts_of_validity hr2 hacc) (ends_of_validity hr2 hend) (by omega) (by omega)
        (by omega), hsame, hblock])
    rw [← hv1, this]
  · intro h rows' hend' hlen' hcount hblock'
    obtain ⟨hacc', hsize'⟩ := blockAlone_some hblock'
    rw [blockAlone_eq p nullable rows' hacc' hend' (by omega) hsize' (by omega), Option.some.injEq] at hblock'
    have hsame : blockBytes nullable rows' = blockBytes nullable rows := by rw [hblock', hblock]
    obtain ⟨hal, hval⟩ := alike_of_same hsize hsize' h128 hcount hsame
    have hvals := hval (h _ hal)
    cases nullable with
    | false =>
      have hn : ∀ {r : List (Option Bytes)}, Accepts false r → none ∉ r := fun h => h.resolve_left (by decide)
      rw [← rows_of_nonnull (hn hacc'), ← rows_of_nonnull (hn hacc), hvals]
    | true =>
      have h1 := readPositions_blockBytes .debug rows hlen hsize h128
      have h2 := readPositions_blockBytes .debug rows' hlen' hsize' (by omega)
      rw [hsame, hcount, h1, Option.some.injEq, Rle.setPositions_eq, Rle.setPositions_eq] at h2
      have e1 := PrimitiveEnc.placeRows_eq rows 0 (by obtain ⟨l, v, rfl⟩ := hend; simp [EndsWithValue])
      have e2 := PrimitiveEnc.placeRows_eq rows' 0 (by obtain ⟨l, v, rfl⟩ := hend'; simp [EndsWithValue])
      rw [h2, ← hvals, e2] at e1
      exact Option.some.inj e1

open AnyReader in
/-- Two items are always determined: the first length is kept and the second follows from the sum. -/
theorem C31_two_items (p : Profile) (nullable : Bool) (rows rows' : List (Option Bytes)) (block : Bytes)
    (h : blockAlone p nullable rows = some block) (h' : blockAlone p nullable rows' = some block)
    (hend : ∃ l v, rows = l ++ [some v]) (hend' : ∃ l v, rows' = l ++ [some v])
    (hlen : rows.length < 2 ^ 32 - 7) (hlen' : rows'.length < 2 ^ 32 - 7)
    (h2 : (valuesOf rows).length = 2) (h2' : (valuesOf rows').length = 2) : rows' = rows := by
  obtain ⟨_, hsize⟩ := blockAlone_some h
  refine (C31_any_reader_exact p nullable rows block h hend hlen (by omega)).2 ?_ rows' hend' hlen' (by omega) h'
  intro lens hl
  obtain ⟨x, y, hxy⟩ : ∃ x y, (valuesOf rows).map List.length = [x, y] := by
    generalize hv : valuesOf rows = v at h2
    match v, h2 with
    | [a, b], _ => exact ⟨a.length, b.length, rfl⟩
  rw [hxy] at hl ⊢
  obtain ⟨hn, hs, b, hb1, hb2, hbits⟩ := hl
  match lens, hn with
  | [x', y'], _ =>
    have hb32 : b ≤ 32 := by
      rw [← (Offsets.width_eq_iff _ _).mpr hb1]
      apply Offsets.width_le_32
      have hsum : ((valuesOf rows).map List.length).sum = byteCount rows := by rw [byteCount, List.length_flatten]
      rw [hxy] at hsum
      simp only [List.sum_cons, List.sum_nil] at hsum
      intro z hz
      simp only [List.mem_cons, List.not_mem_nil, or_false] at hz
      omega
    have hx : x' = x := by
      apply Nat.eq_of_testBit_eq
      intro c
      by_cases hc : c < b
      · exact hbits 0 c (by simp) hc (by simp only [bytePos, List.length_cons, List.length_nil]; omega)
      · have e : ∀ z, z < 2 ^ b → z < 2 ^ c := fun z hz => Nat.lt_of_lt_of_le hz (Nat.pow_le_pow_right (by omega) (by omega))
        rw [Nat.testBit_lt_two_pow (e _ (hb1.1 x (by simp))), Nat.testBit_lt_two_pow (e _ (hb2.1 x' (by simp)))]
    subst hx
    simp only [List.sum_cons, List.sum_nil] at hs
    have : y' = y := by omega
    rw [this]

/-- The two items whose lengths are not read back by the reader of `Spec/BinaryBlock.lean` are determined all the same;
three items need not be. -/
example (p : Profile) : blockAlone p false [some [1, 2], some [3]] = some [3, 1, 2, 3, 2, 2] ∧
    readBinary p false 2 [3, 1, 2, 3, 2, 2] ≠ some [some [1, 2], some [3]] ∧
    Alike [2, 1, 0] [2, 0, 1] ∧
    blockAlone p true [some [1, 2], none, some [3], some []] = blockAlone p true [some [1, 2], none, some [], some [3]] ∧
    blockAlone p true [some [1, 2], none, some [3], some []] ≠ none := by
  refine ⟨by cases p <;> decide +kernel, by cases p <;> decide +kernel, ⟨rfl, rfl, 2, ⟨by decide, .inr (by decide)⟩,
    ⟨by decide, .inr (by decide)⟩, fun i c hi hc => (by decide : ∀ i, i < 3 → ∀ c, c < 2 → bytePos 2 i c < 1 →
      ([2, 0, 1].getD i 0).testBit c = ([2, 1, 0].getD i 0).testBit c) i hi c hc⟩, by cases p <;> decide +kernel, by cases p <;> decide +kernel⟩

end Meerkat
