import Verif.Proofs.PrimitiveWrap
import Verif.Proofs.BinaryHolds
import Verif.Spec.PrimitiveWritten

set_option autoImplicit false

/-! # The primitive encoder in release builds: buffers with stale validity bits, all block sizes -/

namespace Meerkat.PrimitiveEnc
open Spec BinaryEnc
variable {α : Type} [Element α]

/-- The buffer holds `rows`; the bits `stale` of its validity bitmap were set before. -/
structure PHolds (nullable : Bool) (stale : List Bool) (b : PrimitiveBuffer α) (rows : List (Option α)) : Prop where
  values : b.values = valuesOf rows
  validity : match nullable with
    | false => b.validity = none
    | true => ∃ bm, b.validity = some bm ∧ bm.Inv ∧ bm.len = rows.length ∧
        ∀ i, bm.bitAt i = ((validityOf rows).getD i false || stale.getD i false)

omit [Element α] in
theorem pholds_ofRows (nullable : Bool) (rows : List (Option α)) :
    PHolds nullable [] (PrimitiveBuffer.ofRows nullable rows) rows where
  values := rfl
  validity := by
    cases nullable with
    | false => rfl
    | true =>
      refine ⟨Bitmap.ofBits (validityOf rows), rfl, Bitmap.ofBits_inv _, ?_, fun i => ?_⟩
      · rw [Bitmap.ofBits_len, validityOf_length]
      · rw [Bitmap.ofBits_bitAt]; simp

omit [Element α] in
theorem PHolds.len {nullable : Bool} {st : List Bool} {b : PrimitiveBuffer α} {rows : List (Option α)}
    (h : PHolds nullable st b rows) : b.len = (valuesOf rows).length := by
  simp [PrimitiveBuffer.len, h.values]

omit [Element α] in
theorem PHolds.clear {nullable : Bool} {st : List Bool} {b : PrimitiveBuffer α} {rows : List (Option α)}
    (h : PHolds nullable st b rows) : PHolds nullable (afterClear st rows) b.clear [] where
  values := rfl
  validity := by
    have := h.validity
    cases nullable with
    | false => simp only [PrimitiveBuffer.clear]; rw [this]; rfl
    | true =>
      obtain ⟨bm, h1, _, _, h4⟩ := this
      refine ⟨bm.clear, by simp [PrimitiveBuffer.clear, h1], Bitmap.clear_inv _, rfl, fun i => ?_⟩
      have hcap : INITIAL_BITMAP_CAP = 1024 := rfl
      rw [Bitmap.clear_bitAt, h4, hcap, afterClear]
      by_cases hi : i < 8 * 1024
      · rw [List.getD_eq_getElem?_getD (l := List.take _ _), List.getElem?_take_of_lt hi,
          ← List.getD_eq_getElem?_getD, orBits_getD, Bool.or_comm]
        simp [hi]
      · rw [List.getD_eq_getElem?_getD (l := List.take _ _),
          List.getElem?_eq_none (by rw [List.length_take]; omega)]
        simp [hi]

omit [Element α] in
theorem PHolds.appendFrom {nullable : Bool} {st : List Bool} {dst : PrimitiveBuffer α}
    {ds : List (Option α)} (hd : PHolds nullable st dst ds) (pre mid post : List (Option α)) (pos : Nat)
    (hend : EndsWithValue mid) (hfit : (valuesOf (ds ++ mid)).length < U32_MAX)
    (hpos : nullable = true → pos = pre.length) :
    ∃ dst', dst.appendFrom (PrimitiveBuffer.ofRows nullable (pre ++ mid ++ post)) (valuesOf pre).length
        (valuesOf (pre ++ mid)).length pos =
      .ok (dst', if nullable then pre.length + mid.length else (valuesOf mid).length) ∧
      PHolds nullable st dst' (ds ++ mid) := by
  have hfit' : U32_MAX > (dst.values ++ valuesOf mid).length := by
    rw [hd.values, ← valuesOf_append]; exact hfit
  have hn : (valuesOf (pre ++ mid)).length - (valuesOf pre).length = (valuesOf mid).length := by simp
  have hsl : slice (PrimitiveBuffer.ofRows nullable (pre ++ mid ++ post)).values (valuesOf pre).length
      (valuesOf (pre ++ mid)).length = .ok (valuesOf mid) := valuesOf_take_of_prefix pre mid post
  simp only [PrimitiveBuffer.appendFrom, hsl, ok_bind, if_pos hfit', hn]
  have hdv := hd.validity
  have hsv := (pholds_ofRows nullable (pre ++ mid ++ post)).validity
  cases nullable with
  | false =>
    simp only at hdv hsv
    simp only [hdv, hsv, validityAppendFrom, ok_bind, pure_eq_ok, Bool.false_eq_true, if_false]
    refine ⟨_, rfl, ?_, rfl⟩
    simp [hd.values]
  | true =>
    obtain ⟨sm, hs1, hs2, hs3, hs4⟩ := hsv
    have hsr := reads_seenBits hs2 hs3 hs4
    rw [seenBits_nil] at hsr
    obtain ⟨dm, hd1, hd2, hd3, hd4⟩ := hdv
    have hdrop : (validityOf (pre ++ mid ++ post)).drop pre.length = validityOf (mid ++ post) := by
      rw [List.append_assoc, validityOf_append, ← validityOf_length pre, List.drop_left]
    obtain ⟨dm', a1, a2, a3, a4⟩ := Bitmap.appendAll_spec hd2 (validityOf mid)
    simp only [hd1, hs1, validityAppendFrom, Bitmap.appendFrom_eq hsr hd2, hpos rfl, hdrop,
      takeSet_validityOf mid post hend, a1, ok_bind, pure_eq_ok, if_true, validityOf_length]
    refine ⟨_, rfl, ?_, dm', rfl, a3, ?_, fun i => ?_⟩
    · simp [hd.values]
    · rw [a2, hd3, validityOf_length, List.length_append]
    · rw [a4, hd3, hd4, validityOf_length, validityOf_append]
      simp only [List.getD_eq_getElem?_getD]
      by_cases h1 : i < ds.length
      · rw [if_neg (by omega), List.getElem?_append_left (by rw [validityOf_length]; exact h1)]
      · have hnone : (validityOf ds)[i]? = none := List.getElem?_eq_none (by rw [validityOf_length]; omega)
        rw [List.getElem?_append_right (by rw [validityOf_length]; omega), validityOf_length, hnone]
        by_cases h2 : i < ds.length + mid.length
        · rw [if_pos (by omega)]; simp
        · rw [if_neg (by omega), List.getElem?_eq_none (l := validityOf mid) (by rw [validityOf_length]; omega)]

omit [Element α] in
theorem PHolds.shows {nullable : Bool} {st : List Bool} {b : PrimitiveBuffer α} {rows : List (Option α)}
    (hb : PHolds nullable st b rows) (hacc : Accepts nullable rows) :
    Shows nullable b.validity 0 (valuesOf rows).length (writtenBits nullable st rows) := by
  have hv := hb.validity
  cases nullable with
  | false =>
    refine ⟨hv, ?_⟩
    rcases hacc with h | h
    · cases h
    · simp [writtenBits, validityOf_length, valuesOf_length_of_no_none h]
  | true =>
    obtain ⟨bm, h1, h2, h3, h4⟩ := hv
    refine ⟨bm, _, h1, reads_seenBits h2 h3 h4, ?_⟩
    obtain ⟨bits, h⟩ := takeSet_seenBits st rows
    simp only [List.drop_zero, writtenBits, if_true, h, Option.getD_some]

/-! ## The block of everything held back -/

omit [Element α] in
theorem rebuild_of_count (bits : List Bool) : ∀ vs : List α, bits.count true = vs.length →
    ∃ rows, rebuild bits vs = some rows ∧ validityOf rows = bits ∧ valuesOf rows = vs := by
  induction bits with
  | nil => intro vs h; cases vs <;> simp at h; exact ⟨[], rfl, rfl, rfl⟩
  | cons b bits ih =>
    intro vs h
    cases b with
    | false =>
      obtain ⟨rows, h1, h2, h3⟩ := ih vs (by simpa using h)
      exact ⟨none :: rows, by simp [rebuild, h1], by simp [validityOf] at h2 ⊢; exact h2, by simpa [valuesOf] using h3⟩
    | true =>
      cases vs with
      | nil => simp at h
      | cons v vs =>
        obtain ⟨rows, h1, h2, h3⟩ := ih vs (by simpa using h)
        exact ⟨some v :: rows, by simp [rebuild, h1], by simp [validityOf] at h2 ⊢; exact h2, by simpa [valuesOf] using h3⟩

omit [Element α] in
theorem wholePiece_spec (nullable : Bool) (st : List Bool) {rows : List (Option α)} (hacc : Accepts nullable rows)
    (hend : EndsWithValue rows) :
    validityOf (wholePiece nullable st rows).rows = writtenBits nullable st rows ∧
    valuesOf (wholePiece nullable st rows).rows = valuesOf rows ∧
    (wholePiece nullable st rows).counted = (writtenBits nullable st rows).length ∧
    Accepts nullable (wholePiece nullable st rows).rows ∧ EndsWithValue (wholePiece nullable st rows).rows := by
  rw [writtenBits_upto]
  cases nullable with
  | false =>
    refine ⟨rfl, rfl, ?_, hacc, hend⟩
    rcases hacc with h | h
    · cases h
    · simp [wholePiece, validityOf_length, valuesOf_length_of_no_none h]
  | true =>
    obtain ⟨bits, hb⟩ := takeSet_seenBits st rows
    have hu := takeSet_upto _ _ _ hb
    have hs := (takeSet_spec _ _ _).mp hb
    obtain ⟨r, h1, h2, h3⟩ := rebuild_of_count bits (valuesOf rows) hs.count
    simp only [wholePiece, if_true, ← hu, h1, Option.getD_some]
    refine ⟨h2, h3, trivial, .inl rfl, ?_⟩
    rcases List.eq_nil_or_concat r with rfl | ⟨r', x, rfl⟩
    · exact .inl rfl
    · cases x with
      | some v => exact .inr ⟨v, by simp⟩
      | none =>
        exfalso
        have hx : bits = validityOf r' ++ [false] := by rw [← h2]; simp [validityOf]
        rcases hs.ends with h | h
        · rw [hx] at h; simp at h
        · rw [hx] at h; simp at h

/-- The blocks given to the sink. -/
def pieceBlocks (nullable : Bool) : Nat → List (Piece α) → List (Nat × Bytes)
  | _, [] => []
  | n, x :: xs => (n + x.counted - 1, blockBytes nullable x.rows) :: pieceBlocks nullable (n + x.counted) xs

theorem encodeWhole_ok (p : Profile) {nullable : Bool} {st : List Bool} {b : PrimitiveBuffer α} {rows : List (Option α)}
    (hb : PHolds nullable st b rows) (hacc : Accepts nullable rows) (hend : EndsWithValue rows)
    (hlen : rows.length < 2 ^ 60) (be : Rle.Encoder) :
    ∃ be' x, encodePrimitiveBuffer p b 0 b.len 0 be =
      .ok (⟨(wholePiece nullable st rows).counted, x⟩, blockBytes nullable (wholePiece nullable st rows).rows, be') := by
  obtain ⟨w1, w2, w3, _, _⟩ := wholePiece_spec nullable st hacc hend
  have hwl := writtenBits_length_le nullable st rows
  obtain ⟨be', hv⟩ := encodeValidity_shows p (hb.shows hacc) be (by omega)
  have hle := valuesOf_length_le rows
  have hsz := Element.size_eq (α := α)
  have hsz' : Element.size α * (valuesOf rows).length < 2 ^ 64 := by
    rcases hsz with h | h <;> rw [h] <;> omega
  have hsl : slice (valuesOf rows) 0 (valuesOf rows).length = .ok (valuesOf rows) := by
    have := valuesOf_take_of_prefix [] rows []
    simpa using this
  refine ⟨be', if nullable then (writtenBits nullable st rows).length else 0, ?_⟩
  simp only [encodePrimitiveBuffer, hb.len, hb.values]
  rw [Profile.sub_ok p (by omega), Nat.sub_zero]
  simp only [ok_bind, Varint.putVarint_ok [] hsz', hsl, hv, pure_eq_ok, blockBytes, List.nil_append, w1, w2, w3,
    Nat.zero_add]
  have hc : (if nullable = true then (writtenBits nullable st rows).length else (valuesOf rows).length) =
      (writtenBits nullable st rows).length := by
    cases nullable with
    | true => simp
    | false =>
      rcases hacc with h | h
      · cases h
      · simp [writtenBits, validityOf_length, valuesOf_length_of_no_none h]
  rw [hc]

/-- Writing everything held back. -/
theorem writeWhole (p : Profile) {nullable : Bool} {st : List Bool} {rows : List (Option α)} (e : Encoder α)
    (l : List (Nat × Bytes)) (hb : PHolds nullable st e.remaining rows) (hacc : Accepts nullable rows)
    (hend : EndsWithValue rows) (hlen : rows.length < 2 ^ 60) (hne : 0 < (valuesOf rows).length) :
    (e.numRows + (wholePiece nullable st rows).counted < 2 ^ 32 →
      ∃ (e' : Encoder α) (x : EncodeResult), writeRemaining p recorder (e, l) =
        (.ok x, (e', l ++ pieceBlocks nullable e.numRows [wholePiece nullable st rows])) ∧
        e'.remaining = e.remaining ∧ e'.minBlockSize = e.minBlockSize ∧
        e'.numRows = e.numRows + (wholePiece nullable st rows).counted) ∧
    (¬ e.numRows + (wholePiece nullable st rows).counted < 2 ^ 32 →
      ∃ e' : Encoder α, writeRemaining p recorder (e, l) = (.error (.panic .expect), (e', l))) := by
  obtain ⟨be', x, h⟩ := encodeWhole_ok p hb hacc hend hlen e.bitmapEncoder
  have hpos : 1 ≤ (wholePiece nullable st rows).counted := by
    rw [(wholePiece_spec nullable st hacc hend).2.2.1]; exact writtenBits_pos nullable st hne
  generalize wholePiece nullable st rows = w at *
  constructor
  · intro hrows
    refine ⟨⟨e.remaining, blockBytes nullable w.rows, be', e.minBlockSize, e.numRows + w.counted⟩,
      ⟨w.counted, x⟩, ?_, rfl, rfl, rfl⟩
    simp only [writeRemaining, writeRange, Run.bind_apply, Run.get_apply, h, Run.lift_ok, Run.set_apply, addRows_ok hrows]
    rw [Profile.sub_ok p (by omega)]
    simp only [Run.lift_ok, Run.emit_recorder, Run.pure_apply, pieceBlocks]
  · intro hrows
    refine ⟨{ e with encodedData := blockBytes nullable w.rows, bitmapEncoder := be' }, ?_⟩
    simp only [writeRemaining, writeRange, Run.bind_apply, Run.get_apply, h, Run.lift_ok, Run.set_apply, addRows_err hrows,
      Run.lift_error]

/-! ## One call -/

theorem fullPieces_eq (nullable : Bool) (c k : Nat) : ∀ (n base : Nat) (rows : List (Option α)),
    pieceBlocks nullable n (fullPieces nullable c k base rows) = blocksFrom nullable n base (chunkRows c k rows) ∧
    countedBy (fullPieces nullable c k base rows) = increments nullable base (chunkRows c k rows) ∧
    (fullPieces nullable c k base rows).length = k ∧
    afterChunks c k rows = rows.drop ((fullPieces nullable c k base rows).flatMap (·.rows)).length ∧
    (fullPieces nullable c k base rows).map (·.rows) = chunkRows c k rows := by
  induction k with
  | zero => intro n base rows; simp [fullPieces, chunkRows, pieceBlocks, blocksFrom, countedBy, increments, afterChunks]
  | succ k ih =>
    intro n base rows
    obtain ⟨h1, h2, h3, h4, h5⟩ := ih (n + increment nullable base (takeVals c rows)) (base + (takeVals c rows).length)
      (rows.drop (takeVals c rows).length)
    refine ⟨?_, ?_, ?_, ?_, ?_⟩
    · rw [fullPieces, chunkRows, pieceBlocks, blocksFrom, ← h1]; rfl
    · rw [fullPieces, chunkRows, increments, ← h2]; simp [countedBy, increment]
    · rw [fullPieces, List.length_cons, h3]
    · rw [fullPieces, afterChunks, h4, List.flatMap_cons, List.length_append, List.drop_drop]
    · rw [fullPieces, chunkRows, List.map_cons, h5]

theorem perBlock_values (m : Nat) : valuesPerBlock (Element.size α) m = perBlock α m := by
  rw [valuesPerBlock, perBlock_ceil]

/-- What the encoder did: the pieces were written if the row counter suffices, otherwise it panicked at one of them. -/
def Did (nullable : Bool) (m : Nat) (e : Encoder α) (l : List (Nat × Bytes)) (ps : List (Piece α)) (st : List Bool)
    (held : List (Option α)) (r : Except Fault Unit × (Encoder α × List (Nat × Bytes))) : Prop :=
  (e.numRows + countedBy ps < 2 ^ 32 → ∃ e' : Encoder α, r = (.ok (), (e', l ++ pieceBlocks nullable e.numRows ps)) ∧
    PHolds nullable st e'.remaining held ∧ e'.minBlockSize = m ∧ e'.numRows = e.numRows + countedBy ps) ∧
  (¬ e.numRows + countedBy ps < 2 ^ 32 → ∃ (e' : Encoder α) (j : Nat),
    r = (.error (.panic .expect), (e', l ++ (pieceBlocks nullable e.numRows ps).take j)) ∧ j < ps.length)

theorem call_fresh (p : Profile) (nullable : Bool) (m : Nat) (hm : 0 < m) (hm64 : m < 2 ^ 64) (st : List Bool)
    (rows : List (Option α)) (e : Encoder α) (l : List (Nat × Bytes)) (hem : e.minBlockSize = m)
    (her : PHolds nullable st e.remaining []) (hlen : rows.length < 2 ^ 32 - 8) (hn : e.numRows < 2 ^ 32) :
    Did nullable m e l (fullPieces nullable (perBlock α m) ((valuesOf rows).length / perBlock α m) 0 rows) st
      (leftOf (perBlock α m) rows) (encode p recorder (PrimitiveBuffer.ofRows nullable rows) (e, l)) := by
  have hU : U32_MAX = 2 ^ 32 - 1 := rfl
  have hk : (valuesOf rows).length / perBlock α m < (PrimitiveBuffer.ofRows nullable rows).len + 1 := by
    have := Nat.div_le_self (valuesOf rows).length (perBlock α m)
    simp only [PrimitiveBuffer.len, PrimitiveBuffer.ofRows]; omega
  obtain ⟨f1, f2, f3, _, _⟩ := fullPieces_eq nullable (perBlock α m) ((valuesOf rows).length / perBlock α m) e.numRows 0 rows
  have henc : encode p recorder (PrimitiveBuffer.ofRows nullable rows) (e, l) =
      encodeLoop p recorder (PrimitiveBuffer.ofRows nullable rows) ((PrimitiveBuffer.ofRows nullable rows).len + 1) 0 0
        (e, l) := by
    simp only [encode, encodeFuel, Run.bind_apply, Run.get_apply]
    rw [if_neg (by rw [her.len]; simp)]
  rw [Did, f1, f2, f3, henc]
  have hmod := Nat.mod_le (valuesOf rows).length (perBlock α m)
  have hvl := valuesOf_length_le rows
  constructor
  · intro hrows
    exact encodeLoop_inv p nullable m hm hm64 (fun rows b => PHolds nullable st b rows)
      (fun b pre mid post pos hb he hf hp => by
        obtain ⟨b', h1, h2⟩ := hb.appendFrom pre mid post pos he (by rw [List.nil_append]; exact hf) hp
        exact ⟨b', _, h1, h2⟩)
      _ _ [] rows 0 e l hem her rfl hk (by simp only [List.nil_append]; omega) (by omega) (by simp) hrows
  · intro hrows
    exact encodeLoop_err p nullable m hm hm64 _ _ [] rows 0 e l hem rfl hk
      (by simp only [List.nil_append]; omega) hn (by simp) hrows

theorem did_nothing {nullable : Bool} {m : Nat} {e e' : Encoder α} {l : List (Nat × Bytes)} {st : List Bool}
    {held : List (Option α)} {r : Except Fault Unit × (Encoder α × List (Nat × Bytes))} (hn : e.numRows < 2 ^ 32)
    (hr : r = (.ok (), (e', l))) (hh : PHolds nullable st e'.remaining held) (hm : e'.minBlockSize = m)
    (hnn : e'.numRows = e.numRows) : Did nullable m e l [] st held r := by
  refine ⟨fun _ => ⟨e', by rw [hr]; simp [pieceBlocks], hh, hm, by simp [countedBy, hnn]⟩, fun h => ?_⟩
  simp [countedBy] at h; omega

theorem call_pending (p : Profile) (nullable : Bool) (m : Nat) (hm64 : m < 2 ^ 64) (st : List Bool)
    (R rows : List (Option α)) (e : Encoder α) (l : List (Nat × Bytes)) (hem : e.minBlockSize = m)
    (her : PHolds nullable st e.remaining R) (hpos : 0 < (valuesOf R).length)
    (hrm : (valuesOf R).length * Element.size α ≤ m) (hlen : R.length + rows.length < 2 ^ 32 - 8)
    (hn : e.numRows < 2 ^ 32) :
    Did nullable m e l [] st (R ++ takeVals (perBlock α m - (valuesOf R).length) (dropTrailingNulls rows))
      (encode p recorder (PrimitiveBuffer.ofRows nullable rows) (e, l)) := by
  have hU : U32_MAX = 2 ^ 32 - 1 := rfl
  have hsz := Element.size_eq (α := α)
  have hrc : (valuesOf R).length ≤ perBlock α m := by
    have h1 := (perBlock_spec (α := α) m).1
    rcases hsz with h | h <;> rw [h] at hrm h1 <;> omega
  have hpm : perBlock α m < m := by
    simp only [perBlock]
    rcases hsz with h | h <;> rw [h] at hrm ⊢ <;> split <;> omega
  have hl := her.len
  have hc62 := perBlock_le (α := α) hm64
  obtain ⟨q, hq1, hq2, hq3⟩ := dropTrailingNulls_spec rows
  have hbl : (PrimitiveBuffer.ofRows nullable rows).len = (valuesOf rows).length := by
    simp [PrimitiveBuffer.len, PrimitiveBuffer.ofRows]
  generalize ha : takeVals (perBlock α m - (valuesOf R).length) (dropTrailingNulls rows) = a
  have hav : (valuesOf a).length = min (perBlock α m - (valuesOf R).length) (valuesOf rows).length := by
    rw [← ha, takeVals_values, List.length_take, dropTrailingNulls_values]
  have hae : EndsWithValue a := by
    rw [← ha]
    rcases Nat.le_total (perBlock α m - (valuesOf R).length) (valuesOf (dropTrailingNulls rows)).length with h | h
    · exact takeVals_ends _ _ h
    · rw [takeVals_all hq2 h]; exact hq2
  obtain ⟨t, ht⟩ := takeVals_prefix (perBlock α m - (valuesOf R).length) (dropTrailingNulls rows)
  rw [ha] at ht
  have hv1 := valuesOf_length_le R
  have hv2 := valuesOf_length_le rows
  obtain ⟨b', happ, hb'⟩ := her.appendFrom [] a (t ++ q) 0 hae
    (by rw [valuesOf_append, List.length_append, hav]; omega) (by simp)
  rw [List.nil_append, ← List.append_assoc, ht, ← hq1, valuesOf_nil, List.length_nil, hav] at happ
  refine did_nothing (e' := { e with remaining := b' }) hn ?_ hb' hem rfl
  simp only [encode, encodeFuel, Run.bind_apply, Run.get_apply]
  rw [if_pos (by omega)]
  simp only [Run.bind_apply, hl, hem]
  rw [Profile.sub_ok p hrm]
  simp only [Run.lift_ok]
  rw [chunk_ok p _ _ _ (by rw [perBlock_sub hrm]; omega), perBlock_sub hrm, Nat.zero_add]
  simp only [Run.lift_ok]
  rw [hbl, happ]
  simp only [Run.lift_ok, Run.set_apply]
  have hlt : b'.len < m := by
    rw [hb'.len, valuesOf_append, List.length_append, hav]; omega
  rw [if_pos hlt]
  simp [Run.pure_apply]

omit [Element α] in
theorem accepts_trim {nullable : Bool} {R rows : List (Option α)} (h1 : Accepts nullable R) (h2 : Accepts nullable rows) :
    Accepts nullable (R ++ dropTrailingNulls rows) := by
  rcases h1 with h | h
  · exact .inl h
  rcases h2 with h' | h'
  · exact .inl h'
  refine .inr fun hm => ?_
  rcases List.mem_append.mp hm with hm | hm
  · exact h hm
  · obtain ⟨q, hq, _⟩ := dropTrailingNulls_spec rows
    exact h' (by rw [hq]; exact List.mem_append_left _ hm)

/-- More than a block held back: the whole buffer is added, and everything written once there are `m` values. -/
theorem call_wrapped (nullable : Bool) (m : Nat) (hm64 : m < 2 ^ 64) (st : List Bool)
    (R rows : List (Option α)) (e : Encoder α) (l : List (Nat × Bytes)) (hem : e.minBlockSize = m)
    (her : PHolds nullable st e.remaining R) (hR : Accepts nullable R) (hrows : Accepts nullable rows)
    (hend : EndsWithValue R)
    (hrm : ¬ (valuesOf R).length * Element.size α ≤ m) (hlen : R.length + rows.length < 2 ^ 32 - 8)
    (hn : e.numRows < 2 ^ 32) :
    if (valuesOf R).length + (valuesOf rows).length < m then
      Did nullable m e l [] st (R ++ dropTrailingNulls rows)
        (encode .release recorder (PrimitiveBuffer.ofRows nullable rows) (e, l))
    else
      Did nullable m e l [wholePiece nullable st (R ++ dropTrailingNulls rows)]
        (afterClear st (R ++ dropTrailingNulls rows)) []
        (encode .release recorder (PrimitiveBuffer.ofRows nullable rows) (e, l)) := by
  have hU : U32_MAX = 2 ^ 32 - 1 := rfl
  have hsz := Element.size_eq (α := α)
  have hl := her.len
  have hv1 := valuesOf_length_le R
  have hv2 := valuesOf_length_le rows
  have hpos : 0 < (valuesOf R).length := by
    rcases Nat.eq_zero_or_pos (valuesOf R).length with h | h
    · rw [h] at hrm; omega
    · exact h
  obtain ⟨q, hq1, hq2, hq3⟩ := dropTrailingNulls_spec rows
  have hbl : (PrimitiveBuffer.ofRows nullable rows).len = (valuesOf rows).length := by
    simp [PrimitiveBuffer.len, PrimitiveBuffer.ofRows]
  have hroom : Profile.release.sub 64 m ((valuesOf R).length * Element.size α) =
      .ok (2 ^ 64 + m - (valuesOf R).length * Element.size α) := by
    rw [Profile.sub, if_neg hrm]
    refine congrArg Except.ok ?_
    rcases hsz with h | h <;> rw [h] at hrm ⊢ <;> omega
  have hr64 : 2 ^ 64 + m - (valuesOf R).length * Element.size α < 2 ^ 64 := by omega
  have hbig : (valuesOf rows).length ≤ perBlock α (2 ^ 64 + m - (valuesOf R).length * Element.size α) := by
    simp only [perBlock]
    rcases hsz with h | h <;> rw [h] at hrm ⊢ <;> omega
  have hc62 := perBlock_le (α := α) hr64
  have htot : (valuesOf (R ++ dropTrailingNulls rows)).length = (valuesOf R).length + (valuesOf rows).length := by
    rw [valuesOf_append, List.length_append, dropTrailingNulls_values]
  obtain ⟨b', happ, hb'⟩ := her.appendFrom [] (dropTrailingNulls rows) q 0 hq2 (by omega) (by simp)
  rw [List.nil_append, ← hq1, valuesOf_nil, List.length_nil, dropTrailingNulls_values] at happ
  simp only [List.length_nil, Nat.zero_add] at happ
  have hll := congrArg List.length hq1
  rw [List.length_append] at hll
  -- the call up to the decision
  have hrun : encode .release recorder (PrimitiveBuffer.ofRows nullable rows) (e, l) =
      (if (valuesOf R).length + (valuesOf rows).length < m then
        (.ok (), ({ e with remaining := b' }, l))
      else (do
        let _ ← writeRemaining .release recorder
        let e ← Run.get
        Run.set { e with remaining := e.remaining.clear }
        encodeLoop .release recorder (PrimitiveBuffer.ofRows nullable rows) ((valuesOf rows).length + 1)
          (valuesOf rows).length (if nullable then (dropTrailingNulls rows).length else (valuesOf rows).length))
          ({ e with remaining := b' }, l)) := by
    simp only [encode, encodeFuel, Run.bind_apply, Run.get_apply]
    rw [if_pos (by omega)]
    simp only [Run.bind_apply, hl, hem, hroom, Run.lift_ok]
    rw [chunk_ok _ _ _ _ (by omega), hbl, Nat.zero_add, Nat.min_eq_right hbig]
    simp only [Run.lift_ok]
    rw [happ]
    simp only [Run.lift_ok, Run.set_apply, hb'.len, htot, hem, Nat.zero_add]
    split
    · simp [Run.pure_apply]
    · simp only [Run.bind_apply, Run.get_apply, Run.set_apply]
  rw [hrun]
  by_cases hlt : (valuesOf R).length + (valuesOf rows).length < m
  · rw [if_pos hlt, if_pos hlt]
    exact did_nothing (e' := { e with remaining := b' }) hn rfl hb' hem rfl
  · rw [if_neg hlt, if_neg hlt]
    obtain ⟨w1, w2⟩ := writeWhole .release { e with remaining := b' } l hb' (accepts_trim hR hrows)
      (hq2.append_left hend) (by rw [List.length_append]; omega) (by omega)
    have hcb : countedBy [wholePiece nullable st (R ++ dropTrailingNulls rows)] =
        (wholePiece nullable st (R ++ dropTrailingNulls rows)).counted := by simp [countedBy]
    rw [Did, hcb]
    constructor
    · intro hr
      obtain ⟨e', x, h1, h2, h3, h4⟩ := w1 hr
      refine ⟨{ e' with remaining := e'.remaining.clear }, ?_, ?_, h3.trans hem, h4⟩
      · rw [Run.bind_ok h1]
        simp only [Run.bind_apply, Run.get_apply, Run.set_apply]
        rw [encodeLoop, hbl, if_neg (by omega)]
        simp [Run.pure_apply]
      · show PHolds _ _ e'.remaining.clear []
        rw [h2]; exact hb'.clear
    · intro hr
      obtain ⟨e', h1⟩ := w2 hr
      exact ⟨e', 0, by rw [Run.bind_error h1]; simp, by simp⟩

/-! ## A whole column -/

omit [Element α] in
theorem accepts_subset {nullable : Bool} {a b : List (Option α)} (h : Accepts nullable b) (hs : ∀ x ∈ a, x ∈ b) :
    Accepts nullable a := by
  rcases h with h | h
  · exact .inl h
  · exact .inr fun hm => h (hs _ hm)

omit [Element α] in
theorem trim_subset (rows : List (Option α)) :
    (∀ x ∈ dropTrailingNulls rows, x ∈ rows) ∧ (dropTrailingNulls rows).length ≤ rows.length := by
  obtain ⟨q, hq, _⟩ := dropTrailingNulls_spec rows
  refine ⟨fun x hx => by rw [hq]; exact List.mem_append_left _ hx, ?_⟩
  have := congrArg List.length hq
  rw [List.length_append] at this; omega

omit [Element α] in
theorem callHeld_spec (nullable : Bool) (size m : Nat) {R rows : List (Option α)}
    (hR : Accepts nullable R) (hrows : Accepts nullable rows) (hend : EndsWithValue R) :
    Accepts nullable (callHeld nullable size m R rows) ∧ EndsWithValue (callHeld nullable size m R rows) ∧
    (callHeld nullable size m R rows).length ≤ R.length + rows.length := by
  obtain ⟨t1, t2⟩ := trim_subset rows
  simp only [callHeld]
  split
  · generalize ((fullPieces nullable (valuesPerBlock size m) ((valuesOf rows).length / valuesPerBlock size m) 0 rows).flatMap
      (·.rows)).length = k
    obtain ⟨u1, u2⟩ := trim_subset (rows.drop k)
    refine ⟨accepts_subset hrows fun x hx => List.mem_of_mem_drop (u1 x hx), dropTrailingNulls_ends _, ?_⟩
    rw [List.length_drop] at u2; omega
  · split
    · generalize valuesPerBlock size m - (valuesOf R).length = k
      have hp := takeVals_prefix k (dropTrailingNulls rows)
      refine ⟨accepts_subset (accepts_trim hR hrows) fun x hx => ?_, ?_, ?_⟩
      · rcases List.mem_append.mp hx with hx | hx
        · exact List.mem_append_left _ hx
        · exact List.mem_append_right _ (hp.subset hx)
      · refine EndsWithValue.append_left ?_ hend
        rcases Nat.le_total k (valuesOf (dropTrailingNulls rows)).length with h | h
        · exact takeVals_ends _ _ h
        · rw [takeVals_all (dropTrailingNulls_ends _) h]; exact dropTrailingNulls_ends _
      · rw [List.length_append]
        have := hp.length_le; omega
    · split
      · exact ⟨accepts_trim hR hrows, (dropTrailingNulls_ends _).append_left hend, by rw [List.length_append]; omega⟩
      · exact ⟨accepts_subset hR (by simp), .inl rfl, by simp⟩

omit [Element α] in
theorem wholePiece_length (nullable : Bool) (st : List Bool) {rows : List (Option α)} (hacc : Accepts nullable rows)
    (hend : EndsWithValue rows) : (wholePiece nullable st rows).rows.length ≤ rows.length := by
  obtain ⟨h1, _⟩ := wholePiece_spec nullable st hacc hend
  rw [← validityOf_length, h1]
  exact writtenBits_length_le nullable st rows

omit [Element α] in
theorem callPieces_spec (nullable : Bool) {size m : Nat} (hc : 0 < valuesPerBlock size m) (st : List Bool)
    {R rows : List (Option α)} (hR : Accepts nullable R) (hrows : Accepts nullable rows) (hend : EndsWithValue R) :
    ∀ x ∈ callPieces nullable size m st R rows, EndsWithValue x.rows ∧ Accepts nullable x.rows ∧
      x.rows.length ≤ R.length + rows.length := by
  intro x hx
  simp only [callPieces] at hx
  split at hx
  · have hx' := List.mem_map_of_mem (f := fun x : Piece α => x.rows) hx
    have hmap : ∀ (k base : Nat) (rows : List (Option α)),
        (fullPieces nullable (valuesPerBlock size m) k base rows).map (·.rows) =
          chunkRows (valuesPerBlock size m) k rows := by
      intro k
      induction k with
      | zero => intro base rows; rfl
      | succ k ih => intro base rows; rw [fullPieces, chunkRows, List.map_cons, ih]
    rw [hmap] at hx'
    obtain ⟨_, _, _, h4, h5⟩ := leftOf_spec hc rows
    obtain ⟨t1, t2⟩ := trim_subset rows
    have hsub : ∀ y ∈ x.rows, y ∈ rows := fun y hy => t1 y (by
      rw [h4]; exact List.mem_append_left _ (List.mem_flatten.mpr ⟨_, hx', hy⟩))
    refine ⟨(h5 _ hx').2, accepts_subset hrows hsub, ?_⟩
    have hl := congrArg List.length h4
    rw [List.length_append] at hl
    have : x.rows.length ≤ (chunksOf (valuesPerBlock size m) rows).flatten.length := by
      obtain ⟨s, t, hst⟩ := List.append_of_mem hx'
      rw [chunksOf, hst]; simp; omega
    omega
  · split at hx
    · cases hx
    · split at hx
      · cases hx
      · rw [List.mem_singleton] at hx
        subst hx
        have ha := accepts_trim hR hrows
        have he := (dropTrailingNulls_ends rows).append_left hend
        obtain ⟨_, _, _, w4, w5⟩ := wholePiece_spec nullable st ha he
        refine ⟨w5, w4, Nat.le_trans (wholePiece_length nullable st ha he) ?_⟩
        rw [List.length_append]
        have := (trim_subset rows).2; omega

omit [Element α] in
theorem columnPieces_spec (nullable : Bool) {size m : Nat} (hc : 0 < valuesPerBlock size m)
    (bufs : List (List (Option α))) : ∀ (st : List Bool) (R : List (Option α)), Accepts nullable R →
    (∀ b ∈ bufs, Accepts nullable b) → EndsWithValue R →
    ∀ x ∈ columnPieces nullable size m st R bufs, EndsWithValue x.rows ∧ Accepts nullable x.rows ∧
      x.rows.length ≤ R.length + (bufs.map List.length).sum := by
  induction bufs with
  | nil =>
    intro st R hR _ hend x hx
    rw [columnPieces] at hx
    split at hx
    · cases hx
    · rw [List.mem_singleton] at hx
      subst hx
      obtain ⟨_, _, _, w4, w5⟩ := wholePiece_spec nullable st hR hend
      exact ⟨w5, w4, by have := wholePiece_length nullable st hR hend; simpa using this⟩
  | cons b bs ih =>
    intro st R hR hbs hend x hx
    obtain ⟨g1, g2, g3⟩ := callHeld_spec nullable size m hR (hbs b (List.mem_cons_self ..)) hend
    rw [columnPieces, List.mem_append] at hx
    rw [List.map_cons, List.sum_cons]
    rcases hx with hx | hx
    · obtain ⟨h1, h2, h3⟩ := callPieces_spec nullable hc st hR (hbs b (List.mem_cons_self ..)) hend x hx
      exact ⟨h1, h2, by omega⟩
    · obtain ⟨h1, h2, h3⟩ := ih _ _ g1 (fun b hb => hbs b (List.mem_cons_of_mem _ hb)) g2 x hx
      exact ⟨h1, h2, by omega⟩

omit [Element α] in
theorem values_drop_takeVals (c : Nat) (rows : List (Option α)) :
    valuesOf (rows.drop (takeVals c rows).length) = (valuesOf rows).drop c := by
  have h := congrArg valuesOf (takeVals_append_drop c rows)
  rw [valuesOf_append, takeVals_values] at h
  exact List.append_cancel_left (h.trans (List.take_append_drop c (valuesOf rows)).symm)

omit [Element α] in
theorem fullPieces_values (nullable : Bool) (c k : Nat) : ∀ (base : Nat) (rows : List (Option α)),
    (fullPieces nullable c k base rows).map (fun x => valuesOf x.rows) =
      ((List.range k).map fun i => ((valuesOf rows).drop (i * c)).take c) ∧
    valuesOf (rows.drop ((fullPieces nullable c k base rows).flatMap (·.rows)).length) = (valuesOf rows).drop (k * c) := by
  induction k with
  | zero => intro base rows; simp [fullPieces]
  | succ k ih =>
    intro base rows
    obtain ⟨h1, h2⟩ := ih (base + (takeVals c rows).length) (rows.drop (takeVals c rows).length)
    rw [values_drop_takeVals] at h1 h2
    constructor
    · rw [fullPieces, List.map_cons, h1, List.range_succ_eq_map]
      simp only [takeVals_values, List.map_cons, List.map_map, Nat.zero_mul, List.drop_zero, List.cons.injEq, true_and]
      apply List.map_congr_left
      intro i _
      simp only [Function.comp, List.drop_drop]
      congr 2
      rw [Nat.succ_mul, Nat.add_comm]
    · rw [fullPieces, List.flatMap_cons, List.length_append, ← List.drop_drop, h2, List.drop_drop]
      congr 1
      rw [Nat.succ_mul, Nat.add_comm]

/-- The values of the blocks do not depend on the nulls. -/
theorem columnPieces_values (nullable : Bool) {m : Nat} (hm : 0 < m) (hd : ¬ Element.size α ∣ m)
    (bufs : List (List (Option α))) : ∀ (st : List Bool) (R : List (Option α)), Accepts nullable R →
    (∀ b ∈ bufs, Accepts nullable b) → EndsWithValue R →
    (columnPieces nullable (Element.size α) m st R bufs).map (fun x => valuesOf x.rows) =
      wrappedGroups (perBlock α m) m (valuesOf R) (bufs.map valuesOf) := by
  have hover : ∀ r : Nat, r * Element.size α ≤ m ↔ r < perBlock α m := by
    intro r
    rw [← lt_perBlock_iff hm]
    constructor
    · intro h
      rcases Nat.lt_or_ge (r * Element.size α) m with h1 | h1
      · exact h1
      · exact absurd ⟨r, by rw [Nat.mul_comm]; omega⟩ hd
    · intro h; omega
  induction bufs with
  | nil =>
    intro st R hR _ hend
    rw [columnPieces, List.map_nil, wrappedGroups]
    split
    · rfl
    · rw [List.map_singleton, (wholePiece_spec nullable st hR hend).2.1]
  | cons b bs ih =>
    intro st R hR hbs hend
    have hb := hbs b (List.mem_cons_self ..)
    obtain ⟨g1, g2, _⟩ := callHeld_spec nullable (Element.size α) m hR hb hend
    rw [columnPieces, List.map_append, ih _ _ g1 (fun b hb => hbs b (List.mem_cons_of_mem _ hb)) g2, List.map_cons,
      wrappedGroups]
    simp only [callPieces, callHeld, perBlock_values, hover]
    obtain ⟨f1, f2⟩ := fullPieces_values nullable (perBlock α m) ((valuesOf b).length / perBlock α m) 0 b
    split
    · rw [f1, dropTrailingNulls_values, f2]
    · split
      · rw [valuesOf_append, takeVals_values, dropTrailingNulls_values]; rfl
      · split
        · rw [valuesOf_append, dropTrailingNulls_values]; rfl
        · rw [List.map_singleton,
            (wholePiece_spec nullable st (accepts_trim hR hb) ((dropTrailingNulls_ends b).append_left hend)).2.1,
            valuesOf_append, dropTrailingNulls_values]
          rfl

theorem pieceBlocks_append (nullable : Bool) (a b : List (Piece α)) (n : Nat) :
    pieceBlocks nullable n (a ++ b) = pieceBlocks nullable n a ++ pieceBlocks nullable (n + countedBy a) b := by
  induction a generalizing n with
  | nil => simp [pieceBlocks, countedBy]
  | cons x a ih => simp [pieceBlocks, countedBy, ih, Nat.add_assoc]

theorem pieceBlocks_length (nullable : Bool) (a : List (Piece α)) (n : Nat) :
    (pieceBlocks nullable n a).length = a.length := by
  induction a generalizing n with
  | nil => rfl
  | cons x a ih => simp [pieceBlocks, ih]

theorem pieceBlocks_ids (nullable : Bool) (a : List (Piece α)) (n : Nat) :
    (pieceBlocks nullable n a).map (·.1) = pieceIds n a := by
  induction a generalizing n with
  | nil => rfl
  | cons x a ih => simp [pieceBlocks, pieceIds, ih]

theorem pieceBlocks_data (nullable : Bool) (a : List (Piece α)) (n : Nat) :
    (pieceBlocks nullable n a).map (·.2) = (a.map (·.rows)).map (blockBytes nullable) := by
  induction a generalizing n with
  | nil => rfl
  | cons x a ih => simp [pieceBlocks, ih]

theorem call_release (nullable : Bool) (m : Nat) (hm : 0 < m) (hm64 : m < 2 ^ 64) (st : List Bool)
    (R rows : List (Option α)) (e : Encoder α) (l : List (Nat × Bytes)) (hem : e.minBlockSize = m)
    (her : PHolds nullable st e.remaining R) (hR : Accepts nullable R) (hrows : Accepts nullable rows)
    (hend : EndsWithValue R) (hlen : R.length + rows.length < 2 ^ 32 - 8) (hn : e.numRows < 2 ^ 32) :
    Did nullable m e l (callPieces nullable (Element.size α) m st R rows) (callStale (Element.size α) m st R rows)
      (callHeld nullable (Element.size α) m R rows)
      (encode .release recorder (PrimitiveBuffer.ofRows nullable rows) (e, l)) := by
  simp only [callPieces, callStale, callHeld, perBlock_values]
  by_cases h0 : (valuesOf R).length = 0
  · obtain rfl := values_zero hend h0
    simp only [h0, if_true]
    rw [← (fullPieces_eq nullable (perBlock α m) ((valuesOf rows).length / perBlock α m) 0 0 rows).2.2.2.1]
    exact call_fresh .release nullable m hm hm64 st rows e l hem her (by simp only [List.length_nil] at hlen; omega) hn
  · simp only [if_neg h0]
    by_cases h1 : (valuesOf R).length * Element.size α ≤ m
    · simp only [if_pos h1]
      exact call_pending .release nullable m hm64 st R rows e l hem her (by omega) h1 hlen hn
    · simp only [if_neg h1]
      have := call_wrapped nullable m hm64 st R rows e l hem her hR hrows hend h1 hlen hn
      split at this
      · rename_i h2
        simp only [if_pos h2]; exact this
      · rename_i h2
        simp only [if_neg h2]; exact this

theorem column_release (nullable : Bool) (m : Nat) (hm : 0 < m) (hm64 : m < 2 ^ 64) (bufs : List (List (Option α))) :
    ∀ (st : List Bool) (R : List (Option α)) (e : Encoder α) (l : List (Nat × Bytes)), e.minBlockSize = m →
    PHolds nullable st e.remaining R → Accepts nullable R → (∀ b ∈ bufs, Accepts nullable b) → EndsWithValue R →
    R.length + (bufs.map List.length).sum < 2 ^ 32 - 8 → e.numRows < 2 ^ 32 →
    (e.numRows + countedBy (columnPieces nullable (Element.size α) m st R bufs) < 2 ^ 32 → ∃ e' : Encoder α,
      encodeColumn .release recorder (bufs.map (PrimitiveBuffer.ofRows nullable)) (e, l) =
        (.ok (), (e', l ++ pieceBlocks nullable e.numRows (columnPieces nullable (Element.size α) m st R bufs)))) ∧
    (¬ e.numRows + countedBy (columnPieces nullable (Element.size α) m st R bufs) < 2 ^ 32 →
      ∃ (e' : Encoder α) (j : Nat),
        encodeColumn .release recorder (bufs.map (PrimitiveBuffer.ofRows nullable)) (e, l) =
          (.error (.panic .expect), (e', l ++
            (pieceBlocks nullable e.numRows (columnPieces nullable (Element.size α) m st R bufs)).take j)) ∧
        j < (columnPieces nullable (Element.size α) m st R bufs).length) := by
  induction bufs with
  | nil =>
    intro st R e l hem her hR _ hend hlen hn
    simp only [List.map_nil, List.sum_nil, Nat.add_zero] at hlen
    have hrun : encodeColumn .release recorder ([] : List (PrimitiveBuffer α)) (e, l) = flush .release recorder (e, l) := by
      rw [encodeColumn, encodeAll, Run.bind_ok (Run.pure_apply ..)]
    rw [columnPieces, List.map_nil, hrun]
    simp only [flush, Run.bind_apply, Run.get_apply]
    by_cases h0 : (valuesOf R).length = 0
    · rw [if_pos h0, if_neg (by rw [her.len]; omega)]
      refine ⟨fun _ => ⟨e, by simp [Run.pure_apply, pieceBlocks]⟩, fun h => ?_⟩
      simp [countedBy] at h; omega
    · rw [if_neg h0, if_pos (by rw [her.len]; omega)]
      obtain ⟨w1, w2⟩ := writeWhole .release e l her hR hend (by omega) (by omega)
      have hcb : countedBy [wholePiece nullable st R] = (wholePiece nullable st R).counted := by simp [countedBy]
      rw [hcb]
      constructor
      · intro h
        obtain ⟨e', x, h1, _⟩ := w1 h
        exact ⟨e', by rw [Run.bind_ok h1]; rfl⟩
      · intro h
        obtain ⟨e', h1⟩ := w2 h
        exact ⟨e', 0, by rw [Run.bind_error h1]; simp, by simp⟩
  | cons b bs ih =>
    intro st R e l hem her hR hbs hend hlen hn
    rw [List.map_cons, List.sum_cons] at hlen
    have hb := hbs b (List.mem_cons_self ..)
    have hbs' : ∀ b ∈ bs, Accepts nullable b := fun b hb => hbs b (List.mem_cons_of_mem _ hb)
    obtain ⟨g1, g2, g3⟩ := callHeld_spec nullable (Element.size α) m hR hb hend
    obtain ⟨d1, d2⟩ := call_release nullable m hm hm64 st R b e l hem her hR hb hend (by omega) hn
    rw [columnPieces, List.map_cons]
    generalize callPieces nullable (Element.size α) m st R b = ps at *
    generalize callHeld nullable (Element.size α) m R b = R' at *
    generalize callStale (Element.size α) m st R b = st' at *
    have hca : ∀ qs : List (Piece α), countedBy (ps ++ qs) = countedBy ps + countedBy qs := by
      intro qs; simp [countedBy]
    by_cases hnow : e.numRows + countedBy ps < 2 ^ 32
    · obtain ⟨e1, k1, k2, k3, k4⟩ := d1 hnow
      have hcol : encodeColumn .release recorder (PrimitiveBuffer.ofRows nullable b ::
          bs.map (PrimitiveBuffer.ofRows nullable)) (e, l) =
          encodeColumn .release recorder (bs.map (PrimitiveBuffer.ofRows nullable))
            (e1, l ++ pieceBlocks nullable e.numRows ps) := by
        rw [encodeColumn, encodeAll, encodeColumn, Run.bind_apply, Run.bind_ok k1, ← Run.bind_apply]
      obtain ⟨i1, i2⟩ := ih st' R' e1 (l ++ pieceBlocks nullable e.numRows ps) k3 k2 g1 hbs' g2 (by omega) (by omega)
      rw [hcol, hca, pieceBlocks_append, k4] at *
      rw [List.append_assoc] at i1
      constructor
      · intro h; exact i1 (by omega)
      · intro h
        obtain ⟨e', j, h1, h2⟩ := i2 (by omega)
        refine ⟨e', ps.length + j, ?_, by rw [List.length_append]; omega⟩
        rw [h1, List.append_assoc, List.take_append, pieceBlocks_length, Nat.add_sub_cancel_left,
          List.take_of_length_le (l := pieceBlocks _ _ ps) (by rw [pieceBlocks_length]; omega)]
    · obtain ⟨e1, j, k1, k2⟩ := d2 hnow
      rw [hca, pieceBlocks_append]
      refine ⟨fun h => by omega, fun _ => ⟨e1, j, ?_, by rw [List.length_append]; omega⟩⟩
      rw [encodeColumn, encodeAll, Run.bind_apply, Run.bind_error k1, List.take_append, pieceBlocks_length,
        Nat.sub_eq_zero_of_le (Nat.le_of_lt k2)]
      simp

end Meerkat.PrimitiveEnc
