import Verif.Proofs.BinaryExact
import Verif.Proofs.PrimitiveWrap
import Verif.Props.Segment
import Verif.Props.Unwind

set_option autoImplicit false

/-! # C99: what a buffer that `write` refuses leaves in the segment -/

namespace Meerkat
open Spec

variable {S : Type}

namespace Refused

/-- The buffer without its validity bitmap. -/
abbrev plain (b : BinaryBuffer) : BinaryBuffer := ⟨b.data, b.offsets, none⟩

/-- The panic of `append_from` for a source of the other nullability. -/
def panic (d : BinaryBuffer) : Panic := if d.validity.isSome then .assertion else .expect

theorem offsets_plain (p : Profile) (b : BinaryBuffer) (k : Nat) : ∀ (i last : Nat),
    BinaryBuffer.appendFromOffsets p (plain b) k i last = BinaryBuffer.appendFromOffsets p b k i last := by
  induction k with
  | zero => intro i last; rfl
  | succ k ih =>
    intro i last
    simp only [BinaryBuffer.appendFromOffsets, ih]
    rfl

/-- A buffer refuses one of the other nullability after it has copied the bytes and the offsets. -/
theorem append (p : Profile) {d b d' : BinaryBuffer} {i j pos n : Nat}
    (hmis : d.validity.isSome ≠ b.validity.isSome) (h : (plain d).appendFrom p (plain b) i j pos = .ok (d', n)) :
    d.appendFrom p b i j pos = .error (panic d) ∧
    d.appendFromLeft p b i j pos = ⟨d'.data, d'.offsets, d.validity⟩ ∧ d'.validity = none := by
  rw [BinaryBuffer.appendFrom] at h
  obtain ⟨so, h1, h⟩ := bind_eq_ok h
  obtain ⟨eo, h2, h⟩ := bind_eq_ok h
  obtain ⟨cl, h3, h⟩ := bind_eq_ok h
  obtain ⟨pushed, h4, h⟩ := bind_eq_ok h
  obtain ⟨chunk, h5, h⟩ := bind_eq_ok h
  rw [offsets_plain] at h4
  simp only at h1 h2 h4 h5 h
  split at h
  case isFalse => cases h
  rename_i hU
  simp only [validityAppendFrom, ok_bind] at h
  cases h
  have h6 := (BinaryBuffer.appendFromOffsetsRun_ends p b (j - i) i ((d.offsets.getLast?).getD 0) d.offsets).1 _ h4
  refine ⟨?_, ?_, rfl⟩
  · simp only [BinaryBuffer.appendFrom, h1, h2, h3, h4, h5, ok_bind, if_pos hU, panic]
    rcases hd : d.validity with _ | dv <;> rcases hb : b.validity with _ | bv <;> simp [hd, hb] at hmis <;> rfl
  · simp only [BinaryBuffer.appendFromLeft, BinaryBuffer.appendFromRun, h1, h2, h3, h5, h6, if_pos hU]
    rcases hd : d.validity with _ | dv <;> rcases hb : b.validity with _ | bv <;> simp [hd, hb] at hmis <;> rfl

theorem fill_small {m : Nat} {items : List Bytes} (h : items.flatten.length < m) : fill m items = none := by
  rcases hf : fill m items with _ | j
  · rfl
  · obtain ⟨_, h2, _⟩ := BinaryEnc.fill_some hf
    have : (items.take j).flatten.length ≤ items.flatten.length := by
      conv => rhs; rw [← List.take_append_drop j items, List.flatten_append, List.length_append]
      omega
    omega

/-- `append_from` of the first items of a buffer, without validity. -/
theorem append_items (p : Profile) (b d : BinaryBuffer) (held items rest : List Bytes)
    (hb1 : b.data = (items ++ rest).flatten) (hb2 : b.offsets = offsetsOf 0 (items ++ rest)) (hb3 : b.validity = none)
    (hd1 : d.data = held.flatten) (hd2 : d.offsets = offsetsOf 0 held) (hd3 : d.validity = none)
    (hU : held.flatten.length + items.flatten.length < 2 ^ 32 - 1) :
    d.appendFrom p b 0 items.length 0 =
      .ok (⟨(held ++ items).flatten, offsetsOf 0 (held ++ items), none⟩, items.length) := by
  obtain ⟨d', h1, h2⟩ := BinaryEnc.Holds.appendFrom p (nullable := false) (st := []) (dst := d) (src := b)
    (ds := held.map some) (pre := []) (mid := items.map some) (post := rest.map some)
    ⟨by rw [hd1, PrimitiveEnc.valuesOf_map_some], by rw [hd2, PrimitiveEnc.valuesOf_map_some], hd3⟩
    ⟨by rw [hb1, List.nil_append, ← List.map_append, PrimitiveEnc.valuesOf_map_some],
      by rw [hb2, List.nil_append, ← List.map_append, PrimitiveEnc.valuesOf_map_some], hb3⟩ 0
    (PrimitiveEnc.endsWithValue_map_some _)
    (by
      rw [BinaryBuffer.dataLen_append]
      simp only [BinaryBuffer.dataLen, PrimitiveEnc.valuesOf_map_some, U32_MAX]; omega) (by simp)
  simp only [List.nil_append, PrimitiveEnc.valuesOf_map_some, show valuesOf ([] : List (Option Bytes)) = [] from rfl,
    List.length_nil, Bool.false_eq_true, if_false] at h1
  rw [h1]
  cases d'
  have h3 := h2.data
  have h4 := h2.offsets
  have h5 := h2.validity
  simp only [← List.map_append, PrimitiveEnc.valuesOf_map_some] at h3 h4 h5
  subst h3 h4 h5
  rfl

/-- Values that do not complete a block are held back. -/
theorem held_back (p : Profile) (b : BinaryBuffer) (e : BinaryEnc.Encoder) (held items : List Bytes)
    (hb1 : b.data = items.flatten) (hb2 : b.offsets = offsetsOf 0 items) (hb3 : b.validity = none)
    (he1 : e.remaining.data = held.flatten) (he2 : e.remaining.offsets = offsetsOf 0 held)
    (he3 : e.remaining.validity = none) (hB : held.flatten.length + items.flatten.length < e.minBlockSize)
    (hU : held.flatten.length + items.flatten.length < 2 ^ 32 - 1) :
    BinaryEnc.encode p recorder b (e, []) = (.ok (), ({ e with remaining :=
      ⟨(held ++ items).flatten, offsetsOf 0 (held ++ items), none⟩ }, [])) := by
  have happ := append_items p b e.remaining held items [] (by rw [List.append_nil]; exact hb1)
    (by rw [List.append_nil]; exact hb2) hb3 he1 he2 he3 hU
  have hchunk : ∀ m, items.flatten.length < m → BinaryEnc.chunk p b 0 m =
      .ok ⟨0, items.length, 0, items.flatten.length, items.flatten.length, items.length⟩ := by
    intro m hm
    have := BinaryEnc.chunk_eq p b [] items hb2 m
    rw [fill_small hm] at this
    simpa using this
  simp only [BinaryEnc.encode, Run.bind_apply, Run.get_apply]
  by_cases hl : e.remaining.len > 0
  · rw [if_pos hl]
    simp only [Run.bind_apply, p.sub_ok (show e.remaining.data.length ≤ e.minBlockSize by rw [he1]; omega), Run.lift_ok,
      hchunk _ (show items.flatten.length < e.minBlockSize - e.remaining.data.length by rw [he1]; omega), happ,
      Run.set_apply]
    rw [if_pos (by rw [List.flatten_append, List.length_append]; exact hB)]
    rfl
  · rw [if_neg hl, BinaryEnc.encodeLoop, if_pos (by rw [hb2]; simp [offsetsOf])]
    simp only [Run.bind_apply, Run.get_apply, hchunk _ (show items.flatten.length < e.minBlockSize by omega), Run.lift_ok]
    rw [if_pos (show items.flatten.length < e.minBlockSize by omega)]
    simp only [Run.bind_apply, happ, Run.lift_ok, Run.set_apply]

end Refused

/-- C99, exactly, in the encoder: if the values of a buffer of the other nullability would have been taken without a
block being written had there been no validity at all, then the buffer is refused by a panic that leaves the values in
the encoder as if they had been taken, and the validity as it was. -/
theorem C99_refused_encode (p : Profile) (b : BinaryBuffer) (e e' : BinaryEnc.Encoder)
    (hmis : e.remaining.validity.isSome ≠ b.validity.isSome) (hne : b.offsets ≠ [])
    (h : BinaryEnc.encode p recorder (Refused.plain b) ({ e with remaining := Refused.plain e.remaining }, []) =
      (.ok (), (e', []))) (k : Sink S) (s : S) :
    BinaryEnc.encode p k b (e, s) = (.error (.panic (Refused.panic e.remaining)),
      ({ e with remaining := ⟨e'.remaining.data, e'.remaining.offsets, e.remaining.validity⟩ }, s)) ∧
    e' = { e with remaining := ⟨e'.remaining.data, e'.remaining.offsets, none⟩ } := by
  have hlen := List.length_pos_iff.2 hne
  simp only [BinaryEnc.encode, Run.bind_apply, Run.get_apply] at h ⊢
  by_cases hl : e.remaining.len > 0
  · rw [if_pos (show (Refused.plain e.remaining).len > 0 from hl)] at h
    rw [if_pos hl]
    simp only [Run.bind_apply] at h ⊢
    rcases hr : p.sub 64 e.minBlockSize e.remaining.data.length with x | room
    · rw [hr] at h; cases (Prod.mk.inj h).1
    rw [hr] at h
    simp only [Run.lift_ok] at h ⊢
    rcases hc : BinaryEnc.chunk p b 0 room with x | c
    · rw [show BinaryEnc.chunk p (Refused.plain b) 0 room = _ from hc] at h; cases (Prod.mk.inj h).1
    rw [show BinaryEnc.chunk p (Refused.plain b) 0 room = _ from hc] at h
    simp only [Run.lift_ok] at h ⊢
    rcases ha : (Refused.plain e.remaining).appendFrom p (Refused.plain b) c.startPos c.endPos 0 with x | ⟨d, n⟩
    · rw [ha] at h; cases (Prod.mk.inj h).1
    obtain ⟨h1, h2, h3⟩ := Refused.append p hmis ha
    rw [ha] at h
    simp only [Run.lift_ok, Run.set_apply] at h
    simp only [h1, h2, Run.lift_left]
    split at h
    · simp only [Run.pure_apply, Prod.mk.injEq] at h
      obtain ⟨_, rfl, _⟩ := h
      exact ⟨rfl, by rw [← h3]⟩
    · exfalso
      simp only [Run.bind_apply, BinaryEnc.writeRemaining, Run.get_apply] at h
      rcases hw : BinaryEnc.wholeChunk d with x | c'
      · rw [hw] at h; cases (Prod.mk.inj h).1
      rw [hw] at h
      simp only [Run.lift_ok] at h
      rcases hb : BinaryEnc.writeBlock p recorder d c' 0 ({ e with remaining := d }, []) with ⟨x | r, e1, l1⟩
      · rw [hb] at h; cases (Prod.mk.inj h).1
      rw [hb] at h
      simp only [Run.set_apply] at h
      obtain ⟨_, _, _, rfl⟩ := BinaryEnc.writeBlock_written p _ _ _ _ _ _ _ _ hb
      obtain ⟨bs, hbs⟩ := BinaryEnc.grows (BinaryEnc.encodeLoop_follows p recorder _ _ _ _) h
      simp at hbs
  · rw [if_neg (show ¬ (Refused.plain e.remaining).len > 0 from hl)] at h
    rw [if_neg hl]
    rw [BinaryEnc.encodeLoop, if_pos (show 0 < (Refused.plain b).offsets.length from hlen)] at h
    rw [BinaryEnc.encodeLoop, if_pos hlen]
    simp only [Run.bind_apply, Run.get_apply] at h ⊢
    rcases hc : BinaryEnc.chunk p b 0 e.minBlockSize with x | c
    · rw [show BinaryEnc.chunk p (Refused.plain b) 0 e.minBlockSize = _ from hc] at h; cases (Prod.mk.inj h).1
    rw [show BinaryEnc.chunk p (Refused.plain b) 0 e.minBlockSize = _ from hc] at h
    simp only [Run.lift_ok] at h ⊢
    by_cases hs : c.size < e.minBlockSize
    · rw [if_pos hs] at h ⊢
      simp only [Run.bind_apply] at h ⊢
      rcases ha : (Refused.plain e.remaining).appendFrom p (Refused.plain b) c.startPos c.endPos 0 with x | ⟨d, n⟩
      · rw [ha] at h; cases (Prod.mk.inj h).1
      obtain ⟨h1, h2, h3⟩ := Refused.append p hmis ha
      rw [ha] at h
      simp only [Run.lift_ok, Run.set_apply, Prod.mk.injEq] at h
      obtain ⟨_, rfl, _⟩ := h
      simp only [h1, h2, Run.lift_left]
      exact ⟨rfl, by rw [← h3]⟩
    · exfalso
      rw [if_neg hs] at h
      simp only [Run.bind_apply] at h
      rcases hb : BinaryEnc.writeBlock p recorder (Refused.plain b) c 0
        ({ e with remaining := Refused.plain e.remaining }, []) with ⟨x | r, e1, l1⟩
      · rw [hb] at h; cases (Prod.mk.inj h).1
      rw [hb] at h
      obtain ⟨_, _, _, rfl⟩ := BinaryEnc.writeBlock_written p _ _ _ _ _ _ _ _ hb
      obtain ⟨bs, hbs⟩ := BinaryEnc.grows (BinaryEnc.encodeLoop_follows p recorder _ _ _ _) h
      simp at hbs

/-- C99 for a column that is not nullable: the state after the panic is the state after a `write` of the same values in
a buffer without nulls. Whatever is done with the segment later, its files are those of a segment with these values. -/
theorem C99_refused_exact (p : Profile) (os : SegmentOs) (b : BinaryBuffer) (c : ColumnWriter) (w : SegmentWriter)
    (e e' : BinaryEnc.Encoder) (hc : c.encoder = .raw e) (he : e.remaining.validity = none)
    (hb : b.validity.isSome = true) (hne : b.offsets ≠ [])
    (h : BinaryEnc.encode p recorder ⟨b.data, b.offsets, none⟩ (e, []) = (.ok (), (e', []))) :
    ColumnWriter.write p os b (c, w) = (.error (.panic .expect), ({ c with encoder := .raw e' }, w)) ∧
    ColumnWriter.write p os ⟨b.data, b.offsets, none⟩ (c, w) = (.ok (), ({ c with encoder := .raw e' }, w)) := by
  have hsame : ({ e with remaining := Refused.plain e.remaining } : BinaryEnc.Encoder) = e := by
    rw [Refused.plain, ← he]
  obtain ⟨h1, h2⟩ := C99_refused_encode p b e e' (by rw [he, hb]; simp) hne (by rw [hsame]; exact h)
    (blockSink p os.data) (w.dataWriter, w.blockIndex)
  rw [he, ← h2] at h1
  have h3 : BinaryEnc.encode p (blockSink p os.data) ⟨b.data, b.offsets, none⟩ (e, (w.dataWriter, w.blockIndex)) =
      (.ok (), (e', (w.dataWriter, w.blockIndex))) := by
    obtain ⟨bs, r, e1, h4, h5⟩ := (C38_binary_sink_errors p (blockSink p os.data)).1 ⟨b.data, b.offsets, none⟩ e
    rw [h4 []] at h
    simp only [List.nil_append, Prod.mk.injEq] at h
    obtain ⟨rfl, rfl, rfl⟩ := h
    exact h5 _
  refine ⟨?_, ?_⟩
  · simp only [ColumnWriter.write, ColumnWriter.onSink, BinaryEncoder.encode, Run.bind_apply, Run.get_apply, hc,
      BinaryEncoder.onRaw, h1]
    simp [Refused.panic, he]
  · simp only [ColumnWriter.write, ColumnWriter.onSink, BinaryEncoder.encode, Run.bind_apply, Run.get_apply, hc,
      BinaryEncoder.onRaw, h3]

/-- The same for buffers filled through the API, both nullabilities: a buffer of the other nullability that does not
complete a block is refused, and its values are found behind the ones held back. -/
theorem C99_refused_small (p : Profile) (k : Sink S) (nullable : Bool) (rows : List (Option Bytes)) (b : BinaryBuffer)
    (hb : (BinaryBuffer.new nullable).pushAll rows = .ok b) (e : BinaryEnc.Encoder) (s : S) (held : List Bytes)
    (hmis : e.remaining.validity.isSome ≠ nullable) (he1 : e.remaining.data = held.flatten)
    (he2 : e.remaining.offsets = offsetsOf 0 held)
    (hB : held.flatten.length + (valuesOf rows).flatten.length < e.minBlockSize)
    (hU : held.flatten.length + (valuesOf rows).flatten.length < 2 ^ 32 - 1) :
    BinaryEnc.encode p k b (e, s) = (.error (.panic (if e.remaining.validity.isSome then .assertion else .expect)),
      ({ e with remaining := ⟨(held ++ valuesOf rows).flatten, offsetsOf 0 (held ++ valuesOf rows),
          e.remaining.validity⟩ }, s)) := by
  obtain ⟨_, _, rfl⟩ := BinaryBuffer.new_pushAll_ok hb
  have hv : (BinaryBuffer.ofRows nullable rows).validity.isSome = nullable := by cases nullable <;> rfl
  have hh := Refused.held_back p (Refused.plain (BinaryBuffer.ofRows nullable rows))
    { e with remaining := Refused.plain e.remaining } held (valuesOf rows) rfl rfl rfl he1 he2 rfl hB hU
  exact (C99_refused_encode p _ e _ (by rw [hv]; exact hmis) (by simp [BinaryBuffer.ofRows, offsetsOf]) hh k s).1

/-- The same when rows are held back and the buffer would complete the block: the items up to that point are found
behind those held back. -/
theorem C99_refused_held (p : Profile) (k : Sink S) (nullable : Bool) (rows : List (Option Bytes)) (b : BinaryBuffer)
    (hb : (BinaryBuffer.new nullable).pushAll rows = .ok b) (e : BinaryEnc.Encoder) (s : S) (held : List Bytes)
    (hmis : e.remaining.validity.isSome ≠ nullable) (he1 : e.remaining.data = held.flatten)
    (he2 : e.remaining.offsets = offsetsOf 0 held) (hne : held ≠ []) (hB : held.flatten.length ≤ e.minBlockSize) (j : Nat)
    (hj : fill (e.minBlockSize - held.flatten.length) (valuesOf rows) = some j)
    (hU : (held ++ (valuesOf rows).take j).flatten.length < 2 ^ 32 - 1) :
    BinaryEnc.encode p k b (e, s) = (.error (.panic (if e.remaining.validity.isSome then .assertion else .expect)),
      ({ e with remaining := ⟨(held ++ (valuesOf rows).take j).flatten, offsetsOf 0 (held ++ (valuesOf rows).take j),
          e.remaining.validity⟩ }, s)) ∧
    e.minBlockSize ≤ (held ++ (valuesOf rows).take j).flatten.length := by
  obtain ⟨_, _, rfl⟩ := BinaryBuffer.new_pushAll_ok hb
  have hv : (BinaryBuffer.ofRows nullable rows).validity.isSome = nullable := by cases nullable <;> rfl
  obtain ⟨h1, h2, _⟩ := BinaryEnc.fill_some hj
  have happ := Refused.append_items p (Refused.plain (BinaryBuffer.ofRows nullable rows)) (Refused.plain e.remaining) held
    ((valuesOf rows).take j) ((valuesOf rows).drop j) (by rw [List.take_append_drop]; rfl)
    (by rw [List.take_append_drop]; rfl) rfl he1 he2 rfl (by rwa [List.flatten_append, List.length_append] at hU)
  rw [List.length_take, Nat.min_eq_left h1] at happ
  obtain ⟨h3, h4, _⟩ := Refused.append p (d := e.remaining) (b := BinaryBuffer.ofRows nullable rows)
    (by rw [hv]; exact hmis) happ
  have hc := BinaryEnc.chunk_eq p (BinaryBuffer.ofRows nullable rows) [] (valuesOf rows) rfl
    (e.minBlockSize - held.flatten.length)
  rw [hj] at hc
  simp only [List.length_nil, p.sub_ok (Nat.zero_le j), ok_bind, Nat.sub_zero] at hc
  have hlen : e.remaining.len > 0 := by
    simp only [BinaryBuffer.len, he2, offsetsOf_length]
    have := List.length_pos_iff.2 hne
    omega
  refine ⟨?_, by rw [List.flatten_append, List.length_append]; omega⟩
  simp only [BinaryEnc.encode, Run.bind_apply, Run.get_apply]
  rw [if_pos hlen]
  simp only [Run.bind_apply, p.sub_ok (show e.remaining.data.length ≤ e.minBlockSize by rw [he1]; exact hB), Run.lift_ok]
  rw [he1, hc]
  simp only [Pure.pure, Except.pure, Run.lift_ok, h3, h4, Run.lift_left]
  rfl

/-- C99 as far as it holds: a refused buffer without any value leaves the column writer and the segment as they were. -/
theorem C99_refused_partial (p : Profile) (os : SegmentOs) (nullable : Bool) (rows : List (Option Bytes))
    (b : BinaryBuffer) (hb : (BinaryBuffer.new nullable).pushAll rows = .ok b) (c : ColumnWriter) (w : SegmentWriter)
    (e : BinaryEnc.Encoder) (hc : c.encoder = .raw e) (held : List Bytes)
    (hmis : e.remaining.validity.isSome ≠ nullable) (he1 : e.remaining.data = held.flatten)
    (he2 : e.remaining.offsets = offsetsOf 0 held) (hB : held.flatten.length < e.minBlockSize)
    (hU : held.flatten.length < 2 ^ 32 - 1) (hno : valuesOf rows = []) :
    ∃ x, ColumnWriter.write p os b (c, w) = (.error (.panic x), (c, w)) := by
  have h := C99_refused_small p (blockSink p os.data) nullable rows b hb e (w.dataWriter, w.blockIndex) held hmis he1 he2
    (by rw [hno]; simpa using hB) (by rw [hno]; simpa using hU)
  rw [hno, List.append_nil, ← he1, ← he2] at h
  exact ⟨if e.remaining.validity.isSome then .assertion else .expect, by
    simp only [ColumnWriter.write, ColumnWriter.onSink, BinaryEncoder.encode, Run.bind_apply, Run.get_apply, hc,
      BinaryEncoder.onRaw, h]
    rw [← hc]⟩

/-- C99 is false of the code. Whatever the segment, in a new column that is not nullable every buffer with nulls that is
smaller than a block and has a value is refused by a panic, but its values stay in the column: the state is that after
a `write` of the same values without nulls, which returns normally. -/
theorem C99_refused_violated (p : Profile) (os : SegmentOs) (info : ColumnInfo) (hraw : info.encoding = .raw)
    (hnull : info.nullable = false) (w : SegmentWriter) (rows : List (Option Bytes)) (b b' : BinaryBuffer)
    (hb : (BinaryBuffer.new true).pushAll rows = .ok b)
    (hb' : (BinaryBuffer.new false).pushAll ((valuesOf rows).map some) = .ok b')
    (hne : valuesOf rows ≠ []) (hsmall : (valuesOf rows).flatten.length < 128) :
    ∃ c w' st, SegmentWriter.newBinaryColumnWriter info w = (.ok c, w') ∧
      ColumnWriter.write p os b (c, w') = (.error (.panic .expect), st) ∧ st ≠ (c, w') ∧
      ColumnWriter.write p os b' (c, w') = (.ok (), st) := by
  obtain ⟨_, _, rfl⟩ := BinaryBuffer.new_pushAll_ok hb
  obtain ⟨_, _, rfl⟩ := BinaryBuffer.new_pushAll_ok hb'
  have hplain : BinaryBuffer.ofRows false ((valuesOf rows).map some) =
      ⟨(BinaryBuffer.ofRows true rows).data, (BinaryBuffer.ofRows true rows).offsets, none⟩ := by
    simp only [BinaryBuffer.ofRows, PrimitiveEnc.valuesOf_map_some]
    rfl
  have hh := Refused.held_back p (Refused.plain (BinaryBuffer.ofRows true rows)) (BinaryEnc.Encoder.new BLOCK_SIZE false)
    [] (valuesOf rows) rfl rfl rfl rfl rfl rfl (by
      have : (BinaryEnc.Encoder.new BLOCK_SIZE false).minBlockSize = 128 := rfl
      rw [this]; simpa using hsmall) (by rw [List.flatten_nil, List.length_nil]; omega)
  refine ⟨{ columnInfo := info, encoder := .raw (BinaryEnc.Encoder.new BLOCK_SIZE false) },
    { w with blockIndex := w.blockIndex.clear }, ?_⟩
  obtain ⟨h1, h2⟩ := C99_refused_exact p os (BinaryBuffer.ofRows true rows)
    { columnInfo := info, encoder := .raw (BinaryEnc.Encoder.new BLOCK_SIZE false) }
    { w with blockIndex := w.blockIndex.clear } _ _ rfl rfl rfl (by simp [BinaryBuffer.ofRows, offsetsOf]) hh
  refine ⟨_, ?_, h1, ?_, ?_⟩
  · simp only [SegmentWriter.newBinaryColumnWriter, hraw, hnull, newBinaryEncoder]
  · intro heq
    have h3 := congrArg (fun st : ColumnWriter × SegmentWriter => st.1.encoder) heq
    simp only [BinaryEncoder.raw.injEq] at h3
    have h4 := congrArg (fun e : BinaryEnc.Encoder => e.remaining.offsets.length) h3
    simp only [List.nil_append, offsetsOf_length] at h4
    have h5 : (BinaryEnc.Encoder.new BLOCK_SIZE false).remaining.offsets.length = 1 := rfl
    have := List.length_pos_iff.2 hne
    omega
  · rw [hplain]; exact h2

/-- An encoder that holds more values than rows marked as values panics in `flush`, writes nothing and stays as it is. -/
theorem C99_refused_flush (p : Profile) (k : Sink S) (e : BinaryEnc.Encoder) (s : S) (bm : Bitmap) (bits : List Bool)
    (he : e.remaining.validity = some bm) (hr : bm.Reads bits) (hc : bits.count true < e.remaining.len) :
    ∃ x, BinaryEnc.flush p k (e, s) = (.error (.panic x), (e, s)) := by
  have hpos : e.remaining.len > 0 := by omega
  simp only [BinaryEnc.flush, Run.bind_apply, Run.get_apply]
  rw [if_pos hpos]
  have hv : PrimitiveEnc.encodeValidity p e.remaining.validity 0 e.remaining.len e.bitmapEncoder = .error .assertion := by
    rw [he, PrimitiveEnc.encodeValidity, Rle.Encoder.putFrom_eq p hr _ (Rle.Encoder.clear_safe _), List.drop_zero,
      (takeSet_none _ _).2 hc]
    rfl
  simp only [Run.bind_apply, BinaryEnc.writeRemaining, Run.get_apply]
  rcases hw : BinaryEnc.wholeChunk e.remaining with x | c
  · exact ⟨x, rfl⟩
  have hlen : c.len = e.remaining.len := by
    rw [BinaryEnc.wholeChunk] at hw
    split at hw <;> cases hw
    rfl
  have : ∃ x, BinaryEnc.encodeBinaryBuffer p e.remaining c 0 e.bitmapEncoder = .error x := by
    rw [BinaryEnc.encodeBinaryBuffer, hlen, hv]
    rcases Varint.putVarint [] c.size with x | d
    · exact ⟨x, rfl⟩
    rcases slice e.remaining.data c.startOffset c.endOffset with x | ct
    · exact ⟨x, rfl⟩
    simp only [ok_bind]
    rcases BinaryEnc.itemLens p e.remaining (c.endPos - c.startPos) c.startPos with x | ds
    · exact ⟨x, rfl⟩
    simp only [ok_bind]
    rcases Offsets.encode p ds (d ++ ct) with x | ds
    · exact ⟨x, rfl⟩
    exact ⟨_, rfl⟩
  obtain ⟨x, hx⟩ := this
  exact ⟨x, by simp only [Run.lift_ok, BinaryEnc.writeBlock, Run.bind_apply, Run.get_apply, hx, Run.lift_error]⟩

/-- C99 in a nullable column: a refused buffer with values that does not complete a block makes every later `close` of
the column panic. The rows that were taken before and are still held back are lost with it. -/
theorem C99_nullable_stuck (p : Profile) (os : SegmentOs) (rows : List (Option Bytes)) (b : BinaryBuffer)
    (hb : (BinaryBuffer.new false).pushAll rows = .ok b) (c : ColumnWriter) (w : SegmentWriter) (e : BinaryEnc.Encoder)
    (hc : c.encoder = .raw e) (held : List Bytes) (bm : Bitmap) (bits : List Bool)
    (he1 : e.remaining.data = held.flatten) (he2 : e.remaining.offsets = offsetsOf 0 held)
    (he3 : e.remaining.validity = some bm) (hr : bm.Reads bits) (hbits : bits.count true = held.length)
    (hne : rows ≠ []) (hB : held.flatten.length + (valuesOf rows).flatten.length < e.minBlockSize)
    (hU : held.flatten.length + (valuesOf rows).flatten.length < 2 ^ 32 - 1) :
    ∃ st x, ColumnWriter.write p os b (c, w) = (.error (.panic .assertion), st) ∧
      ColumnWriter.close p os st = (.error (.panic x), st) := by
  have hacc : rows = (valuesOf rows).map some := by
    obtain ⟨h1, _, _⟩ := BinaryBuffer.new_pushAll_ok hb
    exact (BinaryEnc.rows_of_nonnull (h1.resolve_left (by simp))).symm
  have hv : 0 < (valuesOf rows).length := by
    rw [← List.length_map (f := some), ← hacc]; exact List.length_pos_iff.2 hne
  have h := C99_refused_small p (blockSink p os.data) false rows b hb e (w.dataWriter, w.blockIndex) held
    (by rw [he3]; simp) he1 he2 hB hU
  rw [he3] at h
  obtain ⟨x, hx⟩ := C99_refused_flush p (blockSink p os.data)
    { e with remaining := ⟨(held ++ valuesOf rows).flatten, offsetsOf 0 (held ++ valuesOf rows), some bm⟩ }
    (w.dataWriter, w.blockIndex) bm bits rfl hr (by
      simp only [BinaryBuffer.len, offsetsOf_length, List.length_append]; omega)
  refine ⟨({ c with encoder := .raw { e with remaining :=
    ⟨(held ++ valuesOf rows).flatten, offsetsOf 0 (held ++ valuesOf rows), some bm⟩ } }, w), x, ?_, ?_⟩
  · simp only [ColumnWriter.write, ColumnWriter.onSink, BinaryEncoder.encode, Run.bind_apply, Run.get_apply, hc,
      BinaryEncoder.onRaw, h]
    rfl
  · simp only [ColumnWriter.close, ColumnWriter.onSink, BinaryEncoder.flush, Run.bind_apply, Run.get_apply,
      BinaryEncoder.onRaw, hx]

/-- C99: an encoder that holds back more than a block, as a refused buffer can leave it (see the example below), refuses
every buffer in a debug build. -/
theorem C99_overfull (k : Sink S) (b : BinaryBuffer) (e : BinaryEnc.Encoder) (s : S) (hl : 0 < e.remaining.len)
    (h : e.minBlockSize < e.remaining.data.length) :
    BinaryEnc.encode .debug k b (e, s) = (.error (.panic .overflow), (e, s)) := by
  simp only [BinaryEnc.encode, Run.bind_apply, Run.get_apply]
  rw [if_pos hl]
  simp only [Run.bind_apply, Profile.sub, if_neg (Nat.not_le.2 h), Run.lift_error]

/-! ## Examples -/

/-- A refused buffer whose value is in the block that the next `flush` writes. -/
example :
    let e := BinaryEnc.Encoder.new 128 false
    let refused := BinaryEnc.encode .debug recorder (BinaryBuffer.ofRows true [some [7], none]) (e, [])
    refused.1 = .error (.panic .expect) ∧
    (BinaryEnc.flush .debug recorder refused.2).2.2 = [(0, [1, 7, 1, 1])] := by decide +kernel

/-- A nullable encoder that holds one row back refuses a buffer; then `flush` panics and the row is not written. -/
example :
    let e := BinaryEnc.Encoder.new 128 true
    let taken := BinaryEnc.encode .release recorder (BinaryBuffer.ofRows true [none, some [7]]) (e, [])
    let refused := BinaryEnc.encode .release recorder (BinaryBuffer.ofRows false [some [8]]) taken.2
    taken.1 = .ok () ∧ refused.1 = .error (.panic .assertion) ∧
    (BinaryEnc.flush .release recorder refused.2).1 = .error (.panic .assertion) ∧
    (BinaryEnc.flush .release recorder refused.2).2.2 = [] := by decide +kernel

/-- A refused buffer leaves more than a block in the encoder; from then on it refuses every buffer, also those of the
column's nullability. -/
example :
    let e := BinaryEnc.Encoder.new 4 false
    let taken := BinaryEnc.encode .debug recorder (BinaryBuffer.ofRows false [some [7]]) (e, [])
    let refused := BinaryEnc.encode .debug recorder (BinaryBuffer.ofRows true [some [8, 8, 8, 8]]) taken.2
    taken.1 = .ok () ∧ refused.1 = .error (.panic .expect) ∧
    refused.2.1.minBlockSize < refused.2.1.remaining.data.length ∧
    (BinaryEnc.encode .debug recorder (BinaryBuffer.ofRows false [some [9]]) refused.2).1 =
      .error (.panic .overflow) := by decide +kernel

end Meerkat
