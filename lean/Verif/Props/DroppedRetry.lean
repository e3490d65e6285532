import Verif.Props.Cancel
import Verif.Props.Dropped
import Verif.Props.RetryHeld

set_option autoImplicit false

/-! # Calls on a column writer that were dropped and are made again (C115) -/

namespace Meerkat

/-! ## What a dropped call is for the encoder: a refused block -/

theorem feed_cut_refused {p : Profile} {os : Os} {j : Nat} {bs : List (Nat × Bytes)} {n : Nat} {s s' : Writer × BlockIndex}
    {r : Except Fault Unit} (h : feed (cutSink p os j) (s, some n) bs = (r, (s', none))) : r = .error .io := by
  induction bs generalizing n s with
  | nil => cases h
  | cons b bs ih =>
    cases n with
    | zero =>
      simp only [feed, cutSink] at h
      rcases h1 : Writer.writeBlockCut p os b.2 j s.1 with _ | w1
      · simp only [h1] at h
        cases h
      · simp only [h1] at h
        exact (Prod.mk.inj h).1.symm
    | succ n =>
      simp only [feed, cutSink] at h
      rcases h1 : (blockSink p os).write s b.1 b.2 with ⟨x | x, s1⟩
      · simp only [h1] at h
        cases h
      · simp only [h1] at h
        exact ih h

/-- A flush that offers a block returns. -/
theorem BinaryEnc.flush_offered {p : Profile} {e e' : BinaryEnc.Encoder} {r : Except Fault Unit} {bs : List (Nat × Bytes)}
    (h : BinaryEnc.flush p recorder (e, []) = (r, (e', bs))) (hb : bs ≠ []) : r = .ok () ∧ 0 < e.remaining.len := by
  by_cases hl : e.remaining.len > 0
  · refine ⟨?_, hl⟩
    rcases hc : BinaryEnc.wholeChunk e.remaining with x | c
    · rw [BinaryEnc.flush, Run.bind_ok (Run.get_apply _)] at h
      dsimp only at h
      rw [if_pos hl, BinaryEnc.writeRemaining] at h
      simp only [Run.bind_apply, Run.get_apply, hc, Run.lift_error, Prod.mk.injEq] at h
      exact absurd h.2.2.symm hb
    rw [BinaryEnc.flush_apply p recorder e [] hl hc] at h
    simp only [BinaryEnc.writeBlock, Run.bind_apply, Run.get_apply] at h
    rcases h1 : BinaryEnc.encodeBinaryBuffer p e.remaining c 0 e.bitmapEncoder with x | res
    · simp only [h1, Run.lift_error, Prod.mk.injEq] at h
      exact absurd h.2.2.symm hb
    simp only [h1, Run.lift_ok, Run.set_apply] at h
    rcases h2 : BinaryEnc.addRows e.numRows res.result.numRows with x | n
    · simp only [h2, Run.lift_error, Prod.mk.injEq] at h
      exact absurd h.2.2.symm hb
    simp only [h2, Run.lift_ok] at h
    rcases h3 : p.sub 32 n 1 with x | i
    · simp only [h3, Run.lift_error, Prod.mk.injEq] at h
      exact absurd h.2.2.symm hb
    simp only [h3, Run.lift_ok, Run.emit_recorder, Run.pure_apply, Prod.mk.injEq] at h
    exact h.1.symm
  · rw [BinaryEnc.flush, Run.bind_ok (Run.get_apply _)] at h
    dsimp only at h
    rw [if_neg hl] at h
    exact absurd (Prod.mk.inj (Prod.mk.inj h).2).2.symm hb

/-- Dropping the close() of a column is, for its encoder, a sink that refuses the block. -/
theorem closeCut_refused {p : Profile} {os : SegmentOs} {j : Nat} {c c' : ColumnWriter} {s s' : SegmentWriter}
    {e : BinaryEnc.Encoder} (hc : c.encoder = .raw e) (h : ColumnWriter.closeCut p os j (c, s) = some (c', s')) :
    ∃ e1 r, c'.encoder = .raw e1 ∧ c'.columnInfo = c.columnInfo ∧
      s' = { s with dataWriter := s'.dataWriter, blockIndex := s'.blockIndex } ∧
      BinaryEnc.flush p (cutSink p os.data j) (e, ((s.dataWriter, s.blockIndex), some 0)) =
        (r, (e1, ((s'.dataWriter, s'.blockIndex), none))) := by
  simp only [ColumnWriter.closeCut, hc, BinaryEncoder.flush, Run.bind_apply, Run.get_apply, BinaryEncoder.onRaw] at h
  rcases hf : BinaryEnc.flush p (cutSink p os.data j) (e, ((s.dataWriter, s.blockIndex), some 0)) with ⟨x | x, e1, ⟨w, b⟩, m⟩
  · simp only [hf] at h
    cases m with
    | some m => cases h
    | none => cases h; exact ⟨e1, _, rfl, rfl, rfl, rfl⟩
  · simp only [hf, Run.pure_apply] at h
    cases m with
    | some m => cases h
    | none => cases h; exact ⟨e1, _, rfl, rfl, rfl, rfl⟩

/-- The same for write(). -/
theorem writeCut_refused {p : Profile} {os : SegmentOs} {buf : BinaryBuffer} {n j : Nat} {c c' : ColumnWriter}
    {s s' : SegmentWriter} {e : BinaryEnc.Encoder} (hc : c.encoder = .raw e)
    (h : ColumnWriter.writeCut p os buf n j (c, s) = some (c', s')) :
    ∃ e1, c'.encoder = .raw e1 ∧
      BinaryEnc.encode p (cutSink p os.data j) buf (e, ((s.dataWriter, s.blockIndex), some n)) =
        (.error .io, (e1, ((s'.dataWriter, s'.blockIndex), none))) := by
  obtain ⟨bs, r, e', -, h2⟩ := BinaryEnc.encode_follows p (cutSink p os.data j) buf e
  have h2 := h2 ((s.dataWriter, s.blockIndex), some n)
  simp only [ColumnWriter.writeCut, hc, BinaryEncoder.encode, Run.bind_apply, Run.get_apply, BinaryEncoder.onRaw] at h
  rcases hf : feed (cutSink p os.data j) ((s.dataWriter, s.blockIndex), some n) bs with ⟨x | x, s1, m⟩
  · rw [hf] at h2
    obtain ⟨e1, h2⟩ := h2
    simp only [h2] at h
    cases m with
    | some m => cases h
    | none =>
      cases h
      cases feed_cut_refused hf
      exact ⟨e1, rfl, h2⟩
  · rw [hf] at h2
    simp only [h2] at h
    cases m with
    | some m => cases h
    | none => cases feed_cut_refused hf

/-! ## What happens when they are made again -/

/-- C115, close(), exactly. The close() of a column is dropped while it writes the block that was held back, `block` with
row id `id` and `n` rows. A part of the block is in the file, with no index entry, and the position is where the whole
would have ended. A close() called again offers the same bytes once more, with a row id that is too large by `n`, or panics if
the rows counted twice do not fit a `u32`. -/
theorem C115_dropped_close_exact (p : Profile) (os : SegmentOs) (c c' : ColumnWriter) (s s' : SegmentWriter)
    (data sy : Bytes) (j : Nat) (e : BinaryEnc.Encoder) (hc : c.encoder = .raw e) (he : e.numRows < 2 ^ 32)
    (hg : GoodWriter s.dataWriter data sy) (h : ColumnWriter.closeCut p os j (c, s) = some (c', s')) :
    let t := j * os.data.maxBuf
    ∃ e0 e1 id block n, c'.encoder = .raw e1 ∧ c'.columnInfo = c.columnInfo ∧
    BinaryEnc.flush p recorder (e, []) = (.ok (), (e0, [(id, block)])) ∧ 1 ≤ n ∧ id + 1 = e.numRows + n ∧
    t < block.length ∧
    s'.dataWriter.file.content ++ s'.dataWriter.file.pending = data ++ block.take t ∧
    s'.dataWriter.pos = (data.length + block.length) % 2 ^ 64 ∧ s'.blockIndex = s.blockIndex ∧
    s'.indexWriter = s.indexWriter ∧ s'.segmentMeta = s.segmentMeta ∧
    ∀ l, ∃ e2, BinaryEnc.flush p recorder (e1, l) =
      if id + n + 1 < 2 ^ 32 then (.ok (), (e2, l ++ [(id + n, block)])) else (.error (.panic .expect), (e2, l)) := by
  intro t
  obtain ⟨e1, r, h1, h2, h3, h4⟩ := closeCut_refused hc h
  obtain ⟨bs, r0, e0, g1, g2⟩ := BinaryEnc.flush_follows p (cutSink p os.data j) e
  have g2 := g2 ((s.dataWriter, s.blockIndex), some 0)
  rcases hf : feed (cutSink p os.data j) ((s.dataWriter, s.blockIndex), some 0) bs with ⟨x | x, ⟨w, i⟩, m⟩
  · rw [hf] at g2
    obtain ⟨e1', g2⟩ := g2
    rw [h4] at g2
    simp only [Prod.mk.injEq] at g2
    obtain ⟨-, rfl, ⟨rfl, rfl⟩, rfl⟩ := g2
    obtain ⟨b, w1, k1, k2, k3⟩ := feed_cut hf
    have hb : bs ≠ [] := by rintro rfl; cases k1
    have g0 := g1 []
    rw [List.nil_append] at g0
    obtain ⟨rfl, hl⟩ := BinaryEnc.flush_offered g0 hb
    obtain ⟨id, block, n, q1, q2, q3, q4⟩ := C65_binary_flush_partial p (cutSink p os.data j) e e0 he hl bs g0
    subst q1
    simp only [List.getElem?_cons_zero, Option.some.injEq] at k1
    subst k1
    simp only [List.take_zero, feed, Prod.mk.injEq] at k2
    obtain ⟨-, rfl, hi⟩ := k2
    obtain ⟨e1'', q5, q6⟩ := q4 ((s.dataWriter, s.blockIndex), some 0) .io ((s'.dataWriter, s.blockIndex), none) (by
      simp only [cutSink, k3])
    rw [h4] at q5
    simp only [Prod.mk.injEq] at q5
    obtain ⟨-, rfl, -⟩ := q5
    obtain ⟨h11, h12⟩ := hg.skewed.cut k3
    have hp := h12.pos
    refine ⟨e0, e1, id, block, n, h1, h2, g0, q2, q3, h11, h12.content, ?_, hi.symm, by rw [h3], by rw [h3], q6⟩
    rw [List.length_append, List.length_take] at hp
    rw [hp]
    congr 1
    dsimp only at h11 ⊢
    omega
  · rw [hf] at g2
    dsimp only at g2
    rw [h4] at g2
    simp only [Prod.mk.injEq] at g2
    obtain ⟨-, -, -, rfl⟩ := g2
    cases feed_cut_refused hf

/-- C115, write() with nothing held back, exactly: if it is dropped while it writes a block and called again, it offers every
block of the buffer again, the ones already written included, with row ids that are too large by the rows counted before. -/
theorem C115_dropped_write_exact (p : Profile) (os : SegmentOs) (c c' : ColumnWriter) (s s' : SegmentWriter)
    (buf : BinaryBuffer) (n j : Nat) (e : BinaryEnc.Encoder) (hc : c.encoder = .raw e) (h0 : e.remaining.len = 0)
    (h : ColumnWriter.writeCut p os buf n j (c, s) = some (c', s')) :
    ∃ e1 m, c'.encoder = .raw e1 ∧ 1 ≤ m ∧ e1.numRows = e.numRows + m ∧
      ∀ r e0 bs, BinaryEnc.encode p recorder buf (e, []) = (r, (e0, bs)) → n < bs.length ∧ (e0.numRows + m < 2 ^ 32 →
        ∃ e2, ∀ l, BinaryEnc.encode p recorder buf (e1, l) = (r, (e2, l ++ shiftIds m bs))) := by
  obtain ⟨e1, h1, h2⟩ := writeCut_refused hc h
  obtain ⟨m, h3, h4, h5⟩ := C65_binary_encode_partial p _ buf e e1 _ _ h0 h2
  refine ⟨e1, m, h1, h3, h4, fun r e0 bs hb => ⟨?_, h5 r e0 bs hb⟩⟩
  obtain ⟨bs', r', e', g1, g2⟩ := BinaryEnc.encode_follows p (cutSink p os.data j) buf e
  have g0 := g1 []
  rw [hb, List.nil_append] at g0
  simp only [Prod.mk.injEq] at g0
  obtain ⟨rfl, rfl, rfl⟩ := g0
  have g2 := g2 ((s.dataWriter, s.blockIndex), some n)
  rcases hf : feed (cutSink p os.data j) ((s.dataWriter, s.blockIndex), some n) bs with ⟨x | x, ⟨w, i⟩, m⟩
  · rw [hf] at g2
    obtain ⟨_, g2⟩ := g2
    rw [h2] at g2
    simp only [Prod.mk.injEq] at g2
    obtain ⟨-, -, ⟨rfl, rfl⟩, rfl⟩ := g2
    obtain ⟨b, _, k1, _, _⟩ := feed_cut hf
    exact (List.getElem?_eq_some_iff.1 k1).1
  · rw [hf] at g2
    dsimp only at g2
    rw [h2] at g2
    simp only [Prod.mk.injEq] at g2
    obtain ⟨-, -, -, rfl⟩ := g2
    cases feed_cut_refused hf

/-- C115, write() with rows held back. Either a later block than the first was being written: nothing is held back any
more, and calling again offers the blocks of the buffer alone, with moved row ids. Or it was the first: it is still held back, and
close() offers it with the row id moved on; for calling write() again see `C65_binary_held_partial`. -/
theorem C115_dropped_write_held_partial (p : Profile) (os : SegmentOs) (c c' : ColumnWriter) (s s' : SegmentWriter)
    (buf : BinaryBuffer) (items : List Bytes) (hb : BinaryEnc.Items buf items) (hsize : items.flatten.length < U32_MAX)
    (n j : Nat) (e : BinaryEnc.Encoder) (hc : c.encoder = .raw e) (he : e.numRows < 2 ^ 32) (hm : 0 < e.minBlockSize)
    (hl : 0 < e.remaining.len) (h : ColumnWriter.writeCut p os buf n j (c, s) = some (c', s')) :
    ∃ e1 m, c'.encoder = .raw e1 ∧ 1 ≤ m ∧ e1.numRows = e.numRows + m ∧
      ((e1.remaining.len = 0 ∧
        ∀ r e0 bs, BinaryEnc.encode p recorder buf ({ e with remaining := e1.remaining }, []) = (r, (e0, bs)) →
          e0.numRows + m < 2 ^ 32 →
          ∃ e2, ∀ l, BinaryEnc.encode p recorder buf (e1, l) = (r, (e2, l ++ shiftIds m bs))) ∨
      (0 < e1.remaining.len ∧ ∃ id data, id + 1 = e.numRows + m ∧
        ∀ l, ∃ e2, BinaryEnc.flush p recorder (e1, l) =
          if id + m + 1 < 2 ^ 32 then (.ok (), (e2, l ++ [(id + m, data)])) else (.error (.panic .expect), (e2, l)))) := by
  obtain ⟨e1, h1, h2⟩ := writeCut_refused hc h
  obtain ⟨m, h3, h4, -, h5⟩ := C65_binary_held_partial p _ buf items hb hsize e e1 _ _ he hm hl h2
  refine ⟨e1, m, h1, h3, h4, ?_⟩
  rcases h5 with h5 | ⟨h5, id, d, -, h6, h7, -⟩
  · exact .inl h5
  · exact .inr ⟨h5, id, d, h6, h7⟩

/-- A snappy column: its write() offers the same block again. -/
theorem C115_dropped_snappy (p : Profile) (os : SegmentOs) (c c' : ColumnWriter) (s s' : SegmentWriter)
    (buf : BinaryBuffer) (n j : Nat) (hc : c.encoder = .snappy) :
    (ColumnWriter.writeCut p os buf n j (c, s) = some (c', s') → c'.encoder = .snappy) ∧
    ColumnWriter.closeCut p os j (c, s) = none := by
  constructor
  · intro h
    simp only [ColumnWriter.writeCut, hc, BinaryEncoder.encode, Run.bind_apply, Run.get_apply, Run.emit] at h
    rcases hf : (cutSink p os.data j).write ((s.dataWriter, s.blockIndex), some n) 43243 SNAPPY_BLOCK with ⟨r, ⟨w, b⟩, m⟩
    simp only [hf] at h
    cases m with
    | some m => cases h
    | none => cases h; rfl
  · simp only [ColumnWriter.closeCut, hc, BinaryEncoder.flush, Run.bind_apply, Run.get_apply, Run.pure_apply]

/-- The data file and the block index after the calls of one column. -/
def filledBy (ops : List CutColOp) : Option (Bytes × List (Nat × Nat)) :=
  match SegmentWriter.new .debug .reliable exampleInfo with
  | .error _ => none
  | .ok s => (runCutSeg .debug .reliable [.column (exampleColumn "a") ops] s).map fun s =>
      (s.dataWriter.file.content ++ s.dataWriter.file.pending, s.blockIndex.entries)

/-- **C115 is violated.** Two rows, closed at once: row id 1, and the block ends where the file does. If the close() is
dropped once and then called again with success, the row id is 3, the file has a piece of the block twice, and the index
says that the block ends past the end of the file. -/
theorem C115_dropped_close_violated :
    filledBy [.call (.write exampleBuffer), .call .close] =
      some ([77, 69, 69, 82, 75, 65, 84, 95, 68, 65, 84, 65, 49, 3, 120, 121, 122, 2, 2], [(1, 19)]) ∧
    filledBy [.call (.write exampleBuffer), .closeCut 1, .call .close] =
      some ([77, 69, 69, 82, 75, 65, 84, 95, 68, 65, 84, 65, 49, 3, 120, 3, 120, 121, 122, 2, 2], [(3, 25)]) := by
  decide +kernel

end Meerkat
