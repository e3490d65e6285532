import Verif.Proofs.Segment
import Verif.Props.BlockWriter

set_option autoImplicit false

/-! # Column and segment writers: C38 (column writer), C42, C46, C47 -/

namespace Meerkat

/-- Both files on a file system on which nothing fails. -/
def SegmentOs.reliable : SegmentOs := { data := .reliable, index := .reliable }

/-- The maps iterated in the order of insertion. -/
def HashOrder.insertion : HashOrder :=
  { columnsMeta := id, columnsLayout := id, columnsMeta_perm := fun _ => .refl _, columnsLayout_perm := fun _ => .refl _ }

/-- The maps iterated backwards. -/
def HashOrder.backwards : HashOrder :=
  { columnsMeta := List.reverse, columnsLayout := List.reverse,
    columnsMeta_perm := List.reverse_perm, columnsLayout_perm := List.reverse_perm }

/-- A segment to use in examples. -/
def exampleInfo : SegmentInfo :=
  { segmentId := List.replicate 16 7, databaseName := "db", tableName := "t", shardId := 3, numRows := 2 }

/-- A column to use in examples. -/
def exampleColumn (name : String) : ColumnInfo :=
  { name, columnType := .string, encoding := .raw, indexType := .noIndex, nullable := false }

/-- A buffer to use in examples: the strings `xy` and `z`. -/
def exampleBuffer : BinaryBuffer :=
  { data := [120, 121, 122], offsets := [0, 2, 3], validity := none }

instance (r : SegResult) : Decidable r.Good := by
  cases r <;> simp only [SegResult.Good] <;> infer_instance

/-- To check examples by computation. -/
theorem exists_ok {α : Type} {x : Except Fault α} {P : α → Prop} [DecidablePred P]
    (h : (match x with | .ok a => decide (P a) | .error _ => false) = true) : ∃ a, x = .ok a ∧ P a := by
  cases x with
  | ok a => exact ⟨a, rfl, of_decide_eq_true h⟩
  | error e => cases h

/-! ## C38: column writers -/

/-- C38, column writer. A call of the boxed encoder offers the blocks of its error-free run up to the first
one the sink fails on; `ColumnWriter::write` and `close` return the sink's fault, and touch nothing but
the data file, the block index and the encoder. -/
theorem C38_column_writer_sink_errors (p : Profile) (os : SegmentOs) :
    (∀ {S : Type} (k : Sink S) (b : BinaryBuffer),
      Follows k (BinaryEncoder.encode p k b) (BinaryEncoder.encode p recorder b)) ∧
    (∀ {S : Type} (k : Sink S), Follows k (BinaryEncoder.flush p k) (BinaryEncoder.flush p recorder)) ∧
    (∀ (b : BinaryBuffer) (c : ColumnWriter) (s : SegmentWriter), ∃ bs r e',
      (∀ l, BinaryEncoder.encode p recorder b (c.encoder, l) = (r, (e', l ++ bs))) ∧
      match feed (blockSink p os.data) (s.dataWriter, s.blockIndex) bs with
      | (.ok (), (w, i)) => ColumnWriter.write p os b (c, s) =
          (r, ({ c with encoder := e' }, { s with dataWriter := w, blockIndex := i }))
      | (.error f, (w, i)) => ∃ e'', ColumnWriter.write p os b (c, s) =
          (.error f, ({ c with encoder := e'' }, { s with dataWriter := w, blockIndex := i }))) ∧
    (∀ (c : ColumnWriter) (s : SegmentWriter), ∃ bs r e',
      (∀ l, BinaryEncoder.flush p recorder (c.encoder, l) = (r, (e', l ++ bs))) ∧
      match feed (blockSink p os.data) (s.dataWriter, s.blockIndex) bs with
      | (.ok (), (w, i)) => ∀ f, r = .error f → ColumnWriter.close p os (c, s) =
          (.error f, ({ c with encoder := e' }, { s with dataWriter := w, blockIndex := i }))
      | (.error f, (w, i)) => ∃ e'', ColumnWriter.close p os (c, s) =
          (.error f, ({ c with encoder := e'' }, { s with dataWriter := w, blockIndex := i }))) := by
  refine ⟨fun k b => BinaryEncoder.encode_follows p k b, fun k => BinaryEncoder.flush_follows p k, ?_, ?_⟩
  · intro b c s
    obtain ⟨bs, r, e', h1, h2⟩ := BinaryEncoder.encode_follows p (blockSink p os.data) b c.encoder
    refine ⟨bs, r, e', h1, ?_⟩
    have := h2 (s.dataWriter, s.blockIndex)
    rcases hf : feed (blockSink p os.data) (s.dataWriter, s.blockIndex) bs with ⟨x | x, w, i⟩
    · rw [hf] at this
      obtain ⟨e'', he⟩ := this
      exact ⟨e'', by simp only [ColumnWriter.write, ColumnWriter.onSink, he]⟩
    · rw [hf] at this
      dsimp only
      simp only [ColumnWriter.write, ColumnWriter.onSink]
      rw [this]
  · intro c s
    obtain ⟨bs, r, e', h1, h2⟩ := BinaryEncoder.flush_follows p (blockSink p os.data) c.encoder
    refine ⟨bs, r, e', h1, ?_⟩
    have := h2 (s.dataWriter, s.blockIndex)
    rcases hf : feed (blockSink p os.data) (s.dataWriter, s.blockIndex) bs with ⟨x | x, w, i⟩
    · rw [hf] at this
      obtain ⟨e'', he⟩ := this
      exact ⟨e'', by simp only [ColumnWriter.close, Run.bind_apply, ColumnWriter.onSink, he]⟩
    · rw [hf] at this
      rintro f rfl
      simp only [ColumnWriter.close, Run.bind_apply, ColumnWriter.onSink]
      rw [this]

/-! ## C42: the block index -/

/-- C42: from any writer without a kept error whose file, together with the pending write, holds `data` at
position `data.length`, and an empty index, if the sink accepts the blocks `bs`, then the file is `data`
followed by the blocks, and the index has one entry for each block, which brackets it. -/
theorem C42_index_brackets_blocks (p : Profile) (os : Os) (w w' : Writer) (data : Bytes) (i i' : BlockIndex)
    (bs : List (Nat × Bytes)) (herr : w.file.lastErr = false)
    (hdata : w.file.content ++ w.file.pending = data) (hpos : w.pos = data.length)
    (hfit : data.length + (concatBlocks bs).length < 2 ^ 64)
    (h : feed (blockSink p os) (w, i.clear) bs = (.ok (), (w', i'))) :
    w'.file.content ++ w'.file.pending = data ++ concatBlocks bs ∧
    i'.blockRowId.length = bs.length ∧ i'.blockOffset.length = bs.length ∧
    Brackets (w'.file.content ++ w'.file.pending) data.length i'.entries bs := by
  obtain ⟨h1, h3, h4⟩ := feed_sink (data := data)
    ⟨herr, hdata, by rw [hpos, Nat.mod_eq_of_lt (by omega)], rfl⟩ h
  have h2 := h1.content
  simp only [BlockIndex.clear, List.nil_append] at h3 h4
  rw [blockEnds_mod hfit] at h4
  refine ⟨h2, by simp [h3], by rw [h4, blockEnds_length], ?_⟩
  rw [h2, BlockIndex.entries, h3, h4]
  simpa using blockEnds_brackets data [] bs

/-- Three blocks, one of them empty, behind a header. -/
example : ∃ w w', Writer.new .reliable = .ok w ∧
    Writer.writeBlock .debug .reliable [9, 9] w = (.ok (), w') ∧
    ((feed (blockSink .debug .reliable) (w', BlockIndex.new) [(4, [1, 2, 3]), (5, []), (8, [7])]).1 = .ok () ∧
    (feed (blockSink .debug .reliable) (w', BlockIndex.new) [(4, [1, 2, 3]), (5, []), (8, [7])]).2.2.entries =
      [(4, 5), (5, 5), (8, 6)]) := by
  refine ⟨_, _, rfl, rfl, ?_⟩
  decide +kernel

/-- The condition that no write failed before cannot be dropped: `write_block` moves the position before it
writes, so after a failed write the entries no longer bracket the blocks. Here the first write fails in
the background, the next block is refused, and the index entry of the one after it is past the end of the file. -/
theorem C42_after_failed_write : ∃ w, Writer.new (.failsAt 0) = .ok w ∧
    let one := feed (blockSink .debug (.failsAt 0)) (w, BlockIndex.new) [(0, [1, 2])]
    let two := feed (blockSink .debug (.failsAt 0)) one.2 [(1, [3, 4])]
    let three := feed (blockSink .debug (.failsAt 0)) two.2 [(2, [5, 6])]
    one.1 = .ok () ∧ two.1 = .error .io ∧ three.1 = .ok () ∧
    three.2.1.file.content ++ three.2.1.file.pending = [1, 5, 6] ∧ three.2.2.entries = [(0, 2), (2, 6)] := by
  refine exists_ok ?_
  decide +kernel

/-! ## C46: framing -/

theorem leNumber_leBytes64 {n : Nat} (h : n < 2 ^ 64) : leNumber (SegmentWriter.leBytes64 n) = n := by
  simp only [SegmentWriter.leBytes64, List.range, List.range.loop, List.map_cons, List.map_nil, leNumber,
    UInt8.toNat_ofNat']
  omega

theorem leBytes64_length (n : Nat) : (SegmentWriter.leBytes64 n).length = 8 := by
  simp [SegmentWriter.leBytes64]

/-- C46: after any history without a failing call that ends with a close of the segment, nothing is pending, the data
file starts with its signature, the index file is a body that starts with its signature, the metadata, and
8 bytes that hold the length of the body. -/
theorem C46_files_framed (p : Profile) (os : SegmentOs) (info : SegmentInfo) (s s' : SegmentWriter)
    (hnew : SegmentWriter.new p os info = .ok s) (ops : List SegOp) (order : HashOrder) (results : List SegResult)
    (hrun : runSeg p os (ops ++ [.close order]) s = (results, s')) (hgood : ∀ x ∈ results, x.Good)
    (hlen : s'.indexWriter.file.content.length < 2 ^ 64) :
    s'.indexWriter.file.pending = [] ∧ s'.dataWriter.file.pending = [] ∧
    ascii "MEERKAT_DATA1" <+: s'.dataWriter.file.content ∧
    ∃ body tail, s'.indexWriter.file.content =
        body ++ Prost.encodeMetadata (order.apply s'.segmentMeta) ++ tail ∧
      tail.length = 8 ∧ leNumber tail = body.length ∧ ascii "MEERKAT_IDX1" <+: body := by
  have e1 : DATA_FILE_SIGNATURE = ascii "MEERKAT_DATA1" := by decide
  have e2 : INDEX_FILE_SIGNATURE = ascii "MEERKAT_IDX1" := by decide
  obtain ⟨g1, g2, _⟩ := new_ok hnew
  rw [runSeg_append] at hrun
  rcases h1 : runSeg p os ops s with ⟨rs1, s1⟩
  rcases h2 : SegmentWriter.close p os order s1 with ⟨r, s2⟩
  simp only [h1, runSeg, SegOp.run, h2, Prod.mk.injEq] at hrun
  obtain ⟨rfl, rfl⟩ := hrun
  obtain ⟨g3, more, g4⟩ := runSeg_data (p := p) (os := os) ops (s := s)
    (by rw [h1]; exact fun x hx => hgood x (by simp [hx])) g2 g1
  rw [h1] at g3 g4
  obtain rfl : r = .ok () := hgood (.closed r) (by simp)
  obtain ⟨_, c1, c2, _, c3, c4, c5, _⟩ := segClose_ok h2 g4 g3
  refine ⟨c2, c4, by rw [c3, ← e1]; exact List.prefix_append _ _, _, _, by rw [c5]; exact c1, leBytes64_length _, ?_,
    by rw [← e2]; exact List.prefix_append _ _⟩
  rw [c1] at hlen
  simp only [List.length_append] at hlen
  have hp := g4.pos
  rw [Nat.mod_eq_of_lt (by simp only [List.length_append]; omega)] at hp
  rw [hp, leNumber_leBytes64 (by simp only [List.length_append]; omega)]

/-- A segment of two columns, written without a failure. -/
def exampleOps : List SegOp :=
  [.column (exampleColumn "a") [.write exampleBuffer, .close],
   .column { exampleColumn "b" with encoding := .snappy } [.write exampleBuffer, .write exampleBuffer, .close]]

/-! ## C47: columns -/

/-- C47: after any history without a failing call, the data file (with the pending write) is the signature followed
by the bytes of each column's blocks, in order, each column's blocks being those it produces alone. -/
theorem C47_data_is_columns (p : Profile) (os : SegmentOs) (info : SegmentInfo) (s s' : SegmentWriter)
    (hnew : SegmentWriter.new p os info = .ok s) (ops : List SegOp) (results : List SegResult)
    (hrun : runSeg p os ops s = (results, s')) (hgood : ∀ x ∈ results, x.Good) :
    s'.dataWriter.file.content ++ s'.dataWriter.file.pending = DATA_FILE_SIGNATURE ++ columnBytes p ops := by
  obtain ⟨g1, g2, _⟩ := new_ok hnew
  have := (runSeg_data (p := p) (os := os) ops (s := s) (by rw [hrun]; exact hgood) g2 g1).1.content
  rw [hrun] at this
  exact this

/-- C47, block index: when a column was written, after any other columns, the block index holds
exactly the blocks the column produces alone, and brackets them in the data file, then and after
any later columns. -/
theorem C47_index_is_own (p : Profile) (os : SegmentOs) (info : SegmentInfo) (s s1 s' : SegmentWriter)
    (hnew : SegmentWriter.new p os info = .ok s) (before later : List SegOp) (ci : ColumnInfo) (cops : List ColOp)
    (rs1 rs2 : List SegResult) (hrun1 : runSeg p os (before ++ [.column ci cops]) s = (rs1, s1))
    (hrun2 : runSeg p os later s1 = (rs2, s')) (hgood : ∀ x ∈ rs1 ++ rs2, x.Good)
    (hfit : s1.dataWriter.file.content.length + s1.dataWriter.file.pending.length < 2 ^ 64) :
    s1.blockIndex.blockRowId.length = (blocksAlone p ci cops).length ∧
    s1.blockIndex.blockOffset.length = (blocksAlone p ci cops).length ∧
    Brackets (s'.dataWriter.file.content ++ s'.dataWriter.file.pending)
      (DATA_FILE_SIGNATURE.length + (columnBytes p before).length) s1.blockIndex.entries (blocksAlone p ci cops) := by
  obtain ⟨g1, g2, _⟩ := new_ok hnew
  rw [runSeg_append] at hrun1
  rcases h1 : runSeg p os before s with ⟨ra, sa⟩
  rcases h2 : SegOp.run p os (.column ci cops) sa with ⟨r, sb⟩
  simp only [h1, runSeg, h2, Prod.mk.injEq] at hrun1
  obtain ⟨rfl, rfl⟩ := hrun1
  obtain ⟨g3, more, g4⟩ := runSeg_data (p := p) (os := os) before (s := s)
    (by rw [h1]; exact fun x hx => hgood x (by simp [hx])) g2 g1
  rw [h1] at g3 g4
  -- the column
  obtain ⟨d1, d2, d3, ⟨m1, d4⟩⟩ : GoodWriter sb.dataWriter
        (DATA_FILE_SIGNATURE ++ columnBytes p before ++ concatBlocks (blocksAlone p ci cops)) ∧
      sb.blockIndex.blockRowId = (blocksAlone p ci cops).map Prod.fst ∧
      sb.blockIndex.blockOffset =
        (blockEnds (DATA_FILE_SIGNATURE ++ columnBytes p before).length (blocksAlone p ci cops)).map (· % 2 ^ 64) ∧
      ∃ m, GoodWriter sb.indexWriter m := by
    have hr : r.Good := hgood r (by simp)
    simp only [SegOp.run, SegmentWriter.newBinaryColumnWriter] at h2
    rcases he : newBinaryEncoder ci.encoding BLOCK_SIZE ci.nullable with f | e
    · simp only [he] at h2
      cases h2
      have hb : blocksAlone p ci cops = [] := by simp only [blocksAlone, he]
      rw [hb]
      exact ⟨by simpa [concatBlocks] using g3, rfl, rfl, _, g4⟩
    · simp only [he] at h2
      rcases h3 : runColOps p os cops ({ columnInfo := ci, encoder := e },
        { sa with blockIndex := sa.blockIndex.clear }) with ⟨rs, c2, s2⟩
      simp only [h3] at h2
      cases h2
      obtain ⟨bs, e', h4, h5, h6, h7, h8⟩ := colOps_ok (p := p) (os := os) cops
        (c := { columnInfo := ci, encoder := e }) (s := { sa with blockIndex := sa.blockIndex.clear })
        (by rw [h3]; exact hr) g3
      rw [h3] at h5 h6 h7 h8
      have hb : blocksAlone p ci cops = bs := by
        simp only [blocksAlone, he, h4, List.nil_append]
      rw [hb]
      exact ⟨h5, h6, h7, _, by rw [h8]; exact g4⟩
  obtain ⟨g5, _⟩ := runSeg_data (p := p) (os := os) later (s := sb)
    (by rw [hrun2]; exact fun x hx => hgood x (by simp [hx])) d1 d4
  rw [hrun2] at g5
  have hc := congrArg List.length d1.content
  simp only [List.length_append] at hc
  rw [blockEnds_mod (by simp only [List.length_append]; omega)] at d3
  refine ⟨by simp [d2], by rw [d3, blockEnds_length], ?_⟩
  rw [g5.content, BlockIndex.entries, d2, d3]
  have := blockEnds_brackets (DATA_FILE_SIGNATURE ++ columnBytes p before) (columnBytes p later) (blocksAlone p ci cops)
  simpa [List.append_assoc] using this

/-- The example segment: no call fails, and the two files are as C46 and C47 say. -/
example : ∃ s, SegmentWriter.new .debug .reliable exampleInfo = .ok s ∧
    let run := runSeg .debug .reliable (exampleOps ++ [.close .insertion]) s
    (∀ x ∈ run.1, x.Good) ∧
    run.2.dataWriter.file.content =
      DATA_FILE_SIGNATURE ++ [3, 120, 121, 122, 2, 2] ++ SNAPPY_BLOCK ++ SNAPPY_BLOCK ∧
    run.2.indexWriter.file.content = INDEX_FILE_SIGNATURE ++
      Prost.encodeMetadata (HashOrder.insertion.apply run.2.segmentMeta) ++ [12, 0, 0, 0, 0, 0, 0, 0] ∧
    run.2.blockIndex.entries = [(43243, 25), (43243, 31)] := by
  refine exists_ok ?_
  decide +kernel

end Meerkat
