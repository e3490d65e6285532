import Verif.Model.ColumnIndex
import Verif.Props.SegmentMeta

set_option autoImplicit false

/-!
# C88, C89: column indexes

C88 is about any implementation of `ColumnIndex`; C89 about the index type that the metadata gives for a column.
-/

namespace Meerkat

namespace Indexed
variable {ι : Type}

/-- A caller that writes buffers to a column one after the other, whatever comes of it. -/
def runWrites (p : Profile) (os : SegmentOs) (ix : ColumnIndex ι) : List BinaryBuffer → IndexedColumnWriter ι × SegmentWriter →
    List (Except Fault Unit) × (IndexedColumnWriter ι × SegmentWriter)
  | [], s => ([], s)
  | b :: bs, s =>
    let (r, s) := IndexedColumnWriter.write p os ix b s
    let (rs, s) := runWrites p os ix bs s
    (r :: rs, s)

/-- The buffers whose `write` succeeded. -/
def writtenBuffers (rs : List (ColOp × Except Fault Unit)) : List BinaryBuffer :=
  rs.filterMap fun x => match x with
    | (.write b, .ok ()) => some b
    | _ => none

/-- What becomes of an index that is given buffers. -/
def given (ix : ColumnIndex ι) (i : ι) (bs : List BinaryBuffer) : ι := bs.foldl (fun i b => (ix.index b i).2) i

/-- The layouts, that of the column `name` having a column index. -/
def withIndex (name : String) (l : ColumnIndexLayout) (layouts : StringMap ColumnLayout) (other : String) :
    Option ColumnLayout :=
  (layouts.get other).map fun cl => if other = name then { cl with columnIndexLayout := some l } else cl

theorem write_some (p : Profile) (os : SegmentOs) (ix : ColumnIndex ι) (b : BinaryBuffer) (c : ColumnWriter) (i : ι)
    (s : SegmentWriter) :
    IndexedColumnWriter.write p os ix b (⟨c, some i⟩, s) =
      match ColumnWriter.write p os b (c, s) with
      | (.ok (), (c', s')) => ((ix.index b i).1, (⟨c', some (ix.index b i).2⟩, s'))
      | (.error f, (c', s')) => (.error f, (⟨c', some i⟩, s')) := by
  simp only [IndexedColumnWriter.write, Run.bind_apply, IndexedColumnWriter.onColumn, ColumnWriter.write]
  rcases ColumnWriter.onSink (BinaryEncoder.encode p (blockSink p os.data) b) (c, s) with ⟨f | ⟨⟩, c', s'⟩
  · rfl
  · rfl

theorem onSink_keeps {α : Type} (m : Run (BinaryEncoder × (Writer × BlockIndex)) α) (c : ColumnWriter) (s : SegmentWriter) :
    (ColumnWriter.onSink m (c, s)).2.1.columnInfo = c.columnInfo ∧
    (ColumnWriter.onSink m (c, s)).2.2.indexWriter = s.indexWriter ∧
    (ColumnWriter.onSink m (c, s)).2.2.segmentMeta = s.segmentMeta := by
  refine ⟨rfl, rfl, rfl⟩

end Indexed

open Indexed

/-- C88: a column writer without a column index is the one of the model that all other properties are about. -/
theorem C88_without_index {ι : Type} (p : Profile) (os : SegmentOs) (ix : ColumnIndex ι) (c : ColumnWriter) (s : SegmentWriter) :
    (∀ b, IndexedColumnWriter.write p os ix b (⟨c, none⟩, s) =
      match ColumnWriter.write p os b (c, s) with | (r, (c', s')) => (r, (⟨c', none⟩, s'))) ∧
    IndexedColumnWriter.close p os ix (⟨c, none⟩, s) =
      match ColumnWriter.close p os (c, s) with | (r, (c', s')) => (r, (⟨c', none⟩, s')) := by
  constructor
  · intro b
    simp only [IndexedColumnWriter.write, Run.bind_apply, IndexedColumnWriter.onColumn, ColumnWriter.write]
    rcases ColumnWriter.onSink (BinaryEncoder.encode p (blockSink p os.data) b) (c, s) with ⟨f | ⟨⟩, c', s'⟩
    · rfl
    · rfl
  · simp only [IndexedColumnWriter.close, ColumnWriter.close, Run.bind_apply, IndexedColumnWriter.onColumn]
    rcases ColumnWriter.onSink (BinaryEncoder.flush p (blockSink p os.data)) (c, s) with ⟨f | l, c', s'⟩
    · rfl
    · rfl

/-- C88: `write` succeeds exactly if the buffer was encoded and indexed without an error. -/
theorem C88_write_succeeds_iff {ι : Type} (p : Profile) (os : SegmentOs) (ix : ColumnIndex ι) (b : BinaryBuffer)
    (c : ColumnWriter) (i : ι) (s : SegmentWriter) :
    (IndexedColumnWriter.write p os ix b (⟨c, some i⟩, s)).1 = .ok () ↔
      (ColumnWriter.write p os b (c, s)).1 = .ok () ∧ (ix.index b i).1 = .ok () := by
  rw [write_some]
  rcases ColumnWriter.write p os b (c, s) with ⟨f | ⟨⟩, c', s'⟩ <;> simp

/-- C88: whatever the index does and whichever calls fail, what is written to the segment is what would be written without
an index, and the index is given the buffers that were encoded without an error, each once and in order, and no other. -/
theorem C88_index_gets_stored_buffers {ι : Type} (p : Profile) (os : SegmentOs) (ix : ColumnIndex ι) (bufs : List BinaryBuffer)
    (c : ColumnWriter) (i : ι) (s : SegmentWriter) :
    (runWrites p os ix bufs (⟨c, some i⟩, s)).2 =
      (⟨(runColOps p os (bufs.map .write) (c, s)).2.1,
        some (given ix i (writtenBuffers (runColOps p os (bufs.map .write) (c, s)).1))⟩,
       (runColOps p os (bufs.map .write) (c, s)).2.2) := by
  induction bufs generalizing c i s with
  | nil => rfl
  | cons b bufs ih =>
    simp only [runWrites, write_some, List.map_cons, runColOps, ColOp.run]
    rcases h : ColumnWriter.write p os b (c, s) with ⟨f | ⟨⟩, c', s'⟩
    · simp only [ih, writtenBuffers, List.filterMap_cons]
    · simp only [ih, writtenBuffers, List.filterMap_cons, given, List.foldl_cons]

/-- C88: `close` succeeds exactly if it would without an index and the index could be flushed. Then the column is
recorded with the layout that the index returned, all else in the metadata being as it would be without it. In any case the data
file is as it would be without an index, and if `close` fails the column is not recorded. -/
theorem C88_close {ι : Type} (p : Profile) (os : SegmentOs) (ix : ColumnIndex ι) (c : ColumnWriter) (i : ι) (s : SegmentWriter)
    (r : Except Fault Unit) (c1 : IndexedColumnWriter ι) (s1 : SegmentWriter)
    (h : IndexedColumnWriter.close p os ix (⟨c, some i⟩, s) = (r, (c1, s1))) :
    s1.dataWriter = (ColumnWriter.close p os (c, s)).2.2.dataWriter ∧
    s1.blockIndex = (ColumnWriter.close p os (c, s)).2.2.blockIndex ∧
    (r = .ok () ↔ (ColumnWriter.close p os (c, s)).1 = .ok () ∧ ∃ l, (ix.flush (i, s.indexWriter)).1 = .ok l) ∧
    (r ≠ .ok () → s1.segmentMeta = s.segmentMeta) ∧
    (r = .ok () → ∃ l, ix.flush (i, s.indexWriter) = (.ok l, ((ix.flush (i, s.indexWriter)).2.1, s1.indexWriter)) ∧
      s1.segmentMeta.segmentMeta = (ColumnWriter.close p os (c, s)).2.2.segmentMeta.segmentMeta ∧
      (∃ cl, s1.segmentMeta.columnsLayout.get c.columnInfo.name = some cl ∧ cl.columnIndexLayout = some l) ∧
      ∀ name, s1.segmentMeta.columnsLayout.get name =
        withIndex c.columnInfo.name l (ColumnWriter.close p os (c, s)).2.2.segmentMeta.columnsLayout name) := by
  have hk := onSink_keeps (BinaryEncoder.flush p (blockSink p os.data)) c s
  simp only [IndexedColumnWriter.close, ColumnWriter.close, Run.bind_apply, IndexedColumnWriter.onColumn] at h ⊢
  rcases hf : ColumnWriter.onSink (BinaryEncoder.flush p (blockSink p os.data)) (c, s) with ⟨f | el, c', s'⟩
  · simp only [hf] at h ⊢ hk
    cases h
    simp [hk.2.2]
  · simp only [hf] at h ⊢ hk
    obtain ⟨hk1, hk2, hk3⟩ := hk
    simp only [ColumnWriter.flushBlockIndex, BlockIndex.flush, Run.pure_apply, IndexedColumnWriter.flushIndex, hk2] at h ⊢
    rcases hx : ix.flush (i, s.indexWriter) with ⟨f | l, i', w'⟩
    · simp only [hx] at h
      cases h
      simp only [ColumnWriter.recordColumn]
      rcases ColumnWriter.insertColumn s'.segmentMeta c'.columnInfo.name _ _ with e | m <;> simp [hk3]
    · simp only [hx, IndexedColumnWriter.recordColumn] at h
      simp only [ColumnWriter.recordColumn, ColumnWriter.insertColumn] at h ⊢
      rcases hm : s'.segmentMeta.segmentMeta with _ | sm
      · simp only [hm] at h ⊢
        cases h
        simp [hk3]
      · simp only [hm] at h ⊢
        cases h
        refine ⟨rfl, rfl, by simp, by simp, fun _ => ⟨l, rfl, rfl, ⟨_, by rw [hk1, StringMap.get_insert, if_pos rfl], rfl⟩,
          fun name => ?_⟩⟩
        simp only [StringMap.get_insert, withIndex, hk1]
        by_cases hn : name = c.columnInfo.name
        · simp [hn]
        · simp [hn]

namespace Indexed

/-- An index that keeps the buffers it is given but refuses the second one, and writes one byte per buffer. -/
def exampleIndex : ColumnIndex (List BinaryBuffer) where
  index b bs := if bs.length = 1 then (.error .io, bs ++ [b]) else (.ok (), bs ++ [b])
  flush s :=
    match Writer.writeBlock .debug .reliable (List.replicate s.1.length 9) s.2 with
    | (.ok (), w) => (.ok (.stringIndexV1 { range := some { start := s.2.pos.toUInt64, «end» := w.pos.toUInt64 } }), (s.1, w))
    | (.error f, w) => (.error f, (s.1, w))

/-- The results of three writes and a close, what the index was given, and the layout that is recorded, if any. -/
def exampleIndexRun (s : SegmentWriter) : List (Except Fault Unit) × Nat × Except Fault Unit × Bytes × Bool :=
  match SegmentWriter.newBinaryColumnWriter (exampleColumn "a") s with
  | (.ok c, s) =>
    match runWrites .debug .reliable exampleIndex [exampleBuffer, exampleBuffer, exampleBuffer] (⟨c, some []⟩, s) with
    | (rs, (c, s)) =>
      match IndexedColumnWriter.close .debug .reliable exampleIndex (c, s) with
      | (r, (c, s)) => (rs, (c.columnIndex.getD []).length, r, (Writer.flush .reliable s.indexWriter).2.file.content,
          decide ((s.segmentMeta.columnsLayout.get "a").map ColumnLayout.columnIndexLayout =
            some (some (.stringIndexV1 { range := some { start := 12, «end» := 15 } }))))
  | (.error f, _) => ([], 0, .error f, [], false)

end Indexed

/-- The second `write` fails because of the index, after its buffer was encoded; the index gets all three buffers, and is found
behind the signature of the index file. -/
example : ∃ s, SegmentWriter.new .debug .reliable exampleInfo = .ok s ∧
    exampleIndexRun s = ([.ok (), .error .io, .ok ()], 3, .ok (), INDEX_FILE_SIGNATURE ++ [9, 9, 9], true) :=
  exists_ok (by decide +kernel)

/-! ## C89 -/

namespace Indexed

/-- The metadata entries of a column agree: a column index is laid out exactly if the column has an index type other than
"no index", which is number 0 in segment_metadata.proto. -/
def IndexTypeHonest (cm : ColumnMeta) (cl : ColumnLayout) : Prop :=
  cl.columnIndexLayout.isSome ↔ cm.indexType.toInt ≠ 0

instance (cm : ColumnMeta) (cl : ColumnLayout) : Decidable (IndexTypeHonest cm cl) := by
  unfold IndexTypeHonest; infer_instance

end Indexed

/-- C89 is false of the code: a column that is to have a full text index is closed without an error, the metadata says that it
has one, and there is none. -/
theorem C89_declared_index_violated : ∃ s, SegmentWriter.new .debug .reliable exampleInfo = .ok s ∧
    (∀ x ∈ (runSeg .debug .reliable [.column { exampleColumn "a" with indexType := .fullText } [.write exampleBuffer, .close]] s).1,
      x.Good) ∧
    ((runSeg .debug .reliable [.column { exampleColumn "a" with indexType := .fullText } [.write exampleBuffer, .close]]
        s).2.segmentMeta.columnsLayout.get "a").map ColumnLayout.columnIndexLayout = some none ∧
    ((runSeg .debug .reliable [.column { exampleColumn "a" with indexType := .fullText } [.write exampleBuffer, .close]]
        s).2.segmentMeta.segmentMeta.bind fun m => (m.columnsMeta.get "a").map ColumnMeta.indexType) = some 1 :=
  exists_ok (by decide +kernel)

/-- C89 exactly: after any history of a segment, the entries of a column agree about whether it has an index if and only if the
column is to have none. -/
theorem C89_declared_index_exact (p : Profile) (os : SegmentOs) (info : SegmentInfo) (s s' : SegmentWriter)
    (hnew : SegmentWriter.new p os info = .ok s) (ops : List SegOp) (results : List SegResult)
    (hrun : runSeg p os ops s = (results, s')) (name : String) (ci : ColumnInfo)
    (hclosed : lastClosed results name = some ci) :
    ∃ m cm cl, s'.segmentMeta.segmentMeta = some m ∧ m.columnsMeta.get name = some cm ∧
      s'.segmentMeta.columnsLayout.get name = some cl ∧ (IndexTypeHonest cm cl ↔ ci.indexType = .noIndex) := by
  obtain ⟨m, h1, -, -, -, -, -, -, -, h2⟩ := C48_metadata_lists_closed p os info s s' hnew ops results hrun
  have h3 := h2 name
  rw [hclosed] at h3
  obtain ⟨cm, cl, h4, h5, h6, h7⟩ := h3
  refine ⟨m, cm, cl, h1, h4, h5, ?_⟩
  rw [IndexTypeHonest, h7.1, h6.2.2.2.2]
  cases ci.indexType <;> decide

end Meerkat
