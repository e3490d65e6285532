import Verif.Props.BlockSizes
import Verif.Props.Crash
import Verif.Props.SegmentMeta
import Verif.Proofs.ColumnUnique

set_option autoImplicit false

/-! # What can be learned from the files of a segment alone: C68, C69 -/

namespace Meerkat
open Spec BinaryEnc

/-! ## C68: the counts of the metadata -/

/-- All counts are zero. -/
def NoCounts (cm : ColumnMeta) : Prop :=
  cm.numValues = 0 ∧ cm.numNulls = 0 ∧ cm.cardinality = 0 ∧ cm.compressedSize = 0 ∧ cm.uncompressedSize = 0 ∧ cm.stats = none

/-- All counts of all columns are zero. -/
def AllNoCounts (md : Metadata) : Prop := ∀ m, md.segmentMeta = some m → ∀ e ∈ m.columnsMeta, NoCounts e.2

theorem AllNoCounts.insert {md md' : Metadata} (h : AllNoCounts md) {ci : ColumnInfo} {cl : ColumnLayout}
    (hi : ColumnWriter.insertColumn md ci.name (ColumnWriter.columnMeta ci) cl = .ok md') : AllNoCounts md' := by
  simp only [ColumnWriter.insertColumn] at hi
  split at hi
  · cases hi
  · rename_i m hm
    cases hi
    intro m' hm' e he
    cases hm'
    simp only [StringMap.insert, List.mem_append, List.mem_filter, List.mem_singleton] at he
    rcases he with ⟨he, _⟩ | rfl
    · exact h m hm e he
    · exact ⟨rfl, rfl, rfl, rfl, rfl, rfl⟩

theorem colOps_counts {p : Profile} {os : SegmentOs} (ops : List ColOp) {c : ColumnWriter} {s : SegmentWriter}
    (h : AllNoCounts s.segmentMeta) : AllNoCounts (runColOps p os ops (c, s)).2.2.segmentMeta := by
  induction ops generalizing c s with
  | nil => exact h
  | cons op ops ih =>
    rcases h1 : op.run p os (c, s) with ⟨r, c1, s1⟩
    simp only [runColOps, h1]
    refine ih ?_
    cases op with
    | write b =>
      obtain ⟨_, _, _, h5⟩ := onSink_eq (show ColumnWriter.onSink _ (c, s) = _ from h1)
      rw [h5]; exact h
    | close =>
      rcases r with f | r
      · obtain ⟨_, h5⟩ := close_error h1
        rw [h5]; exact h
      · obtain ⟨l, _, _, _, h5⟩ := close_ok h1
        exact h.insert h5

theorem runSeg_counts {p : Profile} {os : SegmentOs} (ops : List SegOp) {s : SegmentWriter}
    (h : AllNoCounts s.segmentMeta) : AllNoCounts (runSeg p os ops s).2.segmentMeta := by
  induction ops generalizing s with
  | nil => exact h
  | cons op ops ih =>
    cases op with
    | column ci cops =>
      rcases he : newBinaryEncoder ci.encoding BLOCK_SIZE ci.nullable with f | e
      · simp only [runSeg, SegOp.run, SegmentWriter.newBinaryColumnWriter, he]
        exact ih (s := { s with blockIndex := s.blockIndex.clear }) h
      · simp only [runSeg, SegOp.run, SegmentWriter.newBinaryColumnWriter, he]
        exact ih (colOps_counts cops (s := { s with blockIndex := s.blockIndex.clear }) h)
    | close order =>
      simp only [runSeg, SegOp.run]
      exact ih (by rw [segClose_meta]; exact h)

/-- The counts of a column with these rows; whether nulls are values is left open. -/
def CountsRight (rows : List (Option Bytes)) (cm : ColumnMeta) : Prop :=
  cm.numNulls.toNat = rows.count none ∧
  (cm.numValues.toNat = rows.length ∨ cm.numValues.toNat = (valuesOf rows).length)

/-- C68 exactly: whatever was written and whatever failed, every column of the metadata has counts that are right for the
rows `rows` if and only if there are no rows; and the number of rows of the segment is the one the caller gave
at the start, whatever was written. -/
theorem C68_counts_exact (p : Profile) (os : SegmentOs) (info : SegmentInfo) (s s' : SegmentWriter)
    (hnew : SegmentWriter.new p os info = .ok s) (ops : List SegOp) (results : List SegResult)
    (hrun : runSeg p os ops s = (results, s')) :
    ∃ m, s'.segmentMeta.segmentMeta = some m ∧ m.numRows = info.numRows ∧
      ∀ e ∈ m.columnsMeta, ∀ rows, CountsRight rows e.2 ↔ rows = [] := by
  obtain ⟨m, h1, _, _, _, _, h2, _⟩ := C48_metadata_lists_closed p os info s s' hnew ops results hrun
  obtain ⟨_, _, d, i, h3, _⟩ := new_ok hnew
  have h4 := runSeg_counts (p := p) (os := os) ops (s := s) (by
    rw [h3]
    intro m hm e he
    cases hm
    cases he)
  rw [hrun] at h4
  refine ⟨m, h1, h2, fun e he rows => ?_⟩
  obtain ⟨z1, z2, _⟩ := h4 m h1 e he
  simp only [CountsRight, z1, z2]
  constructor
  · rintro ⟨k1, k2⟩
    have k1 : rows.count none = 0 := k1.symm
    have hn : none ∉ rows := List.count_eq_zero.1 k1
    rw [valuesOf_length_of_none hn, or_self] at k2
    exact List.length_eq_zero_iff.1 k2.symm
  · rintro rfl
    exact ⟨rfl, .inl rfl⟩

/-- C68 is false of the code: a column of two rows is said to have none, in a segment said to have the two the caller
announced; had the caller announced any other number, it would be that. -/
theorem C68_metadata_counts_violated : ∃ s, SegmentWriter.new .debug .reliable exampleInfo = .ok s ∧
    let run := runSeg .debug .reliable [.column (exampleColumn "a") [.write exampleBuffer, .close], .close .insertion] s
    (∀ x ∈ run.1, x.Good) ∧ exampleBuffer = BinaryBuffer.ofRows false [some [120, 121], some [122]] ∧
    ∃ m cm, run.2.segmentMeta.segmentMeta = some m ∧ m.columnsMeta.get "a" = some cm ∧
      cm.numValues = 0 ∧ m.uncompressedSize = 0 ∧ ¬ CountsRight [some [120, 121], some [122]] cm := by
  have h : ∃ s, SegmentWriter.new .debug .reliable exampleInfo = .ok s ∧
      let run := runSeg .debug .reliable [.column (exampleColumn "a") [.write exampleBuffer, .close], .close .insertion] s
      (∀ x ∈ run.1, x.Good) ∧
      ((run.2.segmentMeta.segmentMeta.bind fun m => (m.columnsMeta.get "a").map fun cm => (cm.numValues, m.uncompressedSize)) =
        some (0, 0)) := by
    refine exists_ok ?_
    decide +kernel
  obtain ⟨s, h1, h2⟩ := h
  refine ⟨s, h1, ?_⟩
  rcases hr : runSeg .debug .reliable [.column (exampleColumn "a") [.write exampleBuffer, .close], .close .insertion] s with
    ⟨rs, s'⟩
  rw [hr] at h2
  dsimp only at h2 ⊢
  obtain ⟨h3, h4⟩ := h2
  refine ⟨h3, by decide, ?_⟩
  obtain ⟨m, hm, h5⟩ := Option.bind_eq_some_iff.1 h4
  obtain ⟨cm, hc, h6⟩ := Option.map_eq_some_iff.1 h5
  obtain ⟨h7, h8⟩ := Prod.mk.inj h6
  refine ⟨m, cm, hm, hc, h7, h8, ?_⟩
  simp only [CountsRight, h7]
  rintro ⟨_, h9 | h9⟩ <;> exact absurd h9 (by decide)

/-! ## C69: the files alone -/

/-- A segment with these columns, closed, and the result of each call. -/
def columnsSegment (nullable : Bool) (cols : List (String × List (List (Option Bytes)))) :
    Option (List SegResult × SegmentWriter) :=
  match SegmentWriter.new .debug .reliable exampleInfo with
  | .error _ => none
  | .ok s => some (runSeg .debug .reliable (cols.map (fun c =>
      .column { exampleColumn c.1 with nullable := nullable } (writeAllOps (c.2.map (BinaryBuffer.ofRows nullable)))) ++
      [.close .insertion]) s)

/-- Both segments are written without an error and leave the same two files. -/
def SameFiles (nullable : Bool) (cols1 cols2 : List (String × List (List (Option Bytes)))) : Prop :=
  ∃ r1 r2, columnsSegment nullable cols1 = some r1 ∧ columnsSegment nullable cols2 = some r2 ∧
    (∀ x ∈ r1.1 ++ r2.1, x.Good) ∧ r1.2.dataWriter.file.content = r2.2.dataWriter.file.content ∧
    r1.2.indexWriter.file.content = r2.2.indexWriter.file.content

theorem sameFiles_of {nullable : Bool} {cols1 cols2 : List (String × List (List (Option Bytes)))}
    (h : (match columnsSegment nullable cols1, columnsSegment nullable cols2 with
      | some r1, some r2 => decide ((∀ x ∈ r1.1 ++ r2.1, x.Good) ∧
          r1.2.dataWriter.file.content = r2.2.dataWriter.file.content ∧
          r1.2.indexWriter.file.content = r2.2.indexWriter.file.content)
      | _, _ => false) = true) : SameFiles nullable cols1 cols2 := by
  cases h1 : columnsSegment nullable cols1 with
  | none => rw [h1] at h; cases h
  | some r1 =>
    cases h2 : columnsSegment nullable cols2 with
    | none => rw [h1, h2] at h; cases h
    | some r2 =>
      rw [h1, h2] at h
      dsimp only at h
      exact ⟨r1, r2, h1, h2, of_decide_eq_true h⟩

/-- C69 is false of the code. Which of two columns the values are in, how many values a column has, in which of
two columns one value is, and which of the values of a column is the empty one, all leave no trace in the two files of the
segment. -/
theorem C69_files_determine_columns_violated :
    SameFiles false [("a", [[some [7]]]), ("b", [])] [("a", []), ("b", [[some [7]]])] ∧
    SameFiles true [("a", [[some [7], none, some [8, 9]]]), ("b", [])] [("a", []), ("b", [[some [7], none, some [8, 9]]])] ∧
    SameFiles false [("a", [[some [7]]])] [("a", [[some [7], some []]])] ∧
    SameFiles true [("a", [[some [1, 2], some [3], some []]])] [("a", [[some [1, 2], some [], some [3]]])] := by
  refine ⟨sameFiles_of ?_, sameFiles_of ?_, sameFiles_of ?_, sameFiles_of ?_⟩ <;> decide +kernel

theorem fill_eq_none : ∀ (vs : List Bytes) (k : Nat), vs.flatten.length < k → fill k vs = none := by
  intro vs
  induction vs with
  | nil => intro k h; cases k with
    | zero => cases h
    | succ k => rfl
  | cons v vs ih =>
    intro k h
    rw [List.flatten_cons, List.length_append] at h
    cases k with
    | zero => omega
    | succ k => rw [fill, ih _ (by omega)]; rfl

/-- What is smaller than a block is written as at most one. -/
theorem fillGroups_small {m : Nat} (nullable : Bool) (bufs : List (List (Option Bytes))) : ∀ held,
    byteCount held + byteCount bufs.flatten < m → (valuesOf held).length + (valuesOf bufs.flatten).length ≤ 128 →
    (fillGroups m held bufs).length ≤ 1 ∧ Manageable m nullable [] held bufs ∧
    ∀ g ∈ fillGroups m held bufs, valuesOf g = valuesOf held ++ valuesOf bufs.flatten := by
  induction bufs with
  | nil =>
    intro held _ h2
    refine ⟨by simp only [fillGroups]; split <;> simp, ⟨by omega, fun _ => seenBits_nil held⟩, ?_⟩
    intro g hg
    simp only [fillGroups] at hg
    split at hg
    · cases hg
    · rw [List.mem_singleton.1 hg]
      simp [valuesOf]
  | cons b bufs ih =>
    intro held h h2
    rw [List.flatten_cons, byteCount_append] at h
    rw [List.flatten_cons, valuesOf_append, List.length_append] at h2
    have hn : fill (m - byteCount held) (valuesOf b) = none := fill_eq_none _ _ (by
      have : byteCount b = (valuesOf b).flatten.length := rfl
      omega)
    have hd := byteCount_dropTrailingNulls b
    obtain ⟨i1, i2, i3⟩ := ih (held ++ dropTrailingNulls b) (by rw [byteCount_append]; omega)
      (by rw [valuesOf_append, dropTrailingNulls_values, List.length_append]; omega)
    have hst : fillStep m held b = ([], held ++ dropTrailingNulls b) := by simp only [fillStep, hn]
    have hstale : nextStale [] held [] = [] := by simp [nextStale]
    simp only [fillGroups, Manageable, hst, List.nil_append, hstale]
    refine ⟨i1, ⟨fun h => absurd rfl h, by simp, by simp, i2⟩, fun g hg => ?_⟩
    rw [i3 g hg, valuesOf_append, dropTrailingNulls_values, List.flatten_cons, valuesOf_append, List.append_assoc]

/-- A history that is written as it should be (exactly those of C35), with lengths of which no bit is lost. -/
structure WellWritten (m : Nat) (nullable : Bool) (bufs : List (List (Option Bytes))) : Prop where
  rows : bufs.flatten.length < 2 ^ 32 - 7
  manageable : Manageable m nullable [] [] bufs
  readable : ∀ g ∈ fillGroups m [] bufs, ReadableLengths ((valuesOf g).map List.length)

theorem WellWritten.groups {m : Nat} {nullable : Bool} (hm : 0 < m) (hm32 : m ≤ U32_MAX) {bufs : List (List (Option Bytes))} {bs : List BinaryBuffer}
    (hb : buildBinary nullable bufs = .ok bs) (h : WellWritten m nullable bufs) :
    ∀ g ∈ fillGroups m [] bufs, g ≠ [] ∧ Group nullable g := by
  intro g hg
  obtain ⟨x1, x2, x3, x4, x5⟩ := group_facts hb h.rows hm hm32 h.manageable g hg
  exact ⟨fillGroups_nonempty bufs [] [] (by simpa [byteCount, valuesOf] using hm) h.manageable g hg,
    x1, x2, x3, x4, x5, h.readable g hg⟩

theorem concatBlocks_blocksOf (nullable : Bool) (gs : List (List (Option Bytes))) (n : Nat) :
    concatBlocks (blocksOf nullable n gs) = gs.flatMap (blockBytes nullable) := by
  induction gs generalizing n with
  | nil => rfl
  | cons g gs ih =>
    simp only [blocksOf, concatBlocks, List.map_cons, List.flatten_cons, List.flatMap_cons] at ih ⊢
    rw [ih]

/-- The bytes determine the column: its values, if it is nullable, and its rows, if moreover no buffer ends with a null; if it is not
nullable, its rows but for empty values at the end. -/
def SameColumn (nullable : Bool) (bufs1 bufs2 : List (List (Option Bytes))) : Prop :=
  (nullable = true → valuesOf bufs1.flatten = valuesOf bufs2.flatten ∧
    ((∀ b ∈ bufs1 ++ bufs2, b = [] ∨ ∃ l v, b = l ++ [some v]) → bufs1.flatten = bufs2.flatten)) ∧
  (nullable = false → ∃ n, bufs2.flatten = bufs1.flatten ++ List.replicate n (some []) ∨
    bufs1.flatten = bufs2.flatten ++ List.replicate n (some []))

theorem groups_same_column {m : Nat} (hm : 0 < m) (hm32 : m ≤ U32_MAX) {nullable : Bool} {bufs1 bufs2 : List (List (Option Bytes))}
    {bs1 bs2 : List BinaryBuffer} (hb1 : buildBinary nullable bufs1 = .ok bs1) (hb2 : buildBinary nullable bufs2 = .ok bs2)
    (hw1 : WellWritten m nullable bufs1) (hw2 : WellWritten m nullable bufs2)
    (h : (fillGroups m [] bufs1).flatMap (blockBytes nullable) = (fillGroups m [] bufs2).flatMap (blockBytes nullable)) :
    SameColumn nullable bufs1 bufs2 := by
  have g1 := hw1.groups hm hm32 hb1
  have g2 := hw2.groups hm hm32 hb2
  have hall : ∀ g ∈ fillGroups m [] bufs1 ++ fillGroups m [] bufs2, g ≠ [] ∧ Group nullable g := by
    intro g hg
    rcases List.mem_append.1 hg with hg | hg
    · exact g1 g hg
    · exact g2 g hg
  have hz : byteCount ([] : List (Option Bytes)) < m := by simpa [byteCount, valuesOf] using hm
  have f1 := fillGroups_filled bufs1 [] [] hz hw1.manageable
  have f2 := fillGroups_filled bufs2 [] [] hz hw2.manageable
  constructor
  · rintro rfl
    have hgs := column_inj_nullable f1 f2 hall h
    refine ⟨by rw [← binary_values (bufs := bufs1) m, ← binary_values (bufs := bufs2) m, hgs], fun hend => ?_⟩
    have e1 := fillGroups_rows m bufs1 [] (.inl rfl)
    have e2 := fillGroups_rows m bufs2 [] (.inl rfl)
    rw [List.nil_append, flatMap_ends fun b hb => hend b (List.mem_append_left _ hb)] at e1
    rw [List.nil_append, flatMap_ends fun b hb => hend b (List.mem_append_right _ hb)] at e2
    rw [← e1, ← e2, hgs]
  · rintro rfl
    obtain ⟨n, hn⟩ := column_inj_nonnull f1 f2 hall h
    rw [binary_values, binary_values] at hn
    have hr : ∀ {bufs : List (List (Option Bytes))} {bs}, buildBinary false bufs = .ok bs →
        (valuesOf bufs.flatten).map some = bufs.flatten := by
      intro bufs bs hb
      refine rows_of_nonnull fun hmem => ?_
      obtain ⟨b, hbm, hx⟩ := List.mem_flatten.mp hmem
      exact ((buildBinary_ok hb).1 b hbm).resolve_left (by decide) hx
    refine ⟨n, ?_⟩
    rw [← hr hb1, ← hr hb2]
    rcases hn with hn | hn
    · exact .inl (by rw [hn, List.map_append, List.map_replicate])
    · exact .inr (by rw [hn, List.map_append, List.map_replicate])

/-- C69 for one column as the encoder writes it, whatever the block size and the profiles: when both histories are written as they should
be, the bytes of the blocks, put one after the other without an index, determine the column. -/
theorem C69_blocks_determine_column (p1 p2 : Profile) (nullable : Bool) (m : Nat) (hm : 0 < m) (hm32 : m ≤ U32_MAX)
    (bufs1 bufs2 : List (List (Option Bytes))) (bs1 bs2) (hb1 : buildBinary nullable bufs1 = .ok bs1)
    (hb2 : buildBinary nullable bufs2 = .ok bs2) (hw1 : WellWritten m nullable bufs1) (hw2 : WellWritten m nullable bufs2)
    (e1 e2 blocks1 blocks2) (hrun1 : encodeColumn p1 recorder bs1 (Encoder.new m nullable, []) = (.ok (), (e1, blocks1)))
    (hrun2 : encodeColumn p2 recorder bs2 (Encoder.new m nullable, []) = (.ok (), (e2, blocks2)))
    (hsame : concatBlocks blocks1 = concatBlocks blocks2) : SameColumn nullable bufs1 bufs2 := by
  have r1 := hw1.rows
  have r2 := hw2.rows
  obtain ⟨x1, k1⟩ := binary_run p1 hm hb1 (by omega) hm32 hw1.manageable
  obtain ⟨x2, k2⟩ := binary_run p2 hm hb2 (by omega) hm32 hw2.manageable
  rw [k1] at hrun1
  rw [k2] at hrun2
  obtain ⟨_, h1⟩ := Prod.mk.inj hrun1
  obtain ⟨_, rfl⟩ := Prod.mk.inj h1
  obtain ⟨_, h2⟩ := Prod.mk.inj hrun2
  obtain ⟨_, rfl⟩ := Prod.mk.inj h2
  rw [concatBlocks_blocksOf, concatBlocks_blocksOf] at hsame
  exact groups_same_column hm hm32 hb1 hb2 hw1 hw2 hsame

/-- C69 as far as it holds: for a segment that has one column only, raw, written as it should be (see C35), the lengths of whose
items lose no bit in the offset encoding. The data file determines the column, whatever the profiles and operating systems. -/
theorem C69_files_determine_columns_partial (p1 p2 : Profile) (os1 os2 : SegmentOs) (info1 info2 : SegmentInfo)
    (s1 s2 s1' s2' : SegmentWriter) (hnew1 : SegmentWriter.new p1 os1 info1 = .ok s1)
    (hnew2 : SegmentWriter.new p2 os2 info2 = .ok s2) (ci : ColumnInfo) (hraw : ci.encoding = .raw)
    (bufs1 bufs2 : List (List (Option Bytes))) (bs1 bs2 : List BinaryBuffer)
    (hb1 : buildBinary ci.nullable bufs1 = .ok bs1) (hb2 : buildBinary ci.nullable bufs2 = .ok bs2)
    (hw1 : WellWritten BLOCK_SIZE ci.nullable bufs1) (hw2 : WellWritten BLOCK_SIZE ci.nullable bufs2)
    (order1 order2 : HashOrder) (rs1 rs2 : List SegResult)
    (hrun1 : runSeg p1 os1 ([.column ci (writeAllOps bs1)] ++ [.close order1]) s1 = (rs1, s1'))
    (hrun2 : runSeg p2 os2 ([.column ci (writeAllOps bs2)] ++ [.close order2]) s2 = (rs2, s2'))
    (hgood1 : ∀ x ∈ rs1, x.Good) (hgood2 : ∀ x ∈ rs2, x.Good)
    (hfile : s1'.dataWriter.file.content = s2'.dataWriter.file.content) : SameColumn ci.nullable bufs1 bufs2 := by
  have hB : BLOCK_SIZE ≤ U32_MAX := by decide +kernel
  have hB0 : 0 < BLOCK_SIZE := by decide
  -- the data of one segment
  have hone : ∀ (p : Profile) (os : SegmentOs) (info : SegmentInfo) (s s' : SegmentWriter) (bufs : List (List (Option Bytes)))
      (bs : List BinaryBuffer) (order : HashOrder) (rs : List SegResult), SegmentWriter.new p os info = .ok s →
      buildBinary ci.nullable bufs = .ok bs →
      runSeg p os ([.column ci (writeAllOps bs)] ++ [.close order]) s = (rs, s') → (∀ x ∈ rs, x.Good) →
      WellWritten BLOCK_SIZE ci.nullable bufs →
      s'.dataWriter.file.content = DATA_FILE_SIGNATURE ++ (fillGroups BLOCK_SIZE [] bufs).flatMap (blockBytes ci.nullable) := by
    intro p os info s s' bufs bs order rs hnew hb hrun hgood hw
    have h1 := hw.rows
    obtain ⟨e, hr⟩ := binary_run p hB0 hb (by omega) hB hw.manageable
    have hd := C47_data_is_columns p os info s s' hnew _ rs hrun hgood
    obtain ⟨_, _, _, _, _, _, hin⟩ := closed_state hnew hrun hgood
    simp only [TokioFile.pending, hin, Option.getD_none, List.append_nil] at hd
    rw [hd]
    simp only [List.cons_append, List.nil_append, columnBytes, List.append_nil]
    rw [blocksAlone_raw p hraw, hr, concatBlocks_blocksOf]
  rw [hone p1 os1 info1 s1 s1' bufs1 bs1 order1 rs1 hnew1 hb1 hrun1 hgood1 hw1,
    hone p2 os2 info2 s2 s2' bufs2 bs2 order2 rs2 hnew2 hb2 hrun2 hgood2 hw2] at hfile
  exact groups_same_column hB0 hB hb1 hb2 hw1 hw2 (List.append_cancel_left hfile)

theorem readable_one (n b : Nat) (hb : 2 ^ (b - 1) ≤ n) (hn : n < 2 ^ b) (h8 : b ≤ 32) : ReadableLengths [n] := by
  refine ⟨b, ⟨by simpa using hn, .inr ⟨n, by simp, hb⟩⟩, ?_⟩
  intro i c hi hc
  obtain rfl : i = 0 := by simpa using hi
  have hcb : c < b := Classical.byContradiction fun hne => by
    have h5 : n < 2 ^ c := Nat.lt_of_lt_of_le hn (Nat.pow_le_pow_right (by decide) (by omega))
    have : ([n].getD 0 0 : Nat) = n := rfl
    rw [this, Nat.testBit_lt_two_pow h5] at hc; cases hc
  have : c / 32 = 0 := by omega
  simp only [bytePos, List.length_cons, List.length_nil]
  omega

/-- It applies to a column of two blocks, with a null and values of 130 and five bytes, whatever they are. -/
example (v w : Bytes) (hv : v.length = 130) (hw : w.length = 5) :
    WellWritten BLOCK_SIZE true [[none, some v], [some w]] ∧
    fillGroups BLOCK_SIZE [] [[none, some v], [some w]] = [[none, some v], [some w]] := by
  have f1 : fillStep BLOCK_SIZE [] [none, some v] = ([[none, some v]], []) := by
    have h : fill (BLOCK_SIZE - byteCount []) (valuesOf [none, some v]) = some 1 := by
      simp [byteCount, valuesOf, BLOCK_SIZE, fill, hv]
    simp [fillStep, h, takeVals, dropTrailingNulls]
  have f2 : fillStep BLOCK_SIZE [] [some w] = ([], [some w]) := by
    have h : fill (BLOCK_SIZE - byteCount []) (valuesOf [some w]) = none :=
      fill_eq_none _ _ (by simp [byteCount, valuesOf, BLOCK_SIZE, hw])
    simp only [fillStep, h]
    simp [dropTrailingNulls]
  have hg : fillGroups BLOCK_SIZE [] [[none, some v], [some w]] = [[none, some v], [some w]] := by
    simp [fillGroups, f1, f2, valuesOf]
  refine ⟨⟨by simp, ?_, ?_⟩, hg⟩
  · have hB : 0 < BLOCK_SIZE := by decide
    simp [Manageable, GroupFits, f1, f2, nextStale, valuesOf, byteCount, seenBits, orBits, validityOf, hB]
  · rw [hg]
    intro g hg
    simp only [List.mem_cons, List.not_mem_nil, or_false] at hg
    rcases hg with rfl | rfl
    · simpa [valuesOf, hv] using readable_one 130 8 (by decide) (by decide) (by decide)
    · simpa [valuesOf, hw] using readable_one 5 3 (by decide) (by decide) (by decide)

/-- And such segments are written without an error. -/
example : ∃ r, columnsSegment true [("a", [[], [none, some [1, 2, 3, 4, 5]]])] = some r ∧ ∀ x ∈ r.1, x.Good := by
  have h : (match columnsSegment true [("a", [[], [none, some [1, 2, 3, 4, 5]]])] with
    | some r => decide (∀ x ∈ r.1, x.Good) | none => false) = true := by decide +kernel
  cases hx : columnsSegment true [("a", [[], [none, some [1, 2, 3, 4, 5]]])] with
  | none => rw [hx] at h; cases h
  | some r => rw [hx] at h; exact ⟨r, rfl, of_decide_eq_true h⟩

end Meerkat
