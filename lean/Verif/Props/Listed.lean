import Verif.Props.Torn
import Verif.Props.Live
import Verif.Props.AfterFailure

set_option autoImplicit false

/-! # C86: columns that the index file lists -/

namespace Meerkat

namespace Listed
open TokioFile

/-- The write that is pending stays one of a buffer at most. -/
def Small {α : Type} (os : Os) (m : Run TokioFile α) : Prop :=
  ∀ f r f', m f = (r, f') → f.pending.length ≤ os.maxBuf → f'.pending.length ≤ os.maxBuf

theorem Small.bind {α β : Type} {os : Os} {m : Run TokioFile α} {g : α → Run TokioFile β} (hm : Small os m)
    (hg : ∀ a, Small os (g a)) : Small os (m >>= g) := by
  intro f r f' h hf
  rcases h1 : m f with ⟨x | a, f1⟩
  · rw [Run.bind_error h1] at h; cases h; exact hm _ _ _ h1 hf
  · rw [Run.bind_ok h1] at h; exact hg a _ _ _ h (hm _ _ _ h1 hf)

theorem Small.takeErr (os : Os) : Small os takeErr := by
  intro f r f' h hf
  simp only [TokioFile.takeErr] at h
  split at h <;> cases h <;> exact hf

theorem Small.complete (os : Os) : Small os (complete os) := by
  intro f r f' h _
  have := complete_settled h
  simp [pending, this.2]

theorem Small.spawn (os : Os) (src : Bytes) : Small os (spawn (src.take os.maxBuf)) := by
  intro f r f' h _
  simp only [TokioFile.spawn] at h
  cases h
  simp [pending]; omega

theorem Small.flush (os : Os) : Small os (flush os) := .bind (.takeErr os) fun _ => .complete os

theorem Small.writeAllFuel (os : Os) (fuel : Nat) (src : Bytes) : Small os (writeAllFuel os fuel src) := by
  induction fuel generalizing src with
  | zero =>
    intro f r f' h hf
    simp only [TokioFile.writeAllFuel] at h
    split at h
    · cases h; exact hf
    · simp only [Run.lift] at h; cases h; exact hf
  | succ fuel ih =>
    rw [TokioFile.writeAllFuel]
    split
    · intro f r f' h hf; cases h; exact hf
    · refine .bind (.bind (.takeErr os) fun _ => .bind (.complete os) fun _ => .spawn os src) fun n => ?_
      split
      · intro f r f' h hf; simp only [fail] at h; cases h; exact hf
      · exact ih _

theorem small (p : Profile) (os : Os) : Preserved p os fun w => w.file.pending.length ≤ os.maxBuf where
  write b w h := by
    simp only [Writer.writeBlock]
    split
    · exact h
    · simp only [Writer.onFile]
      exact Small.writeAllFuel os _ _ _ _ _ rfl h
  flush w h := by
    simp only [Writer.flush, Writer.onFile]
    exact Small.flush os _ _ _ rfl h

theorem settles (p : Profile) (os : Os) (bytes : Bytes) : Preserved p os fun w => bytes <+: syncedBytes os w.file where
  write b w h := h.trans (Writer.writeBlock_settles p os b w)
  flush w h := h.trans (Writer.flush_settles os w)

theorem any (p : Profile) (os : Os) : Preserved p os fun _ => True := ⟨fun _ _ _ => trivial, fun _ _ => trivial⟩

theorem new_small {p : Profile} {os : SegmentOs} {info : SegmentInfo} {s : SegmentWriter}
    (h : SegmentWriter.new p os info = .ok s) : s.dataWriter.file.pending.length ≤ os.data.maxBuf := by
  simp only [SegmentWriter.new] at h
  rcases h1 : Writer.new os.index with x | iw
  · rw [h1] at h; cases h
  rcases h2 : Writer.new os.data with x | dw
  · rw [h1, h2] at h; cases h
  rw [h1, h2] at h
  simp only [ok_bind] at h
  rcases h3 : SegmentWriter.writeHeaders p os (SegmentWriter.initial info dw iw) with ⟨x | x, s1⟩
  · rw [h3] at h; cases h
  rw [h3] at h
  cases h
  obtain ⟨_, s2, h4, h5⟩ := bind_inv h3
  obtain ⟨_, h7⟩ := onIndex_ok h4
  obtain ⟨h8, _⟩ := onData_ok h5
  have hd : s2.dataWriter = dw := by rw [h7]; rfl
  rw [hd, new_file h2] at h8
  have := (small p os.data).write DATA_FILE_SIGNATURE { file := TokioFile.empty, pos := 0 } (Nat.zero_le _)
  rw [h8] at this
  exact this

/-- A write of a good writer succeeds if the operating system does what it is asked. -/
theorem write_succeeds {p : Profile} {os : Os} (hb : 0 < os.maxBuf) (hd : ∀ i, os.writes i = .done) {w : Writer}
    {data : Bytes} (hw : GoodWriter w data) (b : Bytes) (hlen : (data ++ b).length < 2 ^ 64) :
    ∃ w', Writer.writeBlock p os b w = (.ok (), w') ∧ GoodWriter w' (data ++ b) := by
  rw [List.length_append] at hlen
  have hp : p.add 64 w.pos b.length = .ok (w.pos + b.length) := by
    have := hw.pos
    rw [Nat.mod_eq_of_lt (by omega)] at this
    simp only [Profile.add]
    rw [if_pos (by omega)]
  obtain ⟨f', hf⟩ := writeAllFuel_succeeds hb hd (src := b) (f := w.file) (Nat.le_refl _) hw.err
  have h1 : Writer.writeBlock p os b w = (.ok (), { file := f', pos := w.pos + b.length }) := by
    simp only [Writer.writeBlock, hp, Writer.onFile, TokioFile.writeAll, hf]
  exact ⟨_, h1, hw.write h1⟩

theorem flush_succeeds {os : Os} (hd : ∀ i, os.writes i = .done) {w : Writer} {data : Bytes} (hw : GoodWriter w data) :
    ∃ w', Writer.flush os w = (.ok (), w') ∧ w'.file.content = data := by
  have h1 : ∃ f', TokioFile.flush os w.file = (.ok (), f') := by
    have h0 : TokioFile.takeErr w.file = (.ok (), w.file) := by simp [TokioFile.takeErr, hw.err]
    simp only [TokioFile.flush, Run.bind_ok h0, TokioFile.complete, hd]
    split
    · exact ⟨_, rfl⟩
    · exact ⟨_, rfl⟩
  obtain ⟨f', h1⟩ := h1
  have h2 : Writer.flush os w = (.ok (), { w with file := f' }) := by simp only [Writer.flush, Writer.onFile, h1]
  obtain ⟨_, h3, _⟩ := hw.flush h2
  exact ⟨_, h2, h3⟩

/-- Columns do not touch the index file, whatever their calls return. -/
theorem columns_index (p : Profile) (os : SegmentOs) (cols : List (ColumnInfo × List ColOp)) (s : SegmentWriter) :
    (runSeg p os (cols.map fun c => .column c.1 c.2) s).2.indexWriter = s.indexWriter := by
  induction cols generalizing s with
  | nil => rfl
  | cons c cols ih =>
    simp only [List.map_cons, runSeg, ih]
    simp only [SegOp.run, SegmentWriter.newBinaryColumnWriter]
    rcases newBinaryEncoder c.1.encoding BLOCK_SIZE c.1.nullable with f | e
    · rfl
    · exact ((any p os.data).colOps (Q := fun w => w = s.indexWriter) c.2 { columnInfo := c.1, encoder := e }
        { s with blockIndex := s.blockIndex.clear } ⟨trivial, rfl⟩).2

end Listed

open Listed

/-- C86 is false of the code. In the first segment the last byte of the only column is lost, close() reports it, but the index
file has been completed by then, and lists the column. In the second the same byte is lost, the failure is reported to
the column written next, and all calls for the first column and the close() of the segment succeed. -/
theorem C86_listed_violated : let os : SegmentOs := { data := .failsAt 9, index := .reliable }
    let a := SegOp.column (exampleColumn "a") [.write exampleBuffer, .close]
    let b := SegOp.column (exampleColumn "b") [.write exampleBuffer, .close]
    let listed := fun (s : SegmentWriter) =>
      (recoverIndex s.indexWriter.file.content).map fun m => m.columnsLayout.map Prod.fst
    let file := DATA_FILE_SIGNATURE ++ (concatBlocks (blocksAlone .debug (exampleColumn "a") [.write exampleBuffer, .close]))
    ∃ s, SegmentWriter.new .debug os exampleInfo = .ok s ∧
      ((runSeg .debug os [a] s).1.all (fun x => decide x.Good) = true ∧
        (SegmentWriter.close .debug os .insertion (runSeg .debug os [a] s).2).1 = .error .io ∧
        let s' := (SegmentWriter.close .debug os .insertion (runSeg .debug os [a] s).2).2
        listed s' = some ["a"] ∧ s'.dataWriter.file.content ++ s'.dataWriter.file.pending = file.dropLast) ∧
      ((SegmentWriter.close .debug os .insertion (runSeg .debug os [a, b] s).2).1 = .ok () ∧
        let s' := (SegmentWriter.close .debug os .insertion (runSeg .debug os [a, b] s).2).2
        listed s' = some ["a"] ∧ s'.dataWriter.file.content ++ s'.dataWriter.file.pending = file.dropLast) := by
  intro os a b listed file
  refine exists_ok ?_
  decide +kernel

/-- C86, exactly why: after any columns, whatever became of their calls and of the data file, close() completes the index file,
which lists the columns whose close() succeeded (C48), before it looks at the data file. -/
theorem C86_index_ignores_data (p : Profile) (os : SegmentOs) (hb : 0 < os.index.maxBuf)
    (hd : ∀ i, os.index.writes i = .done) (info : SegmentInfo) (s : SegmentWriter)
    (hnew : SegmentWriter.new p os info = .ok s) (cols : List (ColumnInfo × List ColOp)) (order : HashOrder) :
    let s1 := (runSeg p os (cols.map fun c => .column c.1 c.2) s).2
    let s2 := (SegmentWriter.close p os order s1).2
    (INDEX_FILE_SIGNATURE ++ Prost.encodeMetadata (order.apply s1.segmentMeta)).length + 8 < 2 ^ 64 →
    ∃ m, recoverIndex s2.indexWriter.file.content = some m ∧ Protobuf.SameMetadata m s1.segmentMeta ∧
      s2.segmentMeta = s1.segmentMeta := by
  intro s1 s2 hlen
  obtain ⟨g1, _, _⟩ := new_ok hnew
  have hi : GoodWriter s1.indexWriter INDEX_FILE_SIGNATURE := by rw [columns_index]; exact g1
  have h8 : ∀ n, (SegmentWriter.leBytes64 n).length = 8 := by intro n; simp [SegmentWriter.leBytes64]
  obtain ⟨w1, a1, b1⟩ := write_succeeds (p := p) hb hd hi (Prost.encodeMetadata (order.apply s1.segmentMeta)) (by omega)
  obtain ⟨w2, a2, b2⟩ := write_succeeds (p := p) hb hd b1 (SegmentWriter.leBytes64 s1.indexWriter.pos)
    (by rw [List.length_append, h8]; omega)
  obtain ⟨w3, a3, b3⟩ := flush_succeeds hd b2
  have hpos : s1.indexWriter.pos = 12 := by rw [hi.pos]; rfl
  obtain ⟨m, hm, _, _, _, _, _, hn1, hn2, _⟩ := C48_metadata_lists_closed p os info s s1 hnew _ _
    (show runSeg p os (cols.map fun c => .column c.1 c.2) s = (_, s1) from rfl)
  obtain ⟨m', h5, h6⟩ := C49_metadata_roundtrip s1.segmentMeta order
    (fun x hx => by rw [hm] at hx; cases hx; exact hn1) hn2 (by rw [List.length_append] at hlen; omega)
  have hs2 : s2.indexWriter = w3 ∧ s2.segmentMeta = s1.segmentMeta := by
    simp only [s2, SegmentWriter.close, Run.bind_apply, SegmentWriter.onIndex, a1, a2, a3, SegmentWriter.onData]
    exact ⟨trivial, trivial⟩
  refine ⟨m', ?_, h6, hs2.2⟩
  rw [hs2.1, b3]
  refine Torn.recover_framed (List.prefix_refl INDEX_FILE_SIGNATURE) (h8 _) ?_ h5 (Torn.same_isSome h6 (by rw [hm]; rfl))
  rw [hpos]
  decide

/-- C86: the index file of a segment that was not closed does not look complete, whatever columns were written and whatever
their calls returned, nor after a crash. -/
theorem C86_not_closed_partial (p : Profile) (os : SegmentOs) (info : SegmentInfo) (s : SegmentWriter)
    (hnew : SegmentWriter.new p os info = .ok s) (cols : List (ColumnInfo × List ColOp)) :
    let s1 := (runSeg p os (cols.map fun c => .column c.1 c.2) s).2
    recoverIndex s1.indexWriter.file.content = none ∧
    ∀ disk, AfterCrash s1.indexWriter.file disk → recoverIndex disk = none := by
  intro s1
  obtain ⟨g1, _, _⟩ := new_ok hnew
  have hi : GoodWriter s1.indexWriter INDEX_FILE_SIGNATURE := by rw [columns_index]; exact g1
  have key : ∀ x : Bytes, x.length ≤ 12 → recoverIndex x = none := by
    intro x hx
    rw [recoverIndex, if_neg]
    rintro ⟨_, h, _⟩
    omega
  have hl : (s1.indexWriter.file.content ++ s1.indexWriter.file.pending).length = 12 := by rw [hi.content]; rfl
  refine ⟨key _ (by rw [List.length_append] at hl; omega), fun disk hdisk => key _ (by have := hdisk.2.1; omega)⟩

/-- C86: after any history, and whatever comes later, a column all of whose calls succeeded is in the data file but for the
write that was pending then, which is of one buffer at most; it is there entire if that write succeeds. -/
theorem C86_listed_partial (p : Profile) (os : SegmentOs) (hb : 0 < os.data.maxBuf) (hb' : 0 < os.index.maxBuf)
    (info : SegmentInfo) (s s1 s2 s3 : SegmentWriter) (hnew : SegmentWriter.new p os info = .ok s)
    (before later : List SegOp) (rs0 rs1 rs2 : List SegResult) (hrun0 : runSeg p os before s = (rs0, s1))
    (ci : ColumnInfo) (cops : List ColOp) (hrun1 : runSeg p os [.column ci cops] s1 = (rs1, s2))
    (hgood : ∀ x ∈ rs1, x.Good) (hrun2 : runSeg p os later s2 = (rs2, s3)) :
    let column := s1.dataWriter.file.content ++ s1.dataWriter.file.pending ++ concatBlocks (blocksAlone p ci cops)
    let n := s2.dataWriter.file.pending.length
    n ≤ os.data.maxBuf ∧ column.take (column.length - n) <+: syncedBytes os.data s3.dataWriter.file ∧
    (n = 0 ∨ os.data.writes s2.dataWriter.file.numWrites = .done → column <+: syncedBytes os.data s3.dataWriter.file) := by
  intro column n
  obtain ⟨_, _, _, h1, _⟩ := C76_index_exact p os hb hb' info s s1 s2 hnew before rs0 rs1 hrun0 ci cops hrun1 hgood
  have hcol : column = s2.dataWriter.file.content ++ s2.dataWriter.file.pending := h1.symm
  have hs1 := ((small p os.data).run (Q := fun _ => True) (any p os.index) before s ?_).1
  · rw [hrun0] at hs1
    have hs2 := ((small p os.data).run (Q := fun _ => True) (any p os.index) [.column ci cops] s1 ⟨hs1, trivial⟩).1
    rw [hrun1] at hs2
    have hs3 := ((settles p os.data (syncedBytes os.data s2.dataWriter.file)).run (Q := fun _ => True) (any p os.index)
      later s2 ⟨List.prefix_refl _, trivial⟩).1
    rw [hrun2] at hs3
    refine ⟨hs2, ?_, fun h => ?_⟩
    · rw [hcol, List.length_append, Nat.add_sub_cancel, List.take_left]
      exact (TokioFile.content_prefix os.data _).trans hs3
    · refine List.IsPrefix.trans ?_ hs3
      rw [hcol]
      simp only [syncedBytes, TokioFile.pending]
      rcases hi : s2.dataWriter.file.inflight with _ | c
      · simp
      · rcases h with h | h
        · have : c = [] := by simpa [n, TokioFile.pending, hi] using h
          subst this
          split <;> simp_all
        · simp [h]
  · exact ⟨new_small hnew, trivial⟩

/-- The theorems above speak about segments there are: here a column's calls all succeed while a write is pending, which the
file then gets. -/
example : ∃ s, SegmentWriter.new .debug { data := .reliable, index := .reliable } exampleInfo = .ok s ∧
    let os : SegmentOs := { data := .reliable, index := .reliable }
    let r := runSeg .debug os [.column (exampleColumn "a") [.write exampleBuffer, .close]] s
    r.1.all (fun x => decide x.Good) = true ∧ 0 < r.2.dataWriter.file.pending.length ∧
    os.data.writes r.2.dataWriter.file.numWrites = .done ∧
    (INDEX_FILE_SIGNATURE ++ Prost.encodeMetadata (HashOrder.insertion.apply r.2.segmentMeta)).length + 8 < 2 ^ 64 := by
  refine exists_ok ?_
  decide +kernel

end Meerkat
