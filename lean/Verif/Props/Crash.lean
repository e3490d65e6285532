import Verif.Spec.Crash
import Verif.Props.Segment

set_option autoImplicit false

/-! # Crashes: C54 -/

namespace Meerkat

open TokioFile

/-- Flushing a file with nothing to do. -/
theorem flush_idle {os : Os} {f : TokioFile} (herr : f.lastErr = false) (hp : f.inflight = none) :
    TokioFile.flush os f = (.ok (), f) := by
  simp only [TokioFile.flush, Run.bind_apply, TokioFile.takeErr, herr, TokioFile.complete,
    Bool.false_eq_true, if_false, hp]

/-- What a successful sync of a writer without pending writes does. -/
theorem Writer.sync_ok {os : Os} {w w' : Writer} (h : Writer.sync os w = (.ok (), w'))
    (herr : w.file.lastErr = false) (hp : w.file.inflight = none) :
    w'.file.content = w.file.content ∧ w'.file.pending = [] ∧ w'.file.synced = w.file.content := by
  simp only [Writer.sync, Writer.onFile] at h
  have hf : TokioFile.flush os w.file = (.ok (), w.file) := flush_idle herr hp
  simp only [TokioFile.syncAll, hf] at h
  split at h
  · cases h; simp [TokioFile.pending, hp]
  · cases h

/-- After a successful fsync of a file without pending writes, a crash leaves the file as it is. -/
theorem AfterCrash.complete {f : TokioFile} {disk : Bytes} (h : AfterCrash f disk) (hs : f.synced = f.content)
    (hp : f.pending = []) : disk = f.content := by
  obtain ⟨h1, h2, _⟩ := h
  rw [hp, List.append_nil] at h2
  rw [hs] at h1
  exact (h1.eq_of_length (by have := h1.length_le; omega)).symm

theorem inflight_of_pending {os : Os} {w w' : Writer} (h : Writer.flush os w = (.ok (), w')) :
    w'.file.inflight = none := by
  simp only [Writer.flush, Writer.onFile] at h
  rcases h2 : TokioFile.flush os w.file with ⟨r, f⟩
  simp only [h2] at h
  cases h
  exact (flush_ok h2).2.2.1

/-- After a good close nothing is in flight. -/
theorem segClose_inflight {p : Profile} {os : SegmentOs} {order : HashOrder} {s s' : SegmentWriter}
    (h : SegmentWriter.close p os order s = (.ok (), s')) :
    s'.indexWriter.file.inflight = none ∧ s'.dataWriter.file.inflight = none := by
  simp only [SegmentWriter.close] at h
  obtain ⟨_, s1, h1, h⟩ := bind_inv h
  obtain ⟨_, s2, h2, h⟩ := bind_inv h
  obtain ⟨_, s3, h3, h4⟩ := bind_inv h
  obtain ⟨a3, b3⟩ := onIndex_ok h3
  obtain ⟨a4, b4⟩ := onData_ok h4
  exact ⟨by rw [b4]; exact inflight_of_pending a3, inflight_of_pending a4⟩

/-- The state of both files after a good history that ends with a close. -/
theorem closed_state {p : Profile} {os : SegmentOs} {info : SegmentInfo} {s s' : SegmentWriter}
    (hnew : SegmentWriter.new p os info = .ok s) {ops : List SegOp} {order : HashOrder} {results : List SegResult}
    (hrun : runSeg p os (ops ++ [.close order]) s = (results, s')) (hgood : ∀ x ∈ results, x.Good) :
    ∃ idata data, GoodWriter s'.indexWriter idata ∧ GoodWriter s'.dataWriter data ∧
      DATA_FILE_SIGNATURE <+: data ∧
      s'.indexWriter.file.inflight = none ∧ s'.dataWriter.file.inflight = none := by
  obtain ⟨g1, g2, _⟩ := new_ok hnew
  obtain ⟨g3, more, g4⟩ := runSeg_data (p := p) (os := os) _ (s := s) (by rw [hrun]; exact hgood) g2 g1
  rw [hrun] at g3 g4
  rw [runSeg_append] at hrun
  rcases h1 : runSeg p os ops s with ⟨rs1, s1⟩
  rcases h2 : SegmentWriter.close p os order s1 with ⟨r, s2⟩
  simp only [h1, runSeg, SegOp.run, h2, Prod.mk.injEq] at hrun
  obtain ⟨rfl, rfl⟩ := hrun
  obtain rfl : r = .ok () := hgood (.closed r) (by simp)
  obtain ⟨c1, c2⟩ := segClose_inflight h2
  exact ⟨_, _, g4, g3, List.prefix_append _ _, c1, c2⟩

/-- The state of both files after a good history that ends with a close and is synced. -/
theorem synced_state {p : Profile} {os : SegmentOs} {info : SegmentInfo} {s s' s'' : SegmentWriter}
    (hnew : SegmentWriter.new p os info = .ok s) {ops : List SegOp} {order : HashOrder} {results : List SegResult}
    (hrun : runSeg p os (ops ++ [.close order]) s = (results, s')) (hgood : ∀ x ∈ results, x.Good)
    (hsync : SegmentWriter.sync os s' = (.ok (), s'')) :
    (s''.indexWriter.file.content = s'.indexWriter.file.content ∧ s''.indexWriter.file.pending = [] ∧
      s''.indexWriter.file.synced = s'.indexWriter.file.content) ∧
    s''.dataWriter.file.content = s'.dataWriter.file.content ∧ s''.dataWriter.file.pending = [] ∧
      s''.dataWriter.file.synced = s'.dataWriter.file.content := by
  obtain ⟨idata, data, g1, g2, _, c1, c2⟩ := closed_state hnew hrun hgood
  simp only [SegmentWriter.sync] at hsync
  obtain ⟨_, s1, h1, h2⟩ := bind_inv hsync
  obtain ⟨a1, b1⟩ := onIndex_ok h1
  obtain ⟨a2, b2⟩ := onData_ok h2
  have hdw : s1.dataWriter = s'.dataWriter := by rw [b1]
  rw [hdw] at a2
  have hiw : s''.indexWriter = s1.indexWriter := by rw [b2]
  rw [hiw]
  exact ⟨Writer.sync_ok a1 g1.err c1, Writer.sync_ok a2 g2.err c2⟩

/-- C54, first part: if no call failed up to the close of the segment and the sync succeeded too, a crash leaves both files
exactly as they were when the close returned (see C46 and C47 for what that is). -/
theorem C54_synced_survives_partial (p : Profile) (os : SegmentOs) (info : SegmentInfo) (s s' s'' : SegmentWriter)
    (hnew : SegmentWriter.new p os info = .ok s) (ops : List SegOp) (order : HashOrder) (results : List SegResult)
    (hrun : runSeg p os (ops ++ [.close order]) s = (results, s')) (hgood : ∀ x ∈ results, x.Good)
    (hsync : SegmentWriter.sync os s' = (.ok (), s'')) (diskIndex diskData : Bytes)
    (hi : AfterCrash s''.indexWriter.file diskIndex) (hd : AfterCrash s''.dataWriter.file diskData) :
    diskIndex = s'.indexWriter.file.content ∧ diskData = s'.dataWriter.file.content := by
  obtain ⟨⟨i1, i2, i3⟩, d1, d2, d3⟩ := synced_state hnew hrun hgood hsync
  exact ⟨by rw [hi.complete (by rw [i3, i1]) i2, i1], by rw [hd.complete (by rw [d3, d1]) d2, d1]⟩

/-- C54, second part, is false of the code for every segment: `sync` syncs the index file first. If the fsync of the
index file succeeds and that of the data file does not, the call stops with the index file complete for certain while the
data file may be left empty by a crash. -/
theorem C54_index_implies_data_violated (p : Profile) (os : SegmentOs) (info : SegmentInfo) (s s' : SegmentWriter)
    (hnew : SegmentWriter.new p os info = .ok s) (ops : List SegOp) (order : HashOrder) (results : List SegResult)
    (hrun : runSeg p os (ops ++ [.close order]) s = (results, s')) (hgood : ∀ x ∈ results, x.Good)
    (hindex : os.index.syncs s'.indexWriter.file.numSyncs = true)
    (hdata : os.data.syncs s'.dataWriter.file.numSyncs = false) :
    ∃ s'', SegmentWriter.sync os s' = (.error .io, s'') ∧
    (∀ disk, AfterCrash s''.indexWriter.file disk → disk = s'.indexWriter.file.content) ∧
    AfterCrash s''.dataWriter.file [] ∧ s''.dataWriter.file.content ≠ [] := by
  obtain ⟨idata, data, g1, g2, hsig, c1, c2⟩ := closed_state hnew hrun hgood
  let fi : TokioFile := { s'.indexWriter.file with numSyncs := s'.indexWriter.file.numSyncs + 1,
                                                   synced := s'.indexWriter.file.content }
  let fd : TokioFile := { s'.dataWriter.file with numSyncs := s'.dataWriter.file.numSyncs + 1 }
  let s1 : SegmentWriter := { s' with indexWriter := { s'.indexWriter with file := fi } }
  have hs1 : SegmentWriter.onIndex (Writer.sync os.index) s' = (.ok (), s1) := by
    have hf : TokioFile.flush os.index s'.indexWriter.file = (.ok (), s'.indexWriter.file) := flush_idle g1.err c1
    simp only [SegmentWriter.onIndex, Writer.sync, Writer.onFile, TokioFile.syncAll, hf, hindex, if_true, s1, fi]
  have hs2 : SegmentWriter.onData (Writer.sync os.data) s1 =
      (.error .io, { s1 with dataWriter := { s'.dataWriter with file := fd } }) := by
    have hf : TokioFile.flush os.data s'.dataWriter.file = (.ok (), s'.dataWriter.file) := flush_idle g2.err c2
    simp only [SegmentWriter.onData, Writer.sync, Writer.onFile, TokioFile.syncAll, hf, hdata, Bool.false_eq_true,
      if_false, s1, fd]
  refine ⟨_, by rw [SegmentWriter.sync, Run.bind_apply, hs1]; exact hs2, ?_, ?_, ?_⟩
  · intro disk hi
    exact hi.complete rfl (show fi.inflight.getD [] = [] by simp only [fi, c1, Option.getD_none])
  · exact ⟨by rw [show _ = ([] : Bytes) from g2.synced]; exact List.prefix_refl _, by simp, by simp⟩
  · have := g2.content
    simp only [TokioFile.pending, c2, Option.getD_none, List.append_nil] at this
    show s'.dataWriter.file.content ≠ []
    rw [this]
    rintro rfl
    exact absurd (List.prefix_nil.1 hsig) (by decide)

/-- The operating system of the examples, except that the fsync of the data file fails. -/
def exampleSyncOs : SegmentOs := 
  { data := { Os.reliable with syncs := fun _ => false }, index := .reliable }

/-- The example segment can be synced; with a failing fsync of the data file only the index file is on the disk. -/
example : ∃ s, SegmentWriter.new .debug .reliable exampleInfo = .ok s ∧
    let run := runSeg .debug .reliable (exampleOps ++ [.close .insertion]) s
    let failed := SegmentWriter.sync exampleSyncOs run.2
    (∀ x ∈ run.1, x.Good) ∧ (SegmentWriter.sync .reliable run.2).1 = .ok () ∧
    (SegmentWriter.sync .reliable run.2).2.dataWriter.file.synced.length = 31 ∧
    failed.1 = .error .io ∧ failed.2.dataWriter.file.synced = [] ∧
    failed.2.indexWriter.file.synced = run.2.indexWriter.file.content := by
  refine exists_ok ?_
  decide +kernel

end Meerkat
