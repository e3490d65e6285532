import Verif.Props.Crash

set_option autoImplicit false

/-! # C58, C59: failed background writes of a segment -/

namespace Meerkat

open TokioFile

/-- No error is kept, no background write failed so far, and the pending one is of one buffer at most. -/
def Clean (os : Os) (w : Writer) : Prop :=
  w.file.lastErr = false ∧ failedBetween os 0 w.file.numWrites = 0 ∧
  ∀ c, w.file.inflight = some c → c.length ≤ os.maxBuf

theorem writeAllFuel_small {os : Os} {fuel : Nat} {src : Bytes} {f f' : TokioFile}
    (h : writeAllFuel os fuel src f = (.ok (), f')) (hf : ∀ c, f.inflight = some c → c.length ≤ os.maxBuf) :
    ∀ c, f'.inflight = some c → c.length ≤ os.maxBuf := by
  induction fuel generalizing src f with
  | zero =>
    simp only [writeAllFuel] at h
    split at h
    · cases h; exact hf
    · cases h
  | succ fuel ih =>
    simp only [writeAllFuel] at h
    split at h
    · cases h; exact hf
    · obtain ⟨n, f1, h1, h2⟩ := bind_inv h
      obtain ⟨_, _, _, _, h3, _⟩ := write_ok h1
      split at h2
      · cases h2
      · refine ih h2 fun c hc => ?_
        rw [h3] at hc
        cases hc
        rw [List.length_take]
        exact Nat.min_le_left ..

theorem Clean.done {os : Os} {w : Writer} (h : Clean os w) : ∀ i, i < w.file.numWrites → os.writes i = .done := by
  intro i hi
  have := h.2.1
  rw [failedBetween, List.length_eq_zero_iff, List.filter_eq_nil_iff] at this
  simpa using this i (List.mem_range.2 hi)

theorem Clean.step {os : Os} {m : Run TokioFile Unit} (hm : Accounts os m) {w : Writer} {f : TokioFile} {n : Nat}
    (hw : Clean os w) (h : m w.file = (.ok (), f)) (hl : f.lastErr = false)
    (hs : ∀ c, f.inflight = some c → c.length ≤ os.maxBuf) : Clean os { file := f, pos := n } := by
  obtain ⟨h1, h2⟩ := hm _ _ _ h
  have h5 := failedBetween_add os (Nat.zero_le _) h1
  simp only [errs, hw.1, hl, Bool.toNat_false] at h2
  exact ⟨hl, by dsimp only; rw [h5, hw.2.1]; omega, hs⟩

theorem Clean.new {os : Os} {w : Writer} (h : Writer.new os = .ok w) : Clean os w := by
  simp only [Writer.new, TokioFile.create] at h
  split at h
  · rename_i heq; split at heq <;> cases heq; cases h; exact ⟨rfl, failedBetween_self os 0, fun _ h => nomatch h⟩
  · cases h

theorem Clean.write {p : Profile} {os : Os} (hb : 0 < os.maxBuf) {b : Bytes} {w w' : Writer} (hw : Clean os w)
    (h : Writer.writeBlock p os b w = (.ok (), w')) : Clean os w' := by
  simp only [Writer.writeBlock] at h
  rcases hp : p.add 64 w.pos b.length with e | n
  · rw [hp] at h; cases h
  · rw [hp] at h
    simp only [Writer.onFile] at h
    rcases h2 : writeAll os b w.file with ⟨r, f⟩
    simp only [h2] at h
    cases h
    exact hw.step (Accounts.writeAll os hb b) h2 ((writeAll_ok h2).1 hw.1) (writeAllFuel_small h2 hw.2.2)

theorem Clean.flush {os : Os} {w w' : Writer} (hw : Clean os w) (h : Writer.flush os w = (.ok (), w')) :
    Clean os w' := by
  simp only [Writer.flush, Writer.onFile] at h
  rcases h2 : TokioFile.flush os w.file with ⟨r, f⟩
  simp only [h2] at h
  cases h
  exact hw.step (Accounts.flush os) h2 (flush_ok h2).2.2.2.1 fun c hc => by rw [(flush_ok h2).2.2.1] at hc; cases hc

theorem Clean.feed {p : Profile} {os : Os} (hb : 0 < os.maxBuf) {bs : List (Nat × Bytes)} {w w' : Writer}
    {i i' : BlockIndex} (hw : Clean os w) (h : feed (blockSink p os) (w, i) bs = (.ok (), (w', i'))) :
    Clean os w' := by
  induction bs generalizing w i with
  | nil => cases h; exact hw
  | cons b bs ih =>
    simp only [Meerkat.feed, blockSink] at h
    rcases h1 : Writer.writeBlock p os b.2 w with ⟨x | x, w1⟩
    · simp only [h1] at h; cases (Prod.mk.inj h).1
    · simp only [h1] at h
      exact ih (hw.write hb h1) h

theorem Clean.colOps {p : Profile} {os : SegmentOs} (hb : 0 < os.data.maxBuf) (ops : List ColOp) {c : ColumnWriter}
    {s : SegmentWriter} (hok : ∀ x ∈ (runColOps p os ops (c, s)).1, x.2 = .ok ())
    (hd : Clean os.data s.dataWriter) (hi : Clean os.index s.indexWriter) :
    Clean os.data (runColOps p os ops (c, s)).2.2.dataWriter ∧
    Clean os.index (runColOps p os ops (c, s)).2.2.indexWriter := by
  induction ops generalizing c s with
  | nil => exact ⟨hd, hi⟩
  | cons op ops ih =>
    rcases h1 : op.run p os (c, s) with ⟨r, c1, s1⟩
    simp only [runColOps, h1] at hok ⊢
    obtain rfl : r = .ok () := hok (op, r) (by simp)
    refine ih (fun x hx => hok x (by simp [hx])) ?_ ?_
    · cases op with
      | write b =>
        obtain ⟨h2, _⟩ := onSink_eq (show ColumnWriter.onSink _ (c, s) = _ from h1)
        obtain ⟨bs, _, h5⟩ := (BinaryEncoder.encode_follows p (blockSink p os.data) b).ok h2
        exact hd.feed hb h5
      | close =>
        obtain ⟨layout, h2, _⟩ := close_ok h1
        obtain ⟨bs, _, h5⟩ := (BinaryEncoder.flush_follows p (blockSink p os.data)).ok h2
        exact hd.feed hb h5
    · cases op with
      | write b =>
        obtain ⟨_, _, h3, _⟩ := onSink_eq (show ColumnWriter.onSink _ (c, s) = _ from h1)
        rw [h3]; exact hi
      | close =>
        obtain ⟨_, _, _, h3, _⟩ := close_ok h1
        rw [h3]; exact hi

theorem Clean.newSegment {p : Profile} {os : SegmentOs} (hb : 0 < os.data.maxBuf) (hb' : 0 < os.index.maxBuf)
    {info : SegmentInfo} {s : SegmentWriter} (h : SegmentWriter.new p os info = .ok s) :
    Clean os.data s.dataWriter ∧ Clean os.index s.indexWriter := by
  simp only [SegmentWriter.new] at h
  rcases h1 : Writer.new os.index with x | iw
  · rw [h1] at h; cases h
  rcases h2 : Writer.new os.data with x | dw
  · rw [h1, h2] at h; cases h
  rw [h1, h2] at h
  simp only [ok_bind] at h
  rcases h3 : SegmentWriter.writeHeaders p os (SegmentWriter.initial info dw iw) with ⟨x | x, s1⟩
  · rw [h3] at h; cases h
  rw [h3] at h
  cases h
  obtain ⟨_, s2, h4, h5⟩ := bind_inv h3
  obtain ⟨h6, h7⟩ := onIndex_ok h4
  obtain ⟨h8, h9⟩ := onData_ok h5
  have hd : s2.dataWriter = dw := by rw [h7]; rfl
  rw [hd] at h8
  refine ⟨(Clean.new h2).write hb h8, ?_⟩
  rw [h9]
  exact (Clean.new h1).write hb' h6

theorem Clean.segClose {p : Profile} {os : SegmentOs} (hb' : 0 < os.index.maxBuf) {order : HashOrder}
    {s s' : SegmentWriter} (h : SegmentWriter.close p os order s = (.ok (), s'))
    (hd : Clean os.data s.dataWriter) (hi : Clean os.index s.indexWriter) :
    Clean os.data s'.dataWriter ∧ Clean os.index s'.indexWriter := by
  simp only [SegmentWriter.close] at h
  obtain ⟨_, s1, h1, h⟩ := bind_inv h
  obtain ⟨_, s2, h2, h⟩ := bind_inv h
  obtain ⟨_, s3, h3, h4⟩ := bind_inv h
  obtain ⟨a1, b1⟩ := onIndex_ok h1
  obtain ⟨a2, b2⟩ := onIndex_ok h2
  obtain ⟨a3, b3⟩ := onIndex_ok h3
  obtain ⟨a4, b4⟩ := onData_ok h4
  have hd3 : s3.dataWriter = s.dataWriter := by rw [b3, b2, b1]
  rw [hd3] at a4
  refine ⟨hd.flush a4, ?_⟩
  rw [b4]
  exact ((hi.write hb' a1).write hb' a2).flush a3

theorem Clean.segment {p : Profile} {os : SegmentOs} (hb : 0 < os.data.maxBuf) (hb' : 0 < os.index.maxBuf)
    (ops : List SegOp) {s : SegmentWriter} (hok : ∀ x ∈ (runSeg p os ops s).1, x.Good)
    (hd : Clean os.data s.dataWriter) (hi : Clean os.index s.indexWriter) :
    Clean os.data (runSeg p os ops s).2.dataWriter ∧ Clean os.index (runSeg p os ops s).2.indexWriter := by
  induction ops generalizing s with
  | nil => exact ⟨hd, hi⟩
  | cons op ops ih =>
    rcases h1 : op.run p os s with ⟨r, s1⟩
    simp only [runSeg, h1] at hok ⊢
    have hr : r.Good := hok r (by simp)
    have hrest : ∀ x ∈ (runSeg p os ops s1).1, x.Good := fun x hx => hok x (by simp [hx])
    suffices hs : Clean os.data s1.dataWriter ∧ Clean os.index s1.indexWriter from ih hrest hs.1 hs.2
    cases op with
    | column info cops =>
      simp only [SegOp.run, SegmentWriter.newBinaryColumnWriter] at h1
      rcases he : newBinaryEncoder info.encoding BLOCK_SIZE info.nullable with f | e
      · simp only [he] at h1
        cases h1
        exact ⟨hd, hi⟩
      · simp only [he] at h1
        rcases h2 : runColOps p os cops ({ columnInfo := info, encoder := e },
          { s with blockIndex := s.blockIndex.clear }) with ⟨rs, c2, s2⟩
        simp only [h2] at h1
        cases h1
        have := Clean.colOps (p := p) hb cops (c := { columnInfo := info, encoder := e })
          (s := { s with blockIndex := s.blockIndex.clear }) (by rw [h2]; exact hr) hd hi
        rw [h2] at this
        exact this
    | close order =>
      simp only [SegOp.run] at h1
      rcases h2 : SegmentWriter.close p os order s with ⟨r2, s2⟩
      simp only [h2] at h1
      cases h1
      obtain rfl : r2 = .ok () := hr
      exact Clean.segClose hb' h2 hd hi

/-- C58: a failed write is never silent. Whatever the operating system does with the two files, if a segment could be
created and no call on it failed up to and including a close, then no background write of either file failed
(and none is pending). -/
theorem C58_no_silent_failure (p : Profile) (os : SegmentOs) (hb : 0 < os.data.maxBuf) (hb' : 0 < os.index.maxBuf)
    (info : SegmentInfo) (s s' : SegmentWriter) (hnew : SegmentWriter.new p os info = .ok s) (ops : List SegOp)
    (order : HashOrder) (results : List SegResult)
    (hrun : runSeg p os (ops ++ [.close order]) s = (results, s')) (hgood : ∀ x ∈ results, x.Good) :
    (∀ i, i < s'.dataWriter.file.numWrites → os.data.writes i = .done) ∧
    (∀ i, i < s'.indexWriter.file.numWrites → os.index.writes i = .done) ∧
    s'.dataWriter.file.inflight = none ∧ s'.indexWriter.file.inflight = none := by
  obtain ⟨h1, h2⟩ := Clean.newSegment hb hb' hnew
  have h3 := Clean.segment (p := p) hb hb' (ops ++ [.close order]) (s := s) (by rw [hrun]; exact hgood) h1 h2
  rw [hrun] at h3
  obtain ⟨_, _, _, _, _, h4, h5⟩ := closed_state hnew hrun hgood
  exact ⟨h3.1.done, h3.2.done, h5, h4⟩

/-- The last background write of the data file (the end of the block of the only column) fails: the close of the segment
reports it, no other call does. -/
example : ∃ s, SegmentWriter.new .debug { data := .failsAt 9, index := .reliable } exampleInfo = .ok s ∧
    let run := runSeg .debug { data := .failsAt 9, index := .reliable }
      [.column (exampleColumn "a") [.write exampleBuffer, .close], .close .insertion] s
    run.1.map (fun x => decide x.Good) = [true, false] := by
  refine exists_ok ?_
  decide +kernel

/-! ## C59: sync without close -/

/-- C59, what holds: after a good close, a sync that succeeds means that every byte of both files was written and
synced. -/
theorem C59_sync_after_close_partial (p : Profile) (os : SegmentOs) (hb : 0 < os.data.maxBuf)
    (hb' : 0 < os.index.maxBuf) (info : SegmentInfo) (s s' s'' : SegmentWriter)
    (hnew : SegmentWriter.new p os info = .ok s) (ops : List SegOp) (order : HashOrder) (results : List SegResult)
    (hrun : runSeg p os (ops ++ [.close order]) s = (results, s')) (hgood : ∀ x ∈ results, x.Good)
    (hsync : SegmentWriter.sync os s' = (.ok (), s'')) :
    (∀ i, i < s''.dataWriter.file.numWrites → os.data.writes i = .done) ∧
    (∀ i, i < s''.indexWriter.file.numWrites → os.index.writes i = .done) ∧
    s''.dataWriter.file.synced = DATA_FILE_SIGNATURE ++ columnBytes p (ops ++ [.close order]) ∧
    s''.indexWriter.file.synced = s'.indexWriter.file.content := by
  obtain ⟨d1, i1, d2, i2⟩ := C58_no_silent_failure p os hb hb' info s s' hnew ops order results hrun hgood
  obtain ⟨_, _, g1, g2, _, _, _⟩ := closed_state hnew hrun hgood
  have hcols := C47_data_is_columns p os info s s' hnew _ _ hrun hgood
  simp only [SegmentWriter.sync] at hsync
  obtain ⟨_, s1, h1, h2⟩ := bind_inv hsync
  obtain ⟨a1, b1⟩ := onIndex_ok h1
  obtain ⟨a2, b2⟩ := onData_ok h2
  have hdw : s1.dataWriter = s'.dataWriter := by rw [b1]
  rw [hdw] at a2
  have hiw : s''.indexWriter = s1.indexWriter := by rw [b2]
  have key : ∀ {o : Os} {w w' : Writer}, Writer.sync o w = (.ok (), w') → w.file.lastErr = false →
      w.file.inflight = none → w'.file.numWrites = w.file.numWrites := by
    intro o w w' h herr hp
    simp only [Writer.sync, Writer.onFile] at h
    have hf : TokioFile.flush o w.file = (.ok (), w.file) := by
      simp only [TokioFile.flush, Run.bind_apply, TokioFile.takeErr, herr, TokioFile.complete,
        Bool.false_eq_true, if_false, hp]
    simp only [TokioFile.syncAll, hf] at h
    split at h
    · cases h; rfl
    · cases h
  obtain ⟨_, _, j3⟩ := Writer.sync_ok a1 g1.err i2
  obtain ⟨_, _, e3⟩ := Writer.sync_ok a2 g2.err d2
  refine ⟨by rw [key a2 g2.err d2]; exact d1, by rw [hiw, key a1 g1.err i2]; exact i1, ?_, by rw [hiw]; exact j3⟩
  rw [e3, ← hcols]
  simp [TokioFile.pending, d2]

/-- What a successful sync does with a file on which no background write has failed yet. -/
theorem Clean.sync {os : Os} {w w' : Writer} (hw : Clean os w) (h : Writer.sync os w = (.ok (), w')) :
    w'.file.synced = syncedBytes os w.file ∧
    ((∀ i, i < w'.file.numWrites → os.writes i = .done) ↔
      (w.file.inflight ≠ none → os.writes w.file.numWrites = .done)) := by
  simp only [Writer.sync, Writer.onFile] at h
  have hd := hw.done
  have hl := hw.1
  rcases hi : w.file.inflight with _ | c
  · have hf : TokioFile.flush os w.file = (.ok (), w.file) := by
      simp only [TokioFile.flush, Run.bind_apply, TokioFile.takeErr, hl, TokioFile.complete,
        Bool.false_eq_true, if_false, hi]
    simp only [TokioFile.syncAll, hf] at h
    split at h
    · cases h
      simpa [syncedBytes, hi] using hd
    · cases h
  · rcases ho : os.writes w.file.numWrites with _ | k
    · have hf : TokioFile.flush os w.file = (.ok (), { w.file with content := w.file.content ++ c, inflight := none, numWrites := w.file.numWrites + 1 }) := by
        simp only [TokioFile.flush, Run.bind_apply, TokioFile.takeErr, hl, TokioFile.complete,
          Bool.false_eq_true, if_false, hi, ho]
      simp only [TokioFile.syncAll, hf] at h
      split at h
      · cases h
        refine ⟨by simp [syncedBytes, hi, ho], fun _ _ => rfl, fun _ i hlt => ?_⟩
        dsimp only at hlt
        rcases Nat.lt_or_eq_of_le (Nat.le_of_lt_succ hlt) with h1 | h1
        · exact hd i h1
        · rw [h1]; exact ho
      · cases h
    · have hf : TokioFile.flush os w.file = (.error .io, { w.file with content := w.file.content ++ c.dropLast.take k, inflight := none, numWrites := w.file.numWrites + 1 }) := by
        simp only [TokioFile.flush, Run.bind_apply, TokioFile.takeErr, hl, TokioFile.complete,
          Bool.false_eq_true, if_false, hi, ho]
      simp only [TokioFile.syncAll, hf] at h
      split at h
      · cases h
        refine ⟨by simp [syncedBytes, hi, ho], fun hall => ?_, fun hn => ?_⟩
        · have := hall w.file.numWrites (Nat.lt_succ_self _)
          rw [ho] at this; cases this
        · have := hn (by simp)
          cases this
      · cases h

/-- C59, exactly: after any calls that all succeeded, closed or not, a sync that succeeds means that every background
write of a file was done if and only if the one still pending when `sync` was called, if any, was done. All the bytes
handed to the file before it are on disk in any case; of that last write, which is of one buffer at most, those the
operating system wrote. -/
theorem C59_sync_exact (p : Profile) (os : SegmentOs) (hb : 0 < os.data.maxBuf)
    (hb' : 0 < os.index.maxBuf) (info : SegmentInfo) (s s' s'' : SegmentWriter)
    (hnew : SegmentWriter.new p os info = .ok s) (ops : List SegOp) (results : List SegResult)
    (hrun : runSeg p os ops s = (results, s')) (hgood : ∀ x ∈ results, x.Good)
    (hsync : SegmentWriter.sync os s' = (.ok (), s'')) :
    ((∀ i, i < s''.dataWriter.file.numWrites → os.data.writes i = .done) ↔
      (s'.dataWriter.file.inflight ≠ none → os.data.writes s'.dataWriter.file.numWrites = .done)) ∧
    ((∀ i, i < s''.indexWriter.file.numWrites → os.index.writes i = .done) ↔
      (s'.indexWriter.file.inflight ≠ none → os.index.writes s'.indexWriter.file.numWrites = .done)) ∧
    s''.dataWriter.file.synced = syncedBytes os.data s'.dataWriter.file ∧
    s''.indexWriter.file.synced = syncedBytes os.index s'.indexWriter.file ∧
    s'.dataWriter.file.content ++ s'.dataWriter.file.inflight.getD [] = DATA_FILE_SIGNATURE ++ columnBytes p ops ∧
    (∀ c, s'.dataWriter.file.inflight = some c → c.length ≤ os.data.maxBuf) ∧
    (∀ c, s'.indexWriter.file.inflight = some c → c.length ≤ os.index.maxBuf) := by
  obtain ⟨h1, h2⟩ := Clean.newSegment hb hb' hnew
  have h3 := Clean.segment (p := p) hb hb' ops (s := s) (by rw [hrun]; exact hgood) h1 h2
  rw [hrun] at h3
  simp only [SegmentWriter.sync] at hsync
  obtain ⟨_, s1, k1, k2⟩ := bind_inv hsync
  obtain ⟨a1, b1⟩ := onIndex_ok k1
  obtain ⟨a2, b2⟩ := onData_ok k2
  have hdw : s1.dataWriter = s'.dataWriter := by rw [b1]
  rw [hdw] at a2
  have hiw : s''.indexWriter = s1.indexWriter := by rw [b2]
  obtain ⟨d1, d2⟩ := h3.1.sync a2
  obtain ⟨i1, i2⟩ := h3.2.sync a1
  rw [← hiw] at i1 i2
  exact ⟨d2, i2, d1, i1, C47_data_is_columns p os info s s' hnew _ _ hrun hgood, h3.1.2.2, h3.2.2.2⟩

/-- The write pending when `sync` is called fails after one of its two bytes: the sync succeeds, and the last byte
of the only column is not on disk. -/
example : ∃ s, SegmentWriter.new .debug { data := .failsAt 9, index := .reliable } exampleInfo = .ok s ∧
    let os : SegmentOs := { data := .failsAt 9, index := .reliable }
    let run := runSeg .debug os [.column (exampleColumn "a") [.write exampleBuffer, .close]] s
    (∀ x ∈ run.1, x.Good) ∧ (SegmentWriter.sync os run.2).1 = .ok () ∧ run.2.dataWriter.file.numWrites = 9 ∧
    run.2.dataWriter.file.inflight ≠ none ∧
    (SegmentWriter.sync os run.2).2.dataWriter.file.synced =
      (DATA_FILE_SIGNATURE ++ columnBytes .debug [.column (exampleColumn "a") [.write exampleBuffer, .close]]).dropLast := by
  refine exists_ok ?_
  decide +kernel

/-- C59 is false of the code: `sync` of a segment that was not closed can succeed although a background write failed,
and since it consumes the writer the failure can never be seen. Here the block of the only column is
lost: every call succeeds, the last write fails in the background, the sync succeeds. -/
theorem C59_sync_reports_failures_violated :
    ¬ ∀ (p : Profile) (os : SegmentOs) (info : SegmentInfo) (s : SegmentWriter) (ops : List SegOp),
      0 < os.data.maxBuf → 0 < os.index.maxBuf → SegmentWriter.new p os info = .ok s →
      (∀ x ∈ (runSeg p os ops s).1, x.Good) → (SegmentWriter.sync os (runSeg p os ops s).2).1 = .ok () →
      ∀ i, i < (SegmentWriter.sync os (runSeg p os ops s).2).2.dataWriter.file.numWrites → os.data.writes i = .done := by
  intro H
  have key : ∃ s, SegmentWriter.new .debug { data := .failsAt 9, index := .reliable } exampleInfo = .ok s ∧
      let os : SegmentOs := { data := .failsAt 9, index := .reliable }
      let run := runSeg .debug os [.column (exampleColumn "a") [.write exampleBuffer, .close]] s
      (∀ x ∈ run.1, x.Good) ∧ (SegmentWriter.sync os run.2).1 = .ok () ∧
      9 < (SegmentWriter.sync os run.2).2.dataWriter.file.numWrites := by
    refine exists_ok ?_
    decide +kernel
  obtain ⟨s, h1, h2, h3, h4⟩ := key
  have := H _ _ _ s _ (by decide) (by decide) h1 h2 h3 9 h4
  revert this
  decide

end Meerkat
