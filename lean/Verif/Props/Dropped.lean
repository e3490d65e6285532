import Verif.Spec.Dropped
import Verif.Props.AfterFailure

set_option autoImplicit false

/-! # Segments in which calls were dropped or failed (C80) -/

namespace Meerkat

open TokioFile

/-! ## Dropped calls -/

theorem writeAllCut_chunk {os : Os} (hb : 0 < os.maxBuf) {j : Nat} {src : Bytes} {f f' : TokioFile}
    (hc : ∀ c, f.inflight = some c → c ≠ []) (h : writeAllCut os j src f = some f') :
    ∀ c, f'.inflight = some c → c ≠ [] := by
  induction j generalizing src f with
  | zero =>
    simp only [writeAllCut] at h
    split at h
    · cases h; exact hc
    · cases h
  | succ j ih =>
    simp only [writeAllCut] at h
    split at h
    · cases h
    · rename_i hne
      rcases h1 : write os src f with ⟨x | n, f1⟩
      · rw [h1] at h; cases h
      · rw [h1] at h
        obtain ⟨_, _, hn, _, hi, _⟩ := write_ok h1
        simp only at h
        split at h
        · cases h
        · refine ih (fun c hc => ?_) h
          rw [hi] at hc
          cases hc
          rw [← List.length_pos_iff, List.length_take]
          have := List.length_pos_iff.2 hne
          omega

theorem Lag.cut {p : Profile} {os : Os} (hb : 0 < os.maxBuf) {c : Prop} {b : Bytes} {j : Nat} {w w' : Writer} {n : Nat}
    (hg : Lag p os c w n) (h : Writer.writeBlockCut p os b j w = some w') : Lag p os True w' (n + b.length) := by
  simp only [Writer.writeBlockCut] at h
  rcases hp : p.add 64 w.pos b.length with e | m
  · rw [hp] at h; cases h
  · rw [hp] at h
    simp only [Option.map_eq_some_iff] at h
    obtain ⟨f, hf, rfl⟩ := h
    obtain ⟨_, h2, _, h4, h5, _⟩ := writeAllCut_some hf
    have h1 := hg.pos
    have h8 := hg.le
    have hm : m = (n + b.length) % 2 ^ 64 ∧ (p = .debug → n + b.length < 2 ^ 64) := by
      simp only [Profile.add] at hp
      split at hp
      · cases hp
        refine ⟨by omega, fun hd => ?_⟩
        have := hg.fits hd
        omega
      · cases p
        · cases hp
        · cases hp
          exact ⟨by omega, fun hd => by cases hd⟩
    have hl : (f.content ++ f.pending).length < n + b.length := by
      rw [h5, List.length_append (bs := b.take _), List.length_take]
      omega
    exact ⟨h2, hm.1, hm.2, Nat.le_of_lt hl, by simp only [or_true, iff_true]; exact hl,
      writeAllCut_chunk hb hg.chunk hf⟩

theorem Lag.congr {p : Profile} {os : Os} {c c' : Prop} {w : Writer} {n : Nat} (h : Lag p os c w n) (hc : c ↔ c') :
    Lag p os c' w n := by rwa [propext hc] at h

theorem SegLags.congr {p : Profile} {os : SegmentOs} {cd ci cd' ci' : Prop} {s : SegmentWriter}
    (h : SegLags p os cd ci s) (hd : cd ↔ cd') (hi : ci ↔ ci') : SegLags p os cd' ci' s := by
  rwa [propext hd, propext hi] at h

/-- A dropped call of a column writer. -/
theorem SegLags.sinkCut {α : Type} {p : Profile} {os : SegmentOs} {cd ci : Prop} (hb : 0 < os.data.maxBuf) {j n : Nat}
    {m : Run (BinaryEncoder × ((Writer × BlockIndex) × Option Nat)) α} {mr : Run (BinaryEncoder × List (Nat × Bytes)) α}
    (hf : Follows (cutSink p os.data j) m mr) {e e' : BinaryEncoder} {s : SegmentWriter} {w : Writer} {b : BlockIndex}
    {r : Except Fault α} (h : m (e, ((s.dataWriter, s.blockIndex), some n)) = (r, (e', ((w, b), none))))
    (hs : SegLags p os cd ci s) : SegLags p os True ci { s with dataWriter := w, blockIndex := b } := by
  obtain ⟨bs, hbs⟩ := hf.fed e ((s.dataWriter, s.blockIndex), some n)
  rw [h] at hbs
  rcases hfd : feed (cutSink p os.data j) ((s.dataWriter, s.blockIndex), some n) bs with ⟨r', st⟩
  rw [hfd] at hbs
  obtain rfl : ((w, b), none) = st := hbs
  obtain ⟨x, w1, _, h3, h4⟩ := feed_cut hfd
  obtain ⟨⟨k, hk⟩, hi⟩ := hs
  exact ⟨⟨_, (hk.feed hb h3).cut hb h4⟩, hi⟩

theorem SegLags.cutColOp {p : Profile} {os : SegmentOs} {cd ci : Prop} (hb : 0 < os.data.maxBuf) (op : CutColOp)
    {x x' : ColumnWriter × SegmentWriter} (h : op.run p os x = some x') (hs : SegLags p os cd ci x.2) :
    SegLags p os (cd ∨ op.Dropped) ci x'.2 := by
  obtain ⟨c, s⟩ := x
  cases op with
  | call op =>
    cases h
    exact (hs.colOp hb op c).congr (by simp [CutColOp.Dropped]) .rfl
  | writeCut buf n j =>
    simp only [CutColOp.run, ColumnWriter.writeCut] at h
    split at h
    · rename_i heq
      cases h
      exact (hs.sinkCut hb (BinaryEncoder.encode_follows p (cutSink p os.data j) buf) heq).congr
        (by simp [CutColOp.Dropped]) .rfl
    · cases h
  | closeCut j =>
    simp only [CutColOp.run, ColumnWriter.closeCut] at h
    split at h
    · rename_i heq
      cases h
      exact (hs.sinkCut hb (BinaryEncoder.flush_follows p (cutSink p os.data j)) heq).congr
        (by simp [CutColOp.Dropped]) .rfl
    · cases h

theorem SegLags.cutColOps {p : Profile} {os : SegmentOs} {cd ci : Prop} (hb : 0 < os.data.maxBuf) (ops : List CutColOp)
    {x x' : ColumnWriter × SegmentWriter} (h : runCutColOps p os ops x = some x') (hs : SegLags p os cd ci x.2) :
    SegLags p os (cd ∨ ∃ op ∈ ops, op.Dropped) ci x'.2 := by
  induction ops generalizing x cd with
  | nil => cases h; exact hs.congr (by simp) .rfl
  | cons op ops ih =>
    simp only [runCutColOps, Option.bind_eq_some_iff] at h
    obtain ⟨x1, h1, h2⟩ := h
    exact (ih h2 (hs.cutColOp hb op h1)).congr (by simp [or_assoc]) .rfl

theorem Lags.flushCut {p : Profile} {os : Os} {c : Prop} {w w' : Writer} (h : Lags p os c w) (hc : Writer.flushCut w = some w') :
    Lags p os c w' := by
  simp only [Writer.flushCut] at hc
  split at hc
  · cases hc; exact h
  · cases hc

theorem SegLags.closeCut {p : Profile} {os : SegmentOs} {cd ci : Prop} (hb' : 0 < os.index.maxBuf) (order : HashOrder)
    (point : ClosePoint) {s s' : SegmentWriter} (h : SegmentWriter.closeCut p os order s point = some s')
    (hs : SegLags p os cd ci s) : SegLags p os cd (ci ∨ (CutSegOp.closeCut order point).DropsIndex) s' := by
  have hw : ∀ b s, SegLags p os cd ci s → SegLags p os cd ci (SegmentWriter.onIndex (Writer.writeBlock p os.index b) s).2 :=
    fun b s h => h.onIndex (Lags.writeBlock hb' _)
  cases point with
  | metadata j =>
    simp only [SegmentWriter.closeCut, Option.map_eq_some_iff] at h
    obtain ⟨w, h1, rfl⟩ := h
    obtain ⟨n, hn⟩ := hs.2
    exact ⟨hs.1, _, (hn.cut hb' h1).congr (by simp [CutSegOp.DropsIndex])⟩
  | footer j =>
    simp only [SegmentWriter.closeCut] at h
    split at h
    · rename_i s1 heq
      simp only [Option.map_eq_some_iff] at h
      obtain ⟨w, h1, rfl⟩ := h
      have h2 := hw (Prost.encodeMetadata (order.apply s.segmentMeta)) s hs
      rw [heq] at h2
      obtain ⟨n, hn⟩ := h2.2
      exact ⟨h2.1, _, (hn.cut hb' h1).congr (by simp [CutSegOp.DropsIndex])⟩
    · cases h
  | flushIndex =>
    simp only [SegmentWriter.closeCut] at h
    split at h
    · rename_i s2 heq
      simp only [Option.map_eq_some_iff] at h
      obtain ⟨w, h1, rfl⟩ := h
      have h2 := SegLags.bind (hw (Prost.encodeMetadata (order.apply s.segmentMeta)))
        (g := fun _ => SegmentWriter.onIndex (Writer.writeBlock p os.index (SegmentWriter.leBytes64 s.indexWriter.pos)))
        (hw _) hs
      rw [heq] at h2
      exact SegLags.congr ⟨h2.1, h2.2.flushCut h1⟩ .rfl (by simp [CutSegOp.DropsIndex])
    · cases h
  | flushData =>
    simp only [SegmentWriter.closeCut] at h
    split at h
    · rename_i s3 heq
      simp only [Option.map_eq_some_iff] at h
      obtain ⟨w, h1, rfl⟩ := h
      have h2 := SegLags.bind (hw (Prost.encodeMetadata (order.apply s.segmentMeta)))
        (g := fun _ => do
          SegmentWriter.onIndex (Writer.writeBlock p os.index (SegmentWriter.leBytes64 s.indexWriter.pos))
          SegmentWriter.onIndex (Writer.flush os.index))
        (fun s h => SegLags.bind (hw _) (fun s h => h.onIndex Lags.flush) h) hs
      rw [heq] at h2
      exact SegLags.congr ⟨h2.1.flushCut h1, h2.2⟩ .rfl (by simp [CutSegOp.DropsIndex])
    · cases h

theorem SegLags.cutSeg {p : Profile} {os : SegmentOs} {cd ci : Prop} (hb : 0 < os.data.maxBuf) (hb' : 0 < os.index.maxBuf)
    (ops : List CutSegOp) {s s' : SegmentWriter} (h : runCutSeg p os ops s = some s') (hs : SegLags p os cd ci s) :
    SegLags p os (cd ∨ ∃ op ∈ ops, op.DropsData) (ci ∨ ∃ op ∈ ops, op.DropsIndex) s' := by
  induction ops generalizing s cd ci with
  | nil => cases h; exact hs.congr (by simp) (by simp)
  | cons op ops ih =>
    simp only [runCutSeg, Option.bind_eq_some_iff] at h
    obtain ⟨s1, h1, h2⟩ := h
    have h3 : SegLags p os (cd ∨ op.DropsData) (ci ∨ op.DropsIndex) s1 := by
      cases op with
      | close order =>
        cases h1
        exact (hs.close hb' order).congr (by simp [CutSegOp.DropsData]) (by simp [CutSegOp.DropsIndex])
      | closeCut order point => exact (hs.closeCut hb' order point h1).congr (by simp [CutSegOp.DropsData]) .rfl
      | column info cops =>
        simp only [CutSegOp.run, SegmentWriter.newBinaryColumnWriter] at h1
        rcases he : newBinaryEncoder info.encoding BLOCK_SIZE info.nullable with f | e
        · simp only [he] at h1
          cases h1
          exact SegLags.congr (cd := cd) (ci := ci) hs (by simp [CutSegOp.DropsData, he]) (by simp [CutSegOp.DropsIndex])
        · simp only [he, Option.map_eq_some_iff] at h1
          obtain ⟨x, h1, rfl⟩ := h1
          have h4 : SegLags p os cd ci { s with blockIndex := s.blockIndex.clear } := hs
          exact (h4.cutColOps hb cops h1).congr (by simp [CutSegOp.DropsData, he]) (by simp [CutSegOp.DropsIndex])
    exact (ih h2 h3).congr (by simp [or_assoc]) (by simp [or_assoc])

/-! ## The theorems -/

/-- C80 for the index file, exactly. After any history of a segment, some calls of which were dropped and others may have
failed, a close() that succeeds leaves an index file that ends with the metadata and 8 bytes; but these are the number of
the bytes before the metadata plus those lost, so that they locate the metadata if and only if no write of the index file
has failed and no close() was dropped while it wrote. -/
theorem C80_footer_exact (p : Profile) (os : SegmentOs) (hb : 0 < os.data.maxBuf) (hb' : 0 < os.index.maxBuf)
    (info : SegmentInfo) (s s1 s2 : SegmentWriter) (hnew : SegmentWriter.new p os info = .ok s)
    (before : List CutSegOp) (hrun : runCutSeg p os before s = some s1)
    (order : HashOrder) (hclose : SegmentWriter.close p os order s1 = (.ok (), s2)) :
    let fine := (∀ i, i < s2.indexWriter.file.numWrites → os.index.writes i = .done) ∧ ∀ op ∈ before, ¬ op.DropsIndex
    ∃ body tail lost, s2.indexWriter.file.content =
        body ++ Prost.encodeMetadata (order.apply s2.segmentMeta) ++ tail ∧ s2.indexWriter.file.pending = [] ∧
      body = s1.indexWriter.file.content ++ s1.indexWriter.file.pending ∧
      tail.length = 8 ∧ leNumber tail = (body.length + lost) % 2 ^ 64 ∧ (lost = 0 ↔ fine) ∧
      (p = .debug → body.length + lost < 2 ^ 64) ∧
      (body.length + lost < 2 ^ 64 → (leNumber tail = body.length ↔ fine)) := by
  intro fine
  obtain ⟨_, ⟨n, hn⟩⟩ := (SegLags.new hb hb' hnew).cutSeg hb hb' before hrun
  obtain ⟨body, tail, lost, h1, h2, h3, h4, h5, h6, h7, h8⟩ := footer_of_lag hb' hn order hclose
  exact ⟨body, tail, lost, h1, h2, h3, h4, h5, by simpa [fine] using h6, h7, by simpa [fine] using h8⟩

/-- C80 for block indexes, exactly. After any history of a segment, some calls of which were dropped and others may have
failed, a column all of whose calls succeed has its blocks at the end of the file, with nothing missing; but each offset of
its index is too large by the number of bytes lost before, so that it brackets the blocks if and only if no write of the data
file has failed and no call of a column was dropped. -/
theorem C80_index_exact (p : Profile) (os : SegmentOs) (hb : 0 < os.data.maxBuf) (hb' : 0 < os.index.maxBuf)
    (info : SegmentInfo) (s s1 s2 : SegmentWriter) (hnew : SegmentWriter.new p os info = .ok s)
    (before : List CutSegOp) (hrun0 : runCutSeg p os before s = some s1)
    (ci : ColumnInfo) (cops : List ColOp) (rs1 : List SegResult) (hrun1 : runSeg p os [.column ci cops] s1 = (rs1, s2))
    (hgood : ∀ x ∈ rs1, x.Good) :
    let start := (s1.dataWriter.file.content ++ s1.dataWriter.file.pending).length
    let file := s2.dataWriter.file.content ++ s2.dataWriter.file.pending
    let bs := blocksAlone p ci cops
    ∃ lost, (lost = 0 ↔ (∀ i, i < s1.dataWriter.file.numWrites → os.data.writes i = .done) ∧
        ∀ op ∈ before, ¬ op.DropsData) ∧
      (p = .debug → file.length + lost < 2 ^ 64) ∧
      file = s1.dataWriter.file.content ++ s1.dataWriter.file.pending ++ concatBlocks bs ∧
      Brackets file start ((bs.map Prod.fst).zip (blockEnds start bs)) bs ∧
      (file.length + lost < 2 ^ 64 →
        s2.blockIndex.entries = (bs.map Prod.fst).zip ((blockEnds start bs).map (· + lost)) ∧
        (bs ≠ [] → ((∃ start, Brackets file start s2.blockIndex.entries bs) ↔ lost = 0))) := by
  intro start file bs
  obtain ⟨⟨n, hn⟩, _⟩ := (SegLags.new hb hb' hnew).cutSeg hb hb' before hrun0
  obtain ⟨lost, h1, h2⟩ := index_of_lag hb hn ci cops hrun1 hgood
  exact ⟨lost, by simpa using h1, h2⟩

/-- C80, what holds: if all writes succeed, and the calls that were dropped were flushing a file and not writing to it, then a
close() that succeeds leaves a footer that locates the metadata. -/
theorem C80_footer_partial (p : Profile) (os : SegmentOs) (hb : 0 < os.data.maxBuf) (hb' : 0 < os.index.maxBuf)
    (hd : ∀ i, os.index.writes i = .done) (info : SegmentInfo) (s s1 s2 : SegmentWriter)
    (hnew : SegmentWriter.new p os info = .ok s) (before : List CutSegOp) (hrun : runCutSeg p os before s = some s1)
    (hno : ∀ op ∈ before, ¬ op.DropsIndex) (order : HashOrder)
    (hclose : SegmentWriter.close p os order s1 = (.ok (), s2)) (hlen : s2.indexWriter.file.content.length < 2 ^ 64) :
    ∃ body tail, s2.indexWriter.file.content = body ++ Prost.encodeMetadata (order.apply s2.segmentMeta) ++ tail ∧
      tail.length = 8 ∧ leNumber tail = body.length := by
  obtain ⟨body, tail, lost, h1, _, _, h4, h5, h6, _, _⟩ :=
    C80_footer_exact p os hb hb' info s s1 s2 hnew before hrun order hclose
  have h0 : lost = 0 := h6.2 ⟨fun i _ => hd i, hno⟩
  refine ⟨body, tail, h1, h4, ?_⟩
  rw [h1] at hlen
  simp only [List.length_append] at hlen
  rw [h5, h0, Nat.add_zero, Nat.mod_eq_of_lt (by omega)]

/-! ## The counterexamples -/

/-- The footer of the index file, and where the metadata is, after a close(), dropped at some point, was called again. -/
def closedAgain (point : ClosePoint) : Option (Except Fault Unit × Nat × Nat) :=
  match SegmentWriter.new .debug .reliable exampleInfo with
  | .error _ => none
  | .ok s =>
    match runCutSeg .debug .reliable [.closeCut .insertion point] s with
    | none => none
    | some s =>
      let (r, s) := SegmentWriter.close .debug .reliable .insertion s
      let file := s.indexWriter.file.content
      some (r, leNumber (file.drop (file.length - 8)),
        file.length - 8 - (Prost.encodeMetadata (HashOrder.insertion.apply s.segmentMeta)).length)

/-- Dropping a flush does no harm, dropping a write does. -/
example : closedAgain (.metadata 0) = some (.ok (), 43, 12) ∧ closedAgain (.metadata 2) = some (.ok (), 43, 16) ∧
    closedAgain (.footer 1) = some (.ok (), 51, 45) ∧ closedAgain .flushIndex = some (.ok (), 51, 51) ∧
    closedAgain .flushData = some (.ok (), 51, 51) := by decide +kernel

/-- **C80 is violated**, though all writes succeed: a close() is dropped while it writes the metadata, and called again with
success; the footer is not the place of the metadata. -/
theorem C80_footer_violated :
    ¬ ∀ (p : Profile) (os : SegmentOs) (info : SegmentInfo) (s s1 s2 : SegmentWriter) (before : List CutSegOp)
      (order : HashOrder), (∀ i, os.data.writes i = .done) → (∀ i, os.index.writes i = .done) →
      0 < os.data.maxBuf → 0 < os.index.maxBuf → SegmentWriter.new p os info = .ok s →
      runCutSeg p os before s = some s1 → SegmentWriter.close p os order s1 = (.ok (), s2) →
      ∃ body tail, s2.indexWriter.file.content = body ++ Prost.encodeMetadata (order.apply s2.segmentMeta) ++ tail ∧
        tail.length = 8 ∧ leNumber tail = body.length := by
  intro H
  have key : closedAgain (.metadata 0) = some (.ok (), 43, 12) := by decide +kernel
  simp only [closedAgain] at key
  rcases h1 : SegmentWriter.new .debug .reliable exampleInfo with f | s
  · rw [h1] at key; cases key
  simp only [h1] at key
  rcases h2 : runCutSeg .debug .reliable [.closeCut .insertion (.metadata 0)] s with _ | s1
  · simp only [h2] at key; cases key
  simp only [h2] at key
  rcases h3 : SegmentWriter.close .debug .reliable .insertion s1 with ⟨r, s2⟩
  simp only [h3, Option.some.injEq, Prod.mk.injEq] at key
  obtain ⟨rfl, h4, h5⟩ := key
  obtain ⟨body, tail, g1, g2, g3⟩ := H .debug .reliable exampleInfo s s1 s2 _ _ (fun _ => rfl) (fun _ => rfl) (by decide)
    (by decide) h1 h2 h3
  rw [g1] at h4 h5
  simp only [List.length_append, g2] at h4 h5
  rw [List.drop_left' (by simp only [List.length_append]; omega), g3] at h4
  omega

/-- **C80 is violated** for block indexes too: the close() of a column is dropped while it writes the block that was held back;
the column written next with success has an index entry past the end of the file. -/
theorem C80_index_violated :
    ¬ ∀ (p : Profile) (os : SegmentOs) (info : SegmentInfo) (s s1 : SegmentWriter) (before : List CutSegOp)
      (ci : ColumnInfo) (cops : List ColOp), (∀ i, os.data.writes i = .done) → (∀ i, os.index.writes i = .done) →
      0 < os.data.maxBuf → 0 < os.index.maxBuf → SegmentWriter.new p os info = .ok s →
      runCutSeg p os before s = some s1 →
      let run := runSeg p os [.column ci cops] s1
      (∀ x ∈ run.1, x.Good) →
      ∃ start, Brackets (run.2.dataWriter.file.content ++ run.2.dataWriter.file.pending) start
        run.2.blockIndex.entries (blocksAlone p ci cops) := by
  intro H
  let before : List CutSegOp := [.column (exampleColumn "a") [.call (.write exampleBuffer), .closeCut 1]]
  have key : (match SegmentWriter.new .debug .reliable exampleInfo with
      | .error _ => false
      | .ok s =>
        match runCutSeg .debug .reliable before s with
        | none => false
        | some s1 =>
          let run := runSeg .debug .reliable [.column (exampleColumn "b") [.write exampleBuffer, .close]] s1
          decide ((∀ x ∈ run.1, x.Good) ∧ ∃ e ∈ run.2.blockIndex.entries,
            (run.2.dataWriter.file.content ++ run.2.dataWriter.file.pending).length < e.2)) = true := by decide +kernel
  rcases h1 : SegmentWriter.new .debug .reliable exampleInfo with f | s
  · rw [h1] at key; cases key
  simp only [h1] at key
  rcases h2 : runCutSeg .debug .reliable before s with _ | s1
  · simp only [h2] at key; cases key
  simp only [h2] at key
  obtain ⟨h3, e, h4, h5⟩ := of_decide_eq_true key
  obtain ⟨start, h6⟩ := H .debug .reliable exampleInfo s s1 before _ _ (fun _ => rfl) (fun _ => rfl) (by decide) (by decide) h1 h2 h3
  have := h6.within _ h4
  omega

end Meerkat
