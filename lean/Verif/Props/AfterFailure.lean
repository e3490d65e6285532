import Verif.Proofs.Lag
import Verif.Props.Cancel
import Verif.Props.SegmentFailures

set_option autoImplicit false

/-! # The writers after a failed call (C76) -/

namespace Meerkat

open TokioFile

theorem failedBetween_pos {os : Os} {n : Nat} : ¬ 0 < failedBetween os 0 n ↔ ∀ i, i < n → os.writes i = .done := by
  rw [Nat.not_lt, Nat.le_zero, failedBetween, List.length_eq_zero_iff, List.filter_eq_nil_iff]
  simp

theorem Lag.skewed {p : Profile} {os : Os} {c : Prop} {w : Writer} {n : Nat} (h : Lag p os c w n) :
    Skewed w (w.file.content ++ w.file.pending) (n - (w.file.content ++ w.file.pending).length) :=
  ⟨h.err, rfl, by rw [h.pos]; have := h.le; congr 1; omega⟩

theorem Lag.lost_iff {p : Profile} {os : Os} {c : Prop} {w : Writer} {n : Nat} (h : Lag p os c w n) :
    n - (w.file.content ++ w.file.pending).length = 0 ↔ (∀ i, i < w.file.numWrites → os.writes i = .done) ∧ ¬ c := by
  rw [← failedBetween_pos, ← not_or, ← h.iff]
  have := h.le
  omega

theorem Lag.lost {p : Profile} {os : Os} {w : Writer} {n : Nat} (h : Lag p os False w n) :
    n - (w.file.content ++ w.file.pending).length = 0 ↔ ∀ i, i < w.file.numWrites → os.writes i = .done := by
  simpa using h.lost_iff

theorem Lag.feed {p : Profile} {os : Os} {c : Prop} (hb : 0 < os.maxBuf) {bs : List (Nat × Bytes)} {w w' : Writer}
    {bi bi' : BlockIndex} {n : Nat} (hg : Lag p os c w n)
    (h : Meerkat.feed (blockSink p os) (w, bi) bs = (.ok (), (w', bi'))) :
    Lag p os c w' (n + (concatBlocks bs).length) := by
  induction bs generalizing w bi n with
  | nil => cases h; simpa [concatBlocks] using hg
  | cons b bs ih =>
    simp only [Meerkat.feed, blockSink] at h
    rcases h1 : Writer.writeBlock p os b.2 w with ⟨x | x, w1⟩
    · simp only [h1] at h; cases (Prod.mk.inj h).1
    · obtain ⟨n', h2, h3⟩ := hg.write hb h1
      obtain rfl := h3 (.inl rfl)
      simp only [h1] at h
      simpa [concatBlocks, Nat.add_assoc] using ih h2 h

theorem blockEnds_append (n : Nat) (a b : List (Nat × Bytes)) :
    blockEnds n (a ++ b) = blockEnds n a ++ blockEnds (n + (concatBlocks a).length) b := by
  induction a generalizing n with
  | nil => simp [blockEnds, concatBlocks]
  | cons x a ih => simp [blockEnds, ih, concatBlocks, Nat.add_assoc]

/-- A column all of whose calls succeed, in a segment that may have lost bytes. -/
theorem colOps_lag {p : Profile} {os : SegmentOs} {cut : Prop} (hb : 0 < os.data.maxBuf) (ops : List ColOp) {c : ColumnWriter}
    {s : SegmentWriter} (hok : ∀ x ∈ (runColOps p os ops (c, s)).1, x.2 = .ok ()) {data : Bytes} {k n : Nat}
    (hg : Skewed s.dataWriter data k) (hn : Lag p os.data cut s.dataWriter n) :
    ∃ bs e', (∀ l, aloneOps p ops (c.encoder, l) = (.ok (), (e', l ++ bs))) ∧
      Skewed (runColOps p os ops (c, s)).2.2.dataWriter (data ++ concatBlocks bs) k ∧
      Lag p os.data cut (runColOps p os ops (c, s)).2.2.dataWriter (n + (concatBlocks bs).length) ∧
      (runColOps p os ops (c, s)).2.2.blockIndex.blockRowId = s.blockIndex.blockRowId ++ bs.map Prod.fst ∧
      (runColOps p os ops (c, s)).2.2.blockIndex.blockOffset =
        s.blockIndex.blockOffset ++ (blockEnds (data.length + k) bs).map (· % 2 ^ 64) := by
  induction ops generalizing c s data n with
  | nil => exact ⟨[], c.encoder, fun l => by simp [aloneOps, Run.pure_apply],
      by simpa [runColOps, concatBlocks] using hg, by simpa [runColOps, concatBlocks] using hn, by simp [runColOps],
      by simp [runColOps, blockEnds]⟩
  | cons op ops ih =>
    rcases h1 : op.run p os (c, s) with ⟨r, c1, s1⟩
    simp only [runColOps, h1] at hok ⊢
    obtain rfl : r = .ok () := hok (op, r) (by simp)
    have hrest : ∀ x ∈ (runColOps p os ops (c1, s1)).1, x.2 = .ok () := fun x hx => hok x (by simp [hx])
    -- one call
    obtain ⟨bs1, h2, h3⟩ : ∃ bs, (∀ l, op.alone p (c.encoder, l) = (.ok (), (c1.encoder, l ++ bs))) ∧
        feed (blockSink p os.data) (s.dataWriter, s.blockIndex) bs = (.ok (), (s1.dataWriter, s1.blockIndex)) := by
      cases op with
      | write b =>
        obtain ⟨h2, _⟩ := onSink_eq (show ColumnWriter.onSink _ (c, s) = _ from h1)
        exact (BinaryEncoder.encode_follows p (blockSink p os.data) b).ok h2
      | close =>
        obtain ⟨layout, h2, _⟩ := close_ok h1
        obtain ⟨bs, h4, h5⟩ := (BinaryEncoder.flush_follows p (blockSink p os.data)).ok h2
        exact ⟨bs, fun l => by simp only [ColOp.alone, Run.bind_apply, h4, Run.pure_apply], h5⟩
    obtain ⟨hg1, hr1, ho1⟩ := hg.feed h3
    obtain ⟨bs2, e2, h5, h6, h7, h8, h9⟩ := ih hrest hg1 (hn.feed hb h3)
    refine ⟨bs1 ++ bs2, e2, fun l => ?_, ?_, ?_, ?_, ?_⟩
    · simp only [aloneOps, Run.bind_apply, h2, h5, List.append_assoc]
    · simpa [concatBlocks] using h6
    · simpa [concatBlocks, Nat.add_assoc] using h7
    · rw [h8, hr1]; simp
    · rw [h9, ho1, blockEnds_append, List.map_append, List.append_assoc, List.length_append, Nat.add_right_comm]

/-- C76 for the block writer, exactly. After any calls of `write_block` and `flush`, whatever they returned, the position is
the number of bytes of all the blocks given, those refused among them; it is the length of the file, with the write that is
pending, if and only if no write of the file has failed, and larger otherwise. -/
theorem C76_position_exact (p : Profile) (os : Os) (hb : 0 < os.maxBuf) (w : Writer) (hw : Writer.new os = .ok w)
    (ops : List WriterOp) (hops : WriterOp.sync ∉ ops) (hlen : (bytesGiven ops).length < 2 ^ 64) :
    let w' := (runOps p os ops w).2
    w'.pos = (bytesGiven ops).length ∧ (w'.file.content ++ w'.file.pending).length ≤ w'.pos ∧
    (w'.pos = (w'.file.content ++ w'.file.pending).length ↔
      ∀ i, i < w'.file.numWrites → os.writes i = .done) := by
  have key : ∀ (ops : List WriterOp) (w : Writer) (n : Nat), WriterOp.sync ∉ ops → Lag p os False w n →
      n + (bytesGiven ops).length < 2 ^ 64 → Lag p os False (runOps p os ops w).2 (n + (bytesGiven ops).length) := by
    intro ops
    induction ops with
    | nil => intro w n _ h _; simpa [runOps, bytesGiven] using h
    | cons op ops ih =>
      intro w n hs h hl
      simp only [List.mem_cons, not_or] at hs
      cases op with
      | sync => exact absurd rfl hs.1
      | write b =>
        simp only [bytesGiven, List.length_append] at hl
        obtain ⟨n', h1, h2⟩ := h.write hb (r := ((WriterOp.write b).run p os w).1) (w' := ((WriterOp.write b).run p os w).2) rfl
        obtain rfl := h2 (.inr (by omega))
        have := ih _ _ hs.2 h1 (by omega)
        simp only [runOps, bytesGiven, List.length_append, ← Nat.add_assoc]
        exact this
      | flush =>
        simp only [bytesGiven] at hl
        have h1 := h.flush (r := (WriterOp.flush.run p os w).1) (w' := (WriterOp.flush.run p os w).2) rfl
        simp only [runOps, bytesGiven]
        exact ih _ _ hs.2 h1 hl
  intro w'
  have h : Lag p os False w' (bytesGiven ops).length := by
    have := key ops w 0 hops (.new hw) (by omega)
    rw [Nat.zero_add] at this
    exact this
  have hp : w'.pos = (bytesGiven ops).length := by rw [h.pos, Nat.mod_eq_of_lt hlen]
  have hle := h.le
  refine ⟨hp, by rw [hp]; exact hle, ?_⟩
  rw [hp, ← h.lost]
  omega

/-- A column all of whose calls succeed, after bytes were lost. -/
theorem index_of_lag {p : Profile} {os : SegmentOs} (hb : 0 < os.data.maxBuf) {s1 s2 : SegmentWriter} {cut : Prop} {n : Nat}
    (hn : Lag p os.data cut s1.dataWriter n) {rs1 : List SegResult}
    (ci : ColumnInfo) (cops : List ColOp) (hrun1 : runSeg p os [.column ci cops] s1 = (rs1, s2))
    (hgood : ∀ x ∈ rs1, x.Good) :
    let start := (s1.dataWriter.file.content ++ s1.dataWriter.file.pending).length
    let file := s2.dataWriter.file.content ++ s2.dataWriter.file.pending
    let bs := blocksAlone p ci cops
    ∃ lost, (lost = 0 ↔ (∀ i, i < s1.dataWriter.file.numWrites → os.data.writes i = .done) ∧ ¬ cut) ∧
      (p = .debug → file.length + lost < 2 ^ 64) ∧
      file = s1.dataWriter.file.content ++ s1.dataWriter.file.pending ++ concatBlocks bs ∧
      Brackets file start ((bs.map Prod.fst).zip (blockEnds start bs)) bs ∧
      (file.length + lost < 2 ^ 64 →
        s2.blockIndex.entries = (bs.map Prod.fst).zip ((blockEnds start bs).map (· + lost)) ∧
        (bs ≠ [] → ((∃ start, Brackets file start s2.blockIndex.entries bs) ↔ lost = 0))) := by
  intro start file bs
  have hsk : Skewed s1.dataWriter (s1.dataWriter.file.content ++ s1.dataWriter.file.pending) (n - start) := hn.skewed
  refine ⟨n - start, hn.lost_iff, ?_⟩
  -- the column
  obtain ⟨d1, d2, d3, d4⟩ : Skewed s2.dataWriter
        (s1.dataWriter.file.content ++ s1.dataWriter.file.pending ++ concatBlocks bs) (n - start) ∧
      Lag p os.data cut s2.dataWriter (n + (concatBlocks bs).length) ∧
      s2.blockIndex.blockRowId = bs.map Prod.fst ∧
      s2.blockIndex.blockOffset = (blockEnds (start + (n - start)) bs).map (· % 2 ^ 64) := by
    simp only [runSeg, SegOp.run, SegmentWriter.newBinaryColumnWriter] at hrun1
    rcases he : newBinaryEncoder ci.encoding BLOCK_SIZE ci.nullable with f | e
    · simp only [he] at hrun1
      cases hrun1
      have hb0 : bs = [] := by simp only [bs, blocksAlone, he]
      rw [hb0]
      refine ⟨?_, ?_, rfl, rfl⟩
      · simp only [concatBlocks, List.map_nil, List.flatten_nil, List.append_nil]; exact hsk
      · simp only [concatBlocks, List.map_nil, List.flatten_nil, List.length_nil, Nat.add_zero]; exact hn
    · simp only [he] at hrun1
      rcases h3 : runColOps p os cops ({ columnInfo := ci, encoder := e },
        { s1 with blockIndex := s1.blockIndex.clear }) with ⟨rs, c2, s3⟩
      simp only [h3] at hrun1
      cases hrun1
      have hr := hgood (.column ci rs) (by simp)
      obtain ⟨bs', e', h4, h5, h6, h7, h8⟩ := colOps_lag (p := p) (os := os) hb cops
        (c := { columnInfo := ci, encoder := e }) (s := { s1 with blockIndex := s1.blockIndex.clear })
        (by rw [h3]; exact hr) hsk hn
      rw [h3] at h5 h6 h7 h8
      have hbs : bs = bs' := by simp only [bs, blocksAlone, he, h4, List.nil_append]
      rw [hbs]
      simp only [BlockIndex.clear, List.nil_append] at h7 h8
      exact ⟨h5, h6, h7, h8⟩
  have hfile : file = s1.dataWriter.file.content ++ s1.dataWriter.file.pending ++ concatBlocks bs := d1.content
  have hfl : file.length = start + (concatBlocks bs).length := by rw [hfile, List.length_append]
  have hle : start ≤ n := hn.le
  have hbr : Brackets file start ((bs.map Prod.fst).zip (blockEnds start bs)) bs := by
    have := blockEnds_brackets (s1.dataWriter.file.content ++ s1.dataWriter.file.pending) [] bs
    rw [List.append_nil, ← hfile] at this
    exact this
  refine ⟨fun hd => ?_, hfile, hbr, fun hlt => ?_⟩
  · have := d2.fits hd
    omega
  · have he : s2.blockIndex.entries = (bs.map Prod.fst).zip ((blockEnds start bs).map (· + (n - start))) := by
      rw [blockEnds_mod (by omega)] at d4
      rw [BlockIndex.entries, d3, d4, blockEnds_add]
    refine ⟨he, fun hne => ⟨fun ⟨st, hst⟩ => ?_, fun h0 => ⟨start, ?_⟩⟩⟩
    · obtain ⟨r, hr⟩ := blockEnds_last (start + (n - start)) bs hne
      rw [blockEnds_add, ← he] at hr
      have := hst.within _ hr
      dsimp only at this
      omega
    · rw [he, h0]
      simpa using hbr

/-- C76 for block indexes, exactly. After any history of a segment, whatever its calls returned, a column all of whose
calls succeed has its blocks at the end of the file, with nothing missing; but each offset of its index is too large by the
number of bytes lost before, so that it brackets the blocks if and only if no write of the data file has failed. -/
theorem C76_index_exact (p : Profile) (os : SegmentOs) (hb : 0 < os.data.maxBuf) (hb' : 0 < os.index.maxBuf)
    (info : SegmentInfo) (s s1 s2 : SegmentWriter) (hnew : SegmentWriter.new p os info = .ok s)
    (before : List SegOp) (rs0 rs1 : List SegResult) (hrun0 : runSeg p os before s = (rs0, s1))
    (ci : ColumnInfo) (cops : List ColOp) (hrun1 : runSeg p os [.column ci cops] s1 = (rs1, s2))
    (hgood : ∀ x ∈ rs1, x.Good) :
    let start := (s1.dataWriter.file.content ++ s1.dataWriter.file.pending).length
    let file := s2.dataWriter.file.content ++ s2.dataWriter.file.pending
    let bs := blocksAlone p ci cops
    ∃ lost, (lost = 0 ↔ ∀ i, i < s1.dataWriter.file.numWrites → os.data.writes i = .done) ∧
      (p = .debug → file.length + lost < 2 ^ 64) ∧
      file = s1.dataWriter.file.content ++ s1.dataWriter.file.pending ++ concatBlocks bs ∧
      Brackets file start ((bs.map Prod.fst).zip (blockEnds start bs)) bs ∧
      (file.length + lost < 2 ^ 64 →
        s2.blockIndex.entries = (bs.map Prod.fst).zip ((blockEnds start bs).map (· + lost)) ∧
        (bs ≠ [] → ((∃ start, Brackets file start s2.blockIndex.entries bs) ↔ lost = 0))) := by
  intro start file bs
  obtain ⟨⟨n, hn⟩, _⟩ := SegLags.run hb hb' before (SegLags.new hb hb' hnew)
  rw [hrun0] at hn
  obtain ⟨lost, h1, h2⟩ := index_of_lag hb hn ci cops hrun1 hgood
  exact ⟨lost, by simpa using h1, h2⟩

theorem write_failures {p : Profile} {os : Os} (hb : 0 < os.maxBuf) {b : Bytes} {w w' : Writer}
    (h : Writer.writeBlock p os b w = (.ok (), w')) (hl : w.file.lastErr = false) :
    failedBetween os 0 w'.file.numWrites = failedBetween os 0 w.file.numWrites := by
  simp only [Writer.writeBlock] at h
  rcases hp : p.add 64 w.pos b.length with e | m
  · rw [hp] at h; cases h
  · rw [hp] at h
    simp only [Writer.onFile] at h
    rcases h2 : writeAll os b w.file with ⟨r, f⟩
    simp only [h2, Prod.mk.injEq] at h
    obtain ⟨rfl, rfl⟩ := h
    exact errs_ok (Accounts.writeAll os hb b) h2 hl ((writeAll_ok h2).1 hl)

theorem flush_failures {os : Os} {w w' : Writer} (h : Writer.flush os w = (.ok (), w')) (hl : w.file.lastErr = false) :
    failedBetween os 0 w'.file.numWrites = failedBetween os 0 w.file.numWrites := by
  simp only [Writer.flush, Writer.onFile] at h
  rcases h2 : TokioFile.flush os w.file with ⟨r, f⟩
  simp only [h2, Prod.mk.injEq] at h
  obtain ⟨rfl, rfl⟩ := h
  exact errs_ok (Accounts.flush os) h2 hl (flush_ok h2).2.2.2.1

/-- A close() that succeeds, after bytes were lost. -/
theorem footer_of_lag {p : Profile} {os : SegmentOs} (hb' : 0 < os.index.maxBuf) {s1 s2 : SegmentWriter} {cut : Prop} {n : Nat}
    (hn : Lag p os.index cut s1.indexWriter n) (order : HashOrder) (hclose : SegmentWriter.close p os order s1 = (.ok (), s2)) :
    ∃ body tail lost, s2.indexWriter.file.content =
        body ++ Prost.encodeMetadata (order.apply s2.segmentMeta) ++ tail ∧ s2.indexWriter.file.pending = [] ∧
      body = s1.indexWriter.file.content ++ s1.indexWriter.file.pending ∧
      tail.length = 8 ∧ leNumber tail = (body.length + lost) % 2 ^ 64 ∧
      (lost = 0 ↔ (∀ i, i < s2.indexWriter.file.numWrites → os.index.writes i = .done) ∧ ¬ cut) ∧
      (p = .debug → body.length + lost < 2 ^ 64) ∧
      (body.length + lost < 2 ^ 64 →
        (leNumber tail = body.length ↔ (∀ i, i < s2.indexWriter.file.numWrites → os.index.writes i = .done) ∧ ¬ cut)) := by
  simp only [SegmentWriter.close] at hclose
  obtain ⟨_, s3, h1, h⟩ := bind_inv hclose
  obtain ⟨_, s4, h2, h⟩ := bind_inv h
  obtain ⟨_, s5, h3, h4⟩ := bind_inv h
  obtain ⟨a1, b1⟩ := onIndex_ok h1
  obtain ⟨a2, b2⟩ := onIndex_ok h2
  obtain ⟨a3, b3⟩ := onIndex_ok h3
  obtain ⟨_, b4⟩ := onData_ok h4
  have hix : s2.indexWriter = s5.indexWriter := by rw [b4]
  have hm : s2.segmentMeta = s1.segmentMeta := by rw [b4, b3, b2, b1]
  have k3 := ((hn.skewed.write a1).write a2).flush a3
  have hfl : s5.indexWriter.file.inflight = none := by
    simp only [Writer.flush, Writer.onFile] at a3
    rcases h5 : TokioFile.flush os.index s4.indexWriter.file with ⟨r, f⟩
    simp only [h5, Prod.mk.injEq] at a3
    obtain ⟨rfl, a3⟩ := a3
    rw [← a3]
    exact (flush_ok h5).2.2.1
  have hpend : s5.indexWriter.file.pending = [] := by simp [pending, hfl]
  have hcont := k3.content
  rw [hpend, List.append_nil] at hcont
  have hle := hn.le
  have hnum : (∀ i, i < s5.indexWriter.file.numWrites → os.index.writes i = .done) ↔
      ∀ i, i < s1.indexWriter.file.numWrites → os.index.writes i = .done := by
    obtain ⟨n1, l1, _⟩ := hn.write hb' a1
    obtain ⟨n2, l2, _⟩ := l1.write hb' a2
    rw [← failedBetween_pos, ← failedBetween_pos, flush_failures a3 l2.err, write_failures hb' a2 l1.err,
      write_failures hb' a1 hn.err]
  have hlt : s1.indexWriter.pos < 2 ^ 64 := by rw [hn.pos]; exact Nat.mod_lt _ (by decide)
  have hlost : n - (s1.indexWriter.file.content ++ s1.indexWriter.file.pending).length = 0 ↔
      (∀ i, i < s2.indexWriter.file.numWrites → os.index.writes i = .done) ∧ ¬ cut := by
    rw [hix, hnum]; exact hn.lost_iff
  have hadd : (s1.indexWriter.file.content ++ s1.indexWriter.file.pending).length +
      (n - (s1.indexWriter.file.content ++ s1.indexWriter.file.pending).length) = n := Nat.add_sub_of_le hle
  have hnr : leNumber (SegmentWriter.leBytes64 s1.indexWriter.pos) = n % 2 ^ 64 := by
    rw [leNumber_leBytes64 hlt, hn.pos]
  refine ⟨s1.indexWriter.file.content ++ s1.indexWriter.file.pending, SegmentWriter.leBytes64 s1.indexWriter.pos,
    n - (s1.indexWriter.file.content ++ s1.indexWriter.file.pending).length, ?_, by rw [hix]; exact hpend,
    rfl, by simp [SegmentWriter.leBytes64], ?_, hlost, ?_, ?_⟩
  · rw [hix, hm]; exact hcont
  · rw [hadd]; exact hnr
  · rw [hadd]; exact hn.fits
  · rw [hadd, ← hlost, hnr]
    intro h
    rw [Nat.mod_eq_of_lt h]
    omega

/-- C76 for the index file, exactly. After any history of a segment, whatever its calls returned, a close() that succeeds
leaves an index file that ends with the metadata and 8 bytes; but these are the number of the bytes before the metadata plus
those lost before, so that they locate the metadata if and only if no write of the index file has failed. What became
of the data file does not matter. -/
theorem C76_footer_exact (p : Profile) (os : SegmentOs) (hb : 0 < os.data.maxBuf) (hb' : 0 < os.index.maxBuf)
    (info : SegmentInfo) (s s1 s2 : SegmentWriter) (hnew : SegmentWriter.new p os info = .ok s)
    (before : List SegOp) (rs0 : List SegResult) (hrun0 : runSeg p os before s = (rs0, s1))
    (order : HashOrder) (hclose : SegmentWriter.close p os order s1 = (.ok (), s2)) :
    ∃ body tail lost, s2.indexWriter.file.content =
        body ++ Prost.encodeMetadata (order.apply s2.segmentMeta) ++ tail ∧ s2.indexWriter.file.pending = [] ∧
      body = s1.indexWriter.file.content ++ s1.indexWriter.file.pending ∧
      tail.length = 8 ∧ leNumber tail = (body.length + lost) % 2 ^ 64 ∧
      (lost = 0 ↔ ∀ i, i < s2.indexWriter.file.numWrites → os.index.writes i = .done) ∧
      (p = .debug → body.length + lost < 2 ^ 64) ∧
      (body.length + lost < 2 ^ 64 →
        (leNumber tail = body.length ↔ ∀ i, i < s2.indexWriter.file.numWrites → os.index.writes i = .done)) := by
  obtain ⟨_, ⟨n, hn⟩⟩ := SegLags.run hb hb' before (SegLags.new hb hb' hnew)
  rw [hrun0] at hn
  obtain ⟨body, tail, lost, h1, h2, h3, h4, h5, h6, h7, h8⟩ := footer_of_lag hb' hn order hclose
  exact ⟨body, tail, lost, h1, h2, h3, h4, h5, by simpa using h6, h7, by simpa using h8⟩

/-! ## The counterexamples -/

/-- Half of the first block is lost and the second is refused: the position stays two bytes past the end of the file. -/
example : ∃ w, Writer.new (.failsAt 0) = .ok w ∧
    let run := runOps .release (.failsAt 0) [.write [1, 2], .write [3], .write [4, 5, 6], .flush] w
    run.1.map (fun x => decide (x.2 = .ok ())) = [true, false, true, true] ∧
    run.2.file.content = [1, 4, 5, 6] ∧ run.2.pos = 6 := by
  refine exists_ok ?_
  decide +kernel

/-- C76 is false of the code, for the index file: here a write of the index file fails, the first close() reports it and the
second succeeds, with a footer that is not the place of the metadata. -/
theorem C76_footer_violated :
    ¬ ∀ (p : Profile) (os : SegmentOs) (info : SegmentInfo) (s : SegmentWriter) (before : List SegOp)
      (order : HashOrder), 0 < os.data.maxBuf → 0 < os.index.maxBuf → SegmentWriter.new p os info = .ok s →
      (SegmentWriter.close p os order (runSeg p os before s).2).1 = .ok () →
      let s' := (SegmentWriter.close p os order (runSeg p os before s).2).2
      ∃ body tail, s'.indexWriter.file.content =
          body ++ Prost.encodeMetadata (order.apply s'.segmentMeta) ++ tail ∧
        tail.length = 8 ∧ leNumber tail = body.length := by
  intro H
  have key : ∃ s, SegmentWriter.new .debug { data := .reliable, index := .failsAt 8 } exampleInfo = .ok s ∧
      let os : SegmentOs := { data := .reliable, index := .failsAt 8 }
      let r := SegmentWriter.close .debug os .insertion (runSeg .debug os [.close .insertion] s).2
      r.1 = .ok () ∧
      leNumber (r.2.indexWriter.file.content.drop (r.2.indexWriter.file.content.length - 8)) ≠
        r.2.indexWriter.file.content.length - 8 -
          (Prost.encodeMetadata (HashOrder.insertion.apply r.2.segmentMeta)).length := by
    refine exists_ok ?_
    decide +kernel
  obtain ⟨s, h1, h2, h3⟩ := key
  obtain ⟨body, tail, h4, h5, h6⟩ := H _ _ _ s _ _ (by decide) (by decide) h1 h2
  refine h3 ?_
  simp only [h4, List.length_append, h5]
  rw [List.drop_left' (by simp only [List.length_append]; omega), h6]
  omega

/-- C76 is false of the code, for the block indexes: here a write of the data file fails, the first column reports it and the
second is written with success, with an index whose only offset is past the end of the file. -/
theorem C76_index_violated :
    ¬ ∀ (p : Profile) (os : SegmentOs) (info : SegmentInfo) (s : SegmentWriter) (before : List SegOp)
      (ci : ColumnInfo) (cops : List ColOp), 0 < os.data.maxBuf → 0 < os.index.maxBuf →
      SegmentWriter.new p os info = .ok s →
      let run := runSeg p os [.column ci cops] (runSeg p os before s).2
      (∀ x ∈ run.1, x.Good) →
      ∃ start, Brackets (run.2.dataWriter.file.content ++ run.2.dataWriter.file.pending) start
        run.2.blockIndex.entries (blocksAlone p ci cops) := by
  intro H
  have key : ∃ s, SegmentWriter.new .debug { data := .failsAt 8, index := .reliable } exampleInfo = .ok s ∧
      let os : SegmentOs := { data := .failsAt 8, index := .reliable }
      let run := runSeg .debug os [.column (exampleColumn "b") [.write exampleBuffer, .close]]
        (runSeg .debug os [.column (exampleColumn "a") [.write exampleBuffer, .close]] s).2
      (∀ x ∈ run.1, x.Good) ∧
      ∃ e ∈ run.2.blockIndex.entries,
        (run.2.dataWriter.file.content ++ run.2.dataWriter.file.pending).length < e.2 := by
    refine exists_ok ?_
    decide +kernel
  obtain ⟨s, h1, h2, e, h3, h4⟩ := key
  obtain ⟨start, h5⟩ := H _ _ _ s _ _ _ (by decide) (by decide) h1 h2
  have := h5.within _ h3
  omega

end Meerkat
