import Verif.Spec.Cancel
import Verif.Props.SegmentFailures

set_option autoImplicit false

/-! # Dropped calls (C67) -/

namespace Meerkat
open TokioFile

/-! ## The file and the writer -/

/-- What a dropped `write_all` leaves. -/
theorem writeAllCut_some {os : Os} {j : Nat} {src : Bytes} {f f' : TokioFile} (h : writeAllCut os j src f = some f') :
    f.lastErr = false ∧ f'.lastErr = false ∧ f'.inflight.isSome ∧ j * os.maxBuf < src.length ∧
    f'.content ++ f'.pending = f.content ++ f.pending ++ src.take (j * os.maxBuf) ∧ f'.synced = f.synced := by
  induction j generalizing src f with
  | zero =>
    simp only [writeAllCut] at h
    split at h
    · rename_i hc
      cases h
      obtain ⟨h1, h2⟩ := hc
      simp only [Waits, Bool.and_eq_true, Bool.not_eq_true'] at h2
      exact ⟨h2.1, h2.1, h2.2, by simpa using List.length_pos_iff.2 h1, by simp, rfl⟩
    · cases h
  | succ j ih =>
    simp only [writeAllCut] at h
    split at h
    · cases h
    · rename_i hs
      rcases hw : write os src f with ⟨x | n, f1⟩
      · rw [hw] at h; cases h
      · rw [hw] at h
        obtain ⟨g1, g2, g3, g4, g5, g6⟩ := write_ok hw
        simp only at h
        split at h
        · cases h
        · obtain ⟨_, k2, k3, k4, k5, k6⟩ := ih h
          rw [List.length_drop, g3, List.length_take] at k4
          have hn : n = os.maxBuf := by rw [g3, List.length_take]; omega
          have hle : os.maxBuf ≤ src.length := by rw [g3, List.length_take] at hn; omega
          refine ⟨g1, k2, k3, by rw [Nat.succ_mul]; omega, ?_, by rw [k6, g6]⟩
          rw [k5, g4]
          simp only [pending, g5, Option.getD_some, List.append_assoc]
          congr 2
          rw [hn, Nat.succ_mul, Nat.add_comm, List.take_add]

/-- No error is kept, the file with its pending write holds `data`, and the position is `k` ahead of its end. -/
structure Skewed (w : Writer) (data : Bytes) (k : Nat) : Prop where
  err : w.file.lastErr = false
  content : w.file.content ++ w.file.pending = data
  pos : w.pos = (data.length + k) % 2 ^ 64

theorem GoodWriter.skewed {w : Writer} {data sy : Bytes} (h : GoodWriter w data sy) : Skewed w data 0 :=
  ⟨h.err, h.content, h.pos⟩

theorem add_mod {p : Profile} {a b n : Nat} (h : p.add 64 a b = .ok n) : n = (a + b) % 2 ^ 64 := by
  simp only [Profile.add] at h
  split at h
  · cases h; omega
  · cases p
    · cases h
    · cases h; rfl

theorem Skewed.write {p : Profile} {os : Os} {b : Bytes} {w w' : Writer} {data : Bytes} {k : Nat}
    (hg : Skewed w data k) (h : Writer.writeBlock p os b w = (.ok (), w')) : Skewed w' (data ++ b) k := by
  simp only [Writer.writeBlock] at h
  rcases hp : p.add 64 w.pos b.length with e | n
  · rw [hp] at h; cases h
  · rw [hp] at h
    simp only [Writer.onFile] at h
    rcases h2 : writeAll os b w.file with ⟨r, f⟩
    simp only [h2] at h
    cases h
    obtain ⟨h3, _, h5, _⟩ := writeAll_ok h2
    refine ⟨h3 hg.err, by rw [h5, hg.content], ?_⟩
    have hpos := hg.pos
    have := add_mod hp
    rw [List.length_append]
    dsimp only
    omega

theorem Skewed.flush {os : Os} {w w' : Writer} {data : Bytes} {k : Nat} (hg : Skewed w data k)
    (h : Writer.flush os w = (.ok (), w')) : Skewed w' data k := by
  simp only [Writer.flush, Writer.onFile] at h
  rcases h2 : TokioFile.flush os w.file with ⟨r, f⟩
  simp only [h2] at h
  cases h
  obtain ⟨_, h4, h5, h6, _⟩ := flush_ok h2
  exact ⟨h6, by simp [pending, h5, h4]; exact hg.content, hg.pos⟩

theorem Skewed.cut {p : Profile} {os : Os} {b : Bytes} {j : Nat} {w w' : Writer} {data : Bytes} {k : Nat}
    (hg : Skewed w data k) (h : Writer.writeBlockCut p os b j w = some w') :
    j * os.maxBuf < b.length ∧
    Skewed w' (data ++ b.take (j * os.maxBuf)) (k + (b.length - j * os.maxBuf)) := by
  simp only [Writer.writeBlockCut] at h
  rcases hp : p.add 64 w.pos b.length with e | n
  · rw [hp] at h; cases h
  · rw [hp] at h
    simp only [Option.map_eq_some_iff] at h
    obtain ⟨f, hf, rfl⟩ := h
    obtain ⟨_, h2, _, h4, h5, _⟩ := writeAllCut_some hf
    refine ⟨h4, h2, by rw [h5, hg.content], ?_⟩
    have hpos := hg.pos
    have := add_mod hp
    rw [List.length_append, List.length_take, Nat.min_eq_left (by omega)]
    dsimp only
    omega

/-- Dropped writes left something out. -/
def WriteCut (op : CutOp) : Prop := ∃ block j, op = .writeCut block j

theorem runCut_content {p : Profile} {os : Os} (ops : List CutOp) : ∀ (w w' : Writer) (data : Bytes) (k : Nat),
    (w.file.lastErr = false → w.file.content ++ w.file.pending = data) → w.pos = (data.length + k) % 2 ^ 64 →
    runCut p os ops w = some w' →
    (w'.file.lastErr = false → w'.file.content ++ w'.file.pending = data ++ bytesReached os ops) ∧
    w'.pos = (data.length + (bytesReached os ops).length + k + missing os ops) % 2 ^ 64 ∧
    (missing os ops = 0 ↔ ∀ op ∈ ops, ¬ WriteCut op) := by
  induction ops with
  | nil =>
    intro w w' data k hc hp h
    cases h
    exact ⟨by simpa [bytesReached] using hc, by simpa [bytesReached, missing] using hp, by simp [missing]⟩
  | cons op ops ih =>
    intro w w' data k hc hp h
    have hno : ∀ op' : CutOp, (¬ WriteCut op') → ((∀ op ∈ ops, ¬ WriteCut op) ↔ ∀ op ∈ op' :: ops, ¬ WriteCut op) := by
      intro op' h'
      simp [h']
    cases op with
    | call op =>
      simp only [runCut] at h
      rcases h1 : op.run p os w with ⟨r | r, w1⟩
      · rw [h1] at h; cases h
      · rw [h1] at h
        replace h : runCut p os ops w1 = some w' := h
        have hn : ¬ WriteCut (.call op) := by rintro ⟨_, _, h⟩; cases h
        cases op with
        | write b =>
          simp only [WriterOp.run, Writer.writeBlock] at h1
          rcases hq : p.add 64 w.pos b.length with e | n
          · rw [hq] at h1; cases h1
          · rw [hq] at h1
            simp only [Writer.onFile] at h1
            rcases h2 : writeAll os b w.file with ⟨r, f⟩
            simp only [h2] at h1
            cases h1
            obtain ⟨_, h4, h5, _⟩ := writeAll_ok h2
            have := add_mod hq
            obtain ⟨i1, i2, i3⟩ := ih _ w' (data ++ b) k (fun hl => by rw [h5, hc (h4 hl)])
              (by dsimp only; rw [List.length_append]; omega) h
            rw [List.length_append] at i2
            refine ⟨by rw [bytesReached, ← List.append_assoc]; exact i1, ?_, ?_⟩
            · simp only [i2, bytesReached, missing, List.length_append]
              rw [← Nat.add_assoc]
            · exact i3.trans (hno _ hn)
        | flush =>
          simp only [WriterOp.run, Writer.flush, Writer.onFile] at h1
          rcases h2 : TokioFile.flush os w.file with ⟨r, f⟩
          simp only [h2] at h1
          cases h1
          obtain ⟨h3, h4, h5, h6, _⟩ := flush_ok h2
          obtain ⟨i1, i2, i3⟩ := ih { file := f, pos := w.pos } w' data k (fun _ => by rw [← hc h3]; simp [h4, pending, h5]) hp h
          exact ⟨i1, i2, i3.trans (hno _ hn)⟩
        | sync =>
          simp only [WriterOp.run, Writer.sync, Writer.onFile] at h1
          rcases h2 : TokioFile.syncAll os w.file with ⟨r, f⟩
          simp only [h2] at h1
          cases h1
          obtain ⟨_, _, h3, _⟩ := syncAll_facts h2
          obtain ⟨i1, i2, i3⟩ := ih { file := f, pos := w.pos } w' data k (fun hl => by
            obtain ⟨h4, h5, h6⟩ := h3 hl
            rw [← hc h4]; simp [h5, pending, h6]) hp h
          exact ⟨i1, i2, i3.trans (hno _ hn)⟩
    | writeCut b j =>
      simp only [runCut, Option.bind_eq_some_iff] at h
      obtain ⟨w1, h1, h2⟩ := h
      have hl : w.file.lastErr = false := by
        simp only [Writer.writeBlockCut] at h1
        split at h1
        · cases h1
        · obtain ⟨f, hf, rfl⟩ := Option.map_eq_some_iff.1 h1
          exact (writeAllCut_some hf).1
      obtain ⟨g1, g2⟩ := Skewed.cut ⟨hl, hc hl, hp⟩ h1
      obtain ⟨i1, i2, _⟩ := ih w1 w' _ _ (fun _ => g2.content) g2.pos h2
      rw [List.length_append] at i2
      refine ⟨by rw [bytesReached, ← List.append_assoc]; exact i1, ?_, ?_⟩
      · rw [i2, bytesReached, missing, List.length_append]; congr 1; omega
      · rw [missing]
        constructor
        · intro h0; omega
        · intro h0; exact absurd ⟨b, j, rfl⟩ (h0 (.writeCut b j) (by simp))
    | flushCut =>
      simp only [runCut, Option.bind_eq_some_iff] at h
      obtain ⟨w1, h1, h2⟩ := h
      have : w1 = w := by
        simp only [Writer.flushCut] at h1
        split at h1 <;> cases h1
        rfl
      subst this
      obtain ⟨i1, i2, i3⟩ := ih w1 w' data k hc hp h2
      exact ⟨i1, i2, i3.trans (hno _ (by rintro ⟨_, _, h⟩; cases h))⟩

/-- C67 exactly, for a block writer. After any history of calls from a new file in which those that were not dropped
succeeded and no error is kept, the file has the whole blocks of the completed writes and the first buffers of the dropped
ones, in order, and the position is ahead of its end by the rest of the dropped ones. It is the end of the file if
and only if no write was dropped; dropping a flush is harmless. -/
theorem C67_position_exact (p : Profile) (os : Os) (w w' : Writer) (hw : Writer.new os = .ok w) (ops : List CutOp)
    (h : runCut p os ops w = some w') (herr : w'.file.lastErr = false)
    (hlen : (bytesReached os ops).length + missing os ops < 2 ^ 64) :
    w'.file.content ++ w'.file.pending = bytesReached os ops ∧
    w'.pos = (w'.file.content ++ w'.file.pending).length + missing os ops ∧
    (w'.pos = (w'.file.content ++ w'.file.pending).length ↔ ∀ op ∈ ops, ¬ WriteCut op) := by
  have hnew := new_file hw
  obtain ⟨h1, h2, h3⟩ := runCut_content ops w w' [] 0 (by rw [hnew]; intro _; rfl) (by rw [hnew]; rfl) h
  have h1 := h1 herr
  rw [List.nil_append] at h1
  have h2 : w'.pos = (bytesReached os ops).length + missing os ops := by
    rw [h2, Nat.mod_eq_of_lt] <;> simp only [List.length_nil] <;> omega
  rw [h1]
  refine ⟨rfl, h2, ?_⟩
  rw [← h3]
  omega

/-- **C67, what holds.** If no write is dropped, though flushes may be, the position is the end of the file and all
bytes are there. -/
theorem C67_dropped_call_partial (p : Profile) (os : Os) (w w' : Writer) (hw : Writer.new os = .ok w) (ops : List CutOp)
    (h : runCut p os ops w = some w') (herr : w'.file.lastErr = false) (hno : ∀ op ∈ ops, ¬ WriteCut op)
    (hlen : (bytesReached os ops).length < 2 ^ 64) :
    w'.file.content ++ w'.file.pending = bytesReached os ops ∧
    w'.pos = (w'.file.content ++ w'.file.pending).length := by
  have hnew := new_file hw
  have h0 := ((runCut_content ops w w' [] 0 (by rw [hnew]; intro _; rfl) (by rw [hnew]; rfl) h).2.2).2 hno
  obtain ⟨h1, _, h3⟩ := C67_position_exact p os w w' hw ops h herr (by omega)
  exact ⟨h1, h3.2 hno⟩

/-- A flush dropped between two writes. -/
example : ∃ w w', Writer.new Os.reliable = .ok w ∧
    runCut .debug Os.reliable [.call (.write [1, 2, 3]), .flushCut, .call (.write [6, 7])] w = some w' ∧
    w'.file.content = [1, 2, 3] ∧ w'.file.pending = [6, 7] ∧ w'.pos = 5 := by
  refine ⟨_, _, rfl, rfl, ?_⟩
  decide +kernel

/-- Three of five bytes are missing from the first write, one from the second; nothing is reported. -/
example : ∃ w w', Writer.new Os.reliable = .ok w ∧ runCut .debug Os.reliable
      [.writeCut [1, 2, 3, 4, 5] 1, .flushCut, .call (.write [6, 7]), .writeCut [8, 9, 10] 1, .call .flush, .call .sync] w =
        some w' ∧
    w'.file.content = [1, 2, 6, 7, 8, 9] ∧ w'.pos = 10 := by
  refine ⟨_, _, rfl, rfl, ?_⟩
  decide +kernel

/-! ## The block index -/

theorem blockEnds_add (n k : Nat) (bs : List (Nat × Bytes)) : blockEnds (n + k) bs = (blockEnds n bs).map (· + k) := by
  induction bs generalizing n with
  | nil => rfl
  | cons b bs ih => simp only [blockEnds, List.map_cons]; rw [Nat.add_right_comm, ih]

theorem Skewed.feed {p : Profile} {os : Os} {bs : List (Nat × Bytes)} {w w' : Writer} {bi bi' : BlockIndex}
    {data : Bytes} {k : Nat} (hg : Skewed w data k) (h : feed (blockSink p os) (w, bi) bs = (.ok (), (w', bi'))) :
    Skewed w' (data ++ concatBlocks bs) k ∧ bi'.blockRowId = bi.blockRowId ++ bs.map Prod.fst ∧
    bi'.blockOffset = bi.blockOffset ++ (blockEnds (data.length + k) bs).map (· % 2 ^ 64) := by
  induction bs generalizing w bi data with
  | nil => cases h; simpa [concatBlocks, blockEnds] using hg
  | cons b bs ih =>
    simp only [Meerkat.feed, blockSink] at h
    rcases h1 : Writer.writeBlock p os b.2 w with ⟨x | x, w1⟩
    · simp only [h1] at h; cases (Prod.mk.inj h).1
    · have hg1 := hg.write h1
      simp only [h1] at h
      obtain ⟨h3, h4, h5⟩ := ih hg1 h
      refine ⟨by simpa [concatBlocks] using h3, by simpa [BlockIndex.indexBlock] using h4, ?_⟩
      rw [h5]
      simp only [BlockIndex.indexBlock, blockEnds, hg1.pos, List.length_append, List.map_cons, List.append_assoc,
        List.singleton_append]
      rw [Nat.add_right_comm]

theorem Brackets.within {file : Bytes} {start : Nat} {es : List (Nat × Nat)} {bs : List (Nat × Bytes)}
    (h : Brackets file start es bs) : ∀ e ∈ es, e.2 ≤ file.length := by
  induction es generalizing start bs with
  | nil => simp
  | cons e es ih =>
    cases bs with
    | nil => exact h.elim
    | cons b bs =>
      obtain ⟨_, _, h3, _, h5⟩ := h
      intro x hx
      rcases List.mem_cons.1 hx with rfl | hx
      · exact h3
      · exact ih h5 x hx

theorem blockEnds_last (n : Nat) (bs : List (Nat × Bytes)) (hb : bs ≠ []) :
    ∃ r, (r, n + (concatBlocks bs).length) ∈ (bs.map Prod.fst).zip (blockEnds n bs) := by
  induction bs generalizing n with
  | nil => exact absurd rfl hb
  | cons b bs ih =>
    simp only [List.map_cons, blockEnds, List.zip_cons_cons, concatBlocks, List.flatten_cons, List.length_append]
    by_cases h : bs = []
    · subst h
      exact ⟨b.1, by simp⟩
    · obtain ⟨r, hr⟩ := ih (n + b.2.length) h
      exact ⟨r, List.mem_cons_of_mem _ (by simpa [concatBlocks, Nat.add_assoc] using hr)⟩

/-- **C67, the index.** The blocks `bs` that are accepted after a write was dropped, from whatever good state, are put right
after the part of the dropped block that was written; but each of their index entries is too large by the part that was
not, and the last points past the end of the file. So the entries describe the blocks from no start at all. -/
theorem C67_index_after_cut (p : Profile) (os : Os) (w0 w1 w2 : Writer) (data sy block : Bytes) (j : Nat)
    (bs : List (Nat × Bytes)) (i : BlockIndex) (hg : GoodWriter w0 data sy)
    (hcut : Writer.writeBlockCut p os block j w0 = some w1)
    (hfeed : feed (blockSink p os) (w1, .new) bs = (.ok (), (w2, i)))
    (hlen : data.length + block.length + (concatBlocks bs).length < 2 ^ 64) :
    let lost := block.length - j * os.maxBuf
    let written := data ++ block.take (j * os.maxBuf)
    let file := w2.file.content ++ w2.file.pending
    0 < lost ∧ file = written ++ concatBlocks bs ∧
    Brackets file written.length ((bs.map Prod.fst).zip (blockEnds written.length bs)) bs ∧
    i.entries = (bs.map Prod.fst).zip ((blockEnds written.length bs).map (· + lost)) ∧
    (bs ≠ [] → ∀ start, ¬ Brackets file start i.entries bs) := by
  intro lost written file
  obtain ⟨h1, h2⟩ := hg.skewed.cut hcut
  obtain ⟨h3, h4, h5⟩ := h2.feed hfeed
  have hfile : file = written ++ concatBlocks bs := h3.content
  have hwl : written.length = data.length + j * os.maxBuf := by
    simp only [written, List.length_append, List.length_take]; omega
  have hlost : 0 < lost := by omega
  have he : i.entries = (bs.map Prod.fst).zip (blockEnds (written.length + lost) bs) := by
    have h5 : i.blockOffset = (blockEnds (written.length + lost) bs).map (· % 2 ^ 64) := by
      simpa only [BlockIndex.new, List.nil_append, Nat.zero_add] using h5
    rw [blockEnds_mod (by omega)] at h5
    rw [BlockIndex.entries, h4, h5]
    simp [BlockIndex.new]
  refine ⟨hlost, hfile, ?_, by rw [he, blockEnds_add], ?_⟩
  · have := blockEnds_brackets written [] bs
    rw [List.append_nil, ← hfile] at this
    exact this
  · intro hb start hbr
    obtain ⟨r, hr⟩ := blockEnds_last (written.length + lost) bs hb
    rw [← he] at hr
    have := hbr.within _ hr
    have hl : file.length = written.length + (concatBlocks bs).length := by rw [hfile, List.length_append]
    dsimp only at this
    omega

/-- One of three bytes of the first block is lost; the entries say 6 and 9 where the blocks end at 5 and 8. -/
example :
    (match Writer.new Os.reliable with
      | .error _ => none
      | .ok w =>
        match Writer.writeBlockCut .debug Os.reliable [1, 2, 3] 1 (Writer.writeBlock .debug Os.reliable [9] w).2 with
        | none => none
        | some w1 =>
          let (r, w2, i) := feed (blockSink .debug Os.reliable) (w1, .new) [(0, [4, 5]), (1, [6, 7, 8])]
          some (r, w2.file.content ++ w2.file.pending, i.entries)) =
      some (.ok (), [9, 1, 2, 4, 5, 6, 7, 8], [(0, 6), (1, 9)]) := by decide +kernel

/-! ## Column writers -/

theorem feed_cut {p : Profile} {os : Os} {j : Nat} {bs : List (Nat × Bytes)} {n : Nat} {w w' : Writer} {i i' : BlockIndex}
    {r : Except Fault Unit} (h : feed (cutSink p os j) ((w, i), some n) bs = (r, ((w', i'), none))) :
    ∃ b w1, bs[n]? = some b ∧ feed (blockSink p os) (w, i) (bs.take n) = (.ok (), (w1, i')) ∧
      Writer.writeBlockCut p os b.2 j w1 = some w' := by
  induction bs generalizing n w i with
  | nil => cases h
  | cons b bs ih =>
    cases n with
    | zero =>
      simp only [feed, cutSink] at h
      rcases h1 : Writer.writeBlockCut p os b.2 j w with _ | w1
      · simp only [h1] at h
        cases h
      · simp only [h1] at h
        cases h
        exact ⟨b, w, rfl, rfl, h1⟩
    | succ n =>
      simp only [feed, cutSink] at h
      rcases h1 : (blockSink p os).write (w, i) b.1 b.2 with ⟨x | x, w1, i1⟩
      · simp only [h1] at h
        cases h
      · simp only [h1] at h
        obtain ⟨b', w2, h2, h3, h4⟩ := ih h
        exact ⟨b', w2, by simpa using h2, by simp only [List.take_succ_cons, feed, h1]; exact h3, h4⟩

/-- **C67, column writers.** Dropping the call `write` of a column while its block number `n` is being written leaves
the blocks before it in the file, with their index entries, and a part of the block itself, with none. The position of
the data writer is where the whole block would have ended. -/
theorem C67_column_cut (p : Profile) (os : SegmentOs) (c c' : ColumnWriter) (s s' : SegmentWriter) (data sy : Bytes)
    (buf : BinaryBuffer) (n j : Nat) (hg : GoodWriter s.dataWriter data sy)
    (h : ColumnWriter.writeCut p os buf n j (c, s) = some (c', s')) :
    let bs := (BinaryEncoder.encode p recorder buf (c.encoder, [])).2.2
    let t := j * os.data.maxBuf
    ∃ row block, bs[n]? = some (row, block) ∧ t < block.length ∧
    s'.dataWriter.file.content ++ s'.dataWriter.file.pending = data ++ concatBlocks (bs.take n) ++ block.take t ∧
    s'.dataWriter.file.lastErr = false ∧
    s'.blockIndex.blockRowId = s.blockIndex.blockRowId ++ (bs.take n).map Prod.fst ∧
    s'.blockIndex.blockOffset = s.blockIndex.blockOffset ++ (blockEnds data.length (bs.take n)).map (· % 2 ^ 64) ∧
    s'.dataWriter.pos = (data.length + (concatBlocks (bs.take n)).length + block.length) % 2 ^ 64 ∧
    s'.indexWriter = s.indexWriter ∧ s'.segmentMeta = s.segmentMeta ∧ c'.columnInfo = c.columnInfo := by
  intro bs t
  obtain ⟨bs', r, e', h1, h2⟩ := BinaryEncoder.encode_follows p (cutSink p os.data j) buf c.encoder
  have hbs : bs = bs' := by simp only [bs, h1 [], List.nil_append]
  have h2 := h2 ((s.dataWriter, s.blockIndex), some n)
  rw [ColumnWriter.writeCut] at h
  dsimp only at h
  have key : ∃ w i r', feed (cutSink p os.data j) ((s.dataWriter, s.blockIndex), some n) bs' = (r', ((w, i), none)) ∧
      s' = { s with dataWriter := w, blockIndex := i } ∧ c'.columnInfo = c.columnInfo := by
    rcases hf : feed (cutSink p os.data j) ((s.dataWriter, s.blockIndex), some n) bs' with ⟨x | x, ⟨w, i⟩, m⟩
    · rw [hf] at h2
      obtain ⟨e'', h2⟩ := h2
      rw [h2] at h
      cases m with
      | none => cases h; exact ⟨w, i, _, rfl, rfl, rfl⟩
      | some m => cases h
    · rw [hf] at h2
      dsimp only at h2
      rw [h2] at h
      cases m with
      | none => cases h; exact ⟨w, i, _, rfl, rfl, rfl⟩
      | some m => cases h
  obtain ⟨w, i, r', h3, rfl, h4⟩ := key
  obtain ⟨b, w1, h5, h6, h7⟩ := feed_cut h3
  obtain ⟨h8, h9, h10⟩ := hg.skewed.feed h6
  obtain ⟨h11, h12⟩ := h8.cut h7
  have hp := h12.pos
  rw [hbs]
  refine ⟨b.1, b.2, h5, h11, h12.content, h12.err, h9, h10, ?_, rfl, rfl, h4⟩
  rw [List.length_append, List.length_take, List.length_append] at hp
  dsimp only
  rw [hp]
  congr 1
  omega

/-- The writes that follow a dropped one succeed like any others, so nothing tells the caller. -/
theorem C67_unnoticed (p : Profile) (os : Os) (hb : 0 < os.maxBuf) (hd : ∀ i, os.writes i = .done) (w w1 : Writer)
    (block : Bytes) (j : Nat) (hcut : Writer.writeBlockCut p os block j w = some w1) (b : Bytes)
    (hlen : w1.pos + b.length < 2 ^ 64) :
    ∃ w2, Writer.writeBlock p os b w1 = (.ok (), w2) := by
  have h0 : w1.file.lastErr = false := by
    simp only [Writer.writeBlockCut] at hcut
    split at hcut
    · cases hcut
    · obtain ⟨f, hf, rfl⟩ := Option.map_eq_some_iff.1 hcut
      exact (writeAllCut_some hf).2.1
  obtain ⟨f', hf⟩ := writeAllFuel_succeeds hb hd (f := w1.file) (src := b) (Nat.le_refl _) h0
  have hf : writeAll os b w1.file = (.ok (), f') := hf
  exact ⟨{ file := f', pos := w1.pos + b.length }, by simp only [Writer.writeBlock, p.add_ok hlen, Writer.onFile, hf]⟩

/-! ## A segment -/

/-- A value longer than a block, to have a block in the first call. -/
def longBuffer : BinaryBuffer := { data := List.replicate 130 7, offsets := [0, 130], validity := none }

/-- A segment in which the first call of column `a` is dropped at the fourth buffer of its first block; the column is given
up, column `b` is written, and the segment is closed and synced. The results, and the segment. -/
def cutSegment : Option ((List SegResult × Except Fault Unit) × SegmentWriter) :=
  match SegmentWriter.new .debug .reliable exampleInfo with
  | .error _ => none
  | .ok s =>
    match SegmentWriter.newBinaryColumnWriter (exampleColumn "a") s with
    | (.error _, _) => none
    | (.ok c, s) =>
      match ColumnWriter.writeCut .debug .reliable longBuffer 0 3 (c, s) with
      | none => none
      | some (_, s) =>
        let (rs, s) := runSeg .debug .reliable [.column (exampleColumn "b") [.write exampleBuffer, .close], .close .insertion] s
        let (r, s) := SegmentWriter.sync .reliable s
        some ((rs, r), s)

/-- **C67 is violated.** After a dropped call every later call succeeds, and all bytes reach the disk; but the block of the
column written later is described as ending beyond the end of the file. -/
theorem C67_dropped_call_violated : ∃ rs r s, cutSegment = some ((rs, r), s) ∧ (∀ x ∈ rs, x.Good) ∧ r = .ok () ∧
    s.dataWriter.file.pending = [] ∧
    (∀ x ∈ s.blockIndex.entries, s.dataWriter.file.content.length < x.2) ∧ s.blockIndex.entries ≠ [] ∧
    ∀ start, ¬ Brackets s.dataWriter.file.content start s.blockIndex.entries (blocksAlone .debug (exampleColumn "b")
      [.write exampleBuffer, .close]) := by
  have h : ∃ x, cutSegment = some x ∧ (∀ y ∈ x.1.1, y.Good) ∧ x.1.2 = .ok () ∧ x.2.dataWriter.file.pending = [] ∧
      (∀ y ∈ x.2.blockIndex.entries, x.2.dataWriter.file.content.length < y.2) ∧ x.2.blockIndex.entries ≠ [] := by
    have : (match cutSegment with
        | some x => decide ((∀ y ∈ x.1.1, y.Good) ∧ x.1.2 = .ok () ∧ x.2.dataWriter.file.pending = [] ∧
          (∀ y ∈ x.2.blockIndex.entries, x.2.dataWriter.file.content.length < y.2) ∧ x.2.blockIndex.entries ≠ [])
        | none => false) = true := by decide +kernel
    cases hx : cutSegment with
    | none => rw [hx] at this; cases this
    | some x => rw [hx] at this; exact ⟨x, rfl, of_decide_eq_true this⟩
  obtain ⟨⟨⟨rs, r⟩, s⟩, h1, h2, h3, h4, h5, h6⟩ := h
  refine ⟨rs, r, s, h1, h2, h3, h4, h5, h6, ?_⟩
  intro start hb
  obtain ⟨e, es, he⟩ := List.exists_cons_of_ne_nil h6
  have hm : e ∈ s.blockIndex.entries := by rw [he]; simp
  have := hb.within e hm
  have := h5 e hm
  dsimp only at this
  omega

end Meerkat
