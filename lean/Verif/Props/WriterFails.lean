import Verif.Props.LargeBuffer
import Verif.Props.EncodingChoice
import Verif.Proofs.TokioFile
import Verif.Proofs.Segment
import Verif.Spec.FirstFault

set_option autoImplicit false

/-! # C113: a column writer fails only when the file does -/

namespace Meerkat
section
open Spec

namespace WriterFails

/-! ## The segment metadata is always there -/

/-- The `unwrap` of segment_writer.rs:319 is harmless. -/
def HasMeta (s : SegmentWriter) : Prop := s.segmentMeta.segmentMeta.isSome = true

theorem onSink_meta {α : Type} (m : Run (BinaryEncoder × (Writer × BlockIndex)) α) (c : ColumnWriter) (s : SegmentWriter) :
    (ColumnWriter.onSink m (c, s)).2.2.segmentMeta = s.segmentMeta := rfl

theorem op_meta (p : Profile) (os : SegmentOs) (op : ColOp) (c : ColumnWriter) (s : SegmentWriter) (h : HasMeta s) :
    HasMeta (op.run p os (c, s)).2.2 := by
  cases op with
  | write b => rw [HasMeta, ColOp.run, ColumnWriter.write, onSink_meta]; exact h
  | close =>
    rcases hr : ColumnWriter.close p os (c, s) with ⟨f | u, c', s'⟩
    · simp only [ColOp.run, hr, HasMeta]
      rw [(close_error hr).2]; exact h
    · obtain ⟨layout, _, _, _, hi⟩ := close_ok hr
      simp only [ColOp.run, hr, HasMeta]
      simp only [ColumnWriter.insertColumn] at hi
      split at hi
      · cases hi
      · rw [← Except.ok.inj hi]; rfl

theorem ops_meta (p : Profile) (os : SegmentOs) (ops : List ColOp) (c : ColumnWriter) (s : SegmentWriter) (h : HasMeta s) :
    HasMeta (runColOps p os ops (c, s)).2.2 := by
  induction ops generalizing c s with
  | nil => exact h
  | cons op ops ih =>
    have h1 := op_meta p os op c s h
    simp only [runColOps]
    rcases hr : op.run p os (c, s) with ⟨r, c1, s1⟩
    rw [hr] at h1
    exact ih c1 s1 h1

theorem onIndex_meta {α : Type} (m : Run Writer α) (s : SegmentWriter) :
    (SegmentWriter.onIndex m s).2.segmentMeta = s.segmentMeta := rfl

theorem onData_meta {α : Type} (m : Run Writer α) (s : SegmentWriter) :
    (SegmentWriter.onData m s).2.segmentMeta = s.segmentMeta := rfl

theorem bind_meta {α β : Type} (m : Run SegmentWriter α) (f : α → Run SegmentWriter β)
    (h1 : ∀ s, (m s).2.segmentMeta = s.segmentMeta) (h2 : ∀ a s, (f a s).2.segmentMeta = s.segmentMeta) (s : SegmentWriter) :
    ((m >>= f) s).2.segmentMeta = s.segmentMeta := by
  rw [Run.bind_apply]
  have := h1 s
  rcases hm : m s with ⟨x | x, s1⟩
  · rw [hm] at this; exact this
  · rw [hm] at this
    exact (h2 x s1).trans this

theorem close_meta (p : Profile) (os : SegmentOs) (order : HashOrder) (s : SegmentWriter) :
    (SegmentWriter.close p os order s).2.segmentMeta = s.segmentMeta := by
  simp only [SegmentWriter.close]
  exact bind_meta _ _ (onIndex_meta _) (fun _ => bind_meta _ _ (onIndex_meta _) (fun _ => bind_meta _ _ (onIndex_meta _)
    (fun _ => onData_meta _))) s

theorem seg_meta (p : Profile) (os : SegmentOs) (ops : List SegOp) (s : SegmentWriter) (h : HasMeta s) :
    HasMeta (runSeg p os ops s).2 := by
  induction ops generalizing s with
  | nil => exact h
  | cons op ops ih =>
    simp only [runSeg]
    apply ih
    cases op with
    | close order =>
      simp only [SegOp.run, HasMeta]
      rw [close_meta]; exact h
    | column info cops =>
      simp only [SegOp.run, SegmentWriter.newBinaryColumnWriter]
      cases newBinaryEncoder info.encoding BLOCK_SIZE info.nullable with
      | error x => exact h
      | ok e => exact ops_meta p os cops _ _ h

theorem new_meta {p : Profile} {os : SegmentOs} {info : SegmentInfo} {s : SegmentWriter}
    (h : SegmentWriter.new p os info = .ok s) : HasMeta s := by
  simp only [SegmentWriter.new] at h
  cases h1 : Writer.new os.index with
  | error x => rw [h1] at h; cases h
  | ok iw =>
    cases h2 : Writer.new os.data with
    | error x => rw [h1, h2] at h; cases h
    | ok dw =>
      rw [h1, h2] at h
      simp only [ok_bind] at h
      have hm := bind_meta _ _ (onIndex_meta (Writer.writeBlock p os.index INDEX_FILE_SIGNATURE))
        (fun _ => onData_meta (Writer.writeBlock p os.data DATA_FILE_SIGNATURE)) (SegmentWriter.initial info dw iw)
      split at h
      · rename_i heq
        rw [← Except.ok.inj h]
        simp only [SegmentWriter.writeHeaders] at heq
        rw [heq] at hm
        rw [HasMeta, hm]; rfl
      · cases h

/-! ## One call -/

theorem op_follows (p : Profile) (os : SegmentOs) (op : ColOp) (c : ColumnWriter) (s : SegmentWriter) (hs : HasMeta s) :
    ∃ bs r e', (∀ l, op.alone p (c.encoder, l) = (r, (e', l ++ bs))) ∧
      match feed (blockSink p os.data) (s.dataWriter, s.blockIndex) bs with
      | (.ok (), (w, bi)) => (op.run p os (c, s)).1 = r ∧ (op.run p os (c, s)).2.1.encoder = e' ∧
          (op.run p os (c, s)).2.2.dataWriter = w ∧ (op.run p os (c, s)).2.2.blockIndex = bi
      | (.error f, _) => (op.run p os (c, s)).1 = .error f := by
  cases op with
  | write b =>
    obtain ⟨bs, r, e', h1, h2⟩ := BinaryEncoder.encode_follows p (blockSink p os.data) b c.encoder
    refine ⟨bs, r, e', h1, ?_⟩
    have h3 := h2 (s.dataWriter, s.blockIndex)
    rcases hf : feed (blockSink p os.data) (s.dataWriter, s.blockIndex) bs with ⟨f | u, w, bi⟩
    · rw [hf] at h3
      obtain ⟨e2, h3⟩ := h3
      simp only [ColOp.run, ColumnWriter.write, ColumnWriter.onSink, h3]
    · rw [hf] at h3
      simp only at h3
      simp only [ColOp.run, ColumnWriter.write, ColumnWriter.onSink, h3, and_self]
  | close =>
    obtain ⟨bs, r, e', h1, h2⟩ := BinaryEncoder.flush_follows p (blockSink p os.data) c.encoder
    refine ⟨bs, r.map (fun _ => ()), e', fun l => ?_, ?_⟩
    · simp only [ColOp.alone, Run.bind_apply, h1]
      cases r <;> rfl
    have h3 := h2 (s.dataWriter, s.blockIndex)
    rcases hf : feed (blockSink p os.data) (s.dataWriter, s.blockIndex) bs with ⟨f | u, w, bi⟩
    · rw [hf] at h3
      obtain ⟨e2, h3⟩ := h3
      simp only [ColOp.run, ColumnWriter.close, Run.bind_apply, ColumnWriter.onSink, h3]
    · rw [hf] at h3
      simp only at h3
      obtain ⟨m, hm⟩ := Option.isSome_iff_exists.1 hs
      cases r with
      | error f => simp only [ColOp.run, ColumnWriter.close, Run.bind_apply, ColumnWriter.onSink, h3, Except.map, and_self]
      | ok layout =>
        simp only [ColOp.run, ColumnWriter.close, Run.bind_apply, ColumnWriter.onSink, h3, Except.map,
          ColumnWriter.flushBlockIndex, BlockIndex.flush, Run.pure_apply, ColumnWriter.recordColumn, ColumnWriter.insertColumn,
          hm, and_self]

/-! ## The file -/

theorem writeBlock_fails {p : Profile} {os : Os} {b : Bytes} {w w' : Writer} {f : Fault} (hlt : w.pos + b.length < 2 ^ 64)
    (h : Writer.writeBlock p os b w = (.error f, w')) : f = .io := by
  have hp : p.add 64 w.pos b.length = .ok (w.pos + b.length) := by
    simp only [Profile.add]; rw [if_pos (by omega)]
  simp only [Writer.writeBlock, hp, Writer.onFile] at h
  rcases hw : TokioFile.writeAll os b w.file with ⟨r, f1⟩
  rw [hw] at h
  simp only at h
  have hr := (Prod.mk.inj h).1
  subst hr
  cases f with
  | io => rfl
  | panic e =>
    have := TokioFile.writeAllFuel_not_diverge (os := os) (f := w.file) (Nat.le_refl b.length) e
    rw [TokioFile.writeAll] at hw
    rw [hw] at this
    exact absurd rfl this

theorem writeBlock_pos {p : Profile} {os : Os} {b : Bytes} {w w' : Writer} (hlt : w.pos + b.length < 2 ^ 64)
    (h : Writer.writeBlock p os b w = (.ok (), w')) : w'.pos = w.pos + b.length := by
  have hp : p.add 64 w.pos b.length = .ok (w.pos + b.length) := by
    simp only [Profile.add]; rw [if_pos (by omega)]
  simp only [Writer.writeBlock, hp, Writer.onFile] at h
  rw [← (Prod.mk.inj h).2]

theorem feed_fails {p : Profile} {os : Os} (bs : List (Nat × Bytes)) : ∀ {w : Writer} {bi : BlockIndex},
    w.pos + (concatBlocks bs).length < 2 ^ 64 →
    match feed (blockSink p os) (w, bi) bs with
    | (.ok (), (w', _)) => w'.pos = w.pos + (concatBlocks bs).length
    | (.error f, _) => f = .io := by
  induction bs with
  | nil => intro w bi _; simp [feed, concatBlocks]
  | cons b bs ih =>
    intro w bi hlt
    simp only [concatBlocks, List.map_cons, List.flatten_cons, List.length_append] at hlt ih ⊢
    rcases hw : Writer.writeBlock p os b.2 w with ⟨f | u, w1⟩
    · have hk : (blockSink p os).write (w, bi) b.1 b.2 = (.error f, (w1, bi)) := by simp only [blockSink, hw]
      rw [feed, hk]
      exact writeBlock_fails (by omega) hw
    · have hk : (blockSink p os).write (w, bi) b.1 b.2 = (.ok (), (w1, bi.indexBlock b.1 w1.pos)) := by
        simp only [blockSink, hw]
      have hpos := writeBlock_pos (by omega) hw
      have := ih (w := w1) (bi := bi.indexBlock b.1 w1.pos) (by omega)
      rw [feed, hk]
      dsimp only
      rcases hf : feed (blockSink p os) (w1, bi.indexBlock b.1 w1.pos) bs with ⟨f | u, w2, bi2⟩
      · rw [hf] at this; exact this
      · rw [hf] at this
        dsimp only at this ⊢
        omega

/-! ## The calls -/

theorem calls_ok {p : Profile} {os : SegmentOs} (ops : List ColOp) : ∀ (c : ColumnWriter) (s : SegmentWriter), HasMeta s →
    firstFault (runColOps p os ops (c, s)).1 = none →
    ∃ bs e', ∀ l, aloneOps p ops (c.encoder, l) = (.ok (), (e', l ++ bs)) := by
  induction ops with
  | nil => intro c s _ _; exact ⟨[], c.encoder, fun l => by simp [aloneOps, Run.pure_apply]⟩
  | cons op ops ih =>
    intro c s hs hn
    have hm := op_meta p os op c s hs
    obtain ⟨bs, r, e', h1, h2⟩ := op_follows p os op c s hs
    rcases hr : op.run p os (c, s) with ⟨r1, c1, s1⟩
    simp only [runColOps, hr] at hn
    rw [hr] at h2 hm
    cases r1 with
    | error f => cases hn
    | ok u =>
      have hn' : firstFault (runColOps p os ops (c1, s1)).1 = none := hn
      rcases hf : feed (blockSink p os.data) (s.dataWriter, s.blockIndex) bs with ⟨f | u, w, bi⟩
      · rw [hf] at h2; cases h2
      · rw [hf] at h2
        obtain ⟨h3, h4, _⟩ := h2
        dsimp only at h3 h4
        subst h3
        obtain ⟨bs2, e2, h5⟩ := ih c1 s1 hm hn'
        refine ⟨bs ++ bs2, e2, fun l => ?_⟩
        simp only [aloneOps, Run.bind_apply, h1]
        rw [← h4, h5, List.append_assoc]

theorem alone_shape (p : Profile) (ops : List ColOp) : ∀ e : BinaryEncoder, ∃ bs r e',
    ∀ l, aloneOps p ops (e, l) = (r, (e', l ++ bs)) := by
  induction ops with
  | nil => intro e; exact ⟨[], .ok (), e, fun l => by simp [aloneOps, Run.pure_apply]⟩
  | cons op ops ih =>
    intro e
    have hop : ∃ bs r e', ∀ l, op.alone p (e, l) = (r, (e', l ++ bs)) := by
      cases op with
      | write b =>
        obtain ⟨bs, r, e', h, _⟩ := BinaryEncoder.encode_follows p recorder b e
        exact ⟨bs, r, e', h⟩
      | close =>
        obtain ⟨bs, r, e', h, _⟩ := BinaryEncoder.flush_follows p recorder e
        refine ⟨bs, r.map (fun _ => ()), e', fun l => ?_⟩
        simp only [ColOp.alone, Run.bind_apply, h]
        cases r <;> rfl
    obtain ⟨bs, r, e1, h1⟩ := hop
    cases r with
    | error f => exact ⟨bs, .error f, e1, fun l => by simp only [aloneOps, Run.bind_apply, h1]⟩
    | ok u =>
      obtain ⟨bs2, r2, e2, h2⟩ := ih e1
      exact ⟨bs ++ bs2, r2, e2, fun l => by simp only [aloneOps, Run.bind_apply, h1, h2, List.append_assoc]⟩

theorem calls_io {p : Profile} {os : SegmentOs} (ops : List ColOp) : ∀ (c : ColumnWriter) (s : SegmentWriter), HasMeta s →
    ∀ (bs : List (Nat × Bytes)) (e' : BinaryEncoder), aloneOps p ops (c.encoder, []) = (.ok (), (e', bs)) →
    s.dataWriter.pos + (concatBlocks bs).length < 2 ^ 64 →
    ∀ f, firstFault (runColOps p os ops (c, s)).1 = some f → f = .io := by
  induction ops with
  | nil => intro c s _ bs e' _ _ f hf; cases hf
  | cons op ops ih =>
    intro c s hs bs e' hal hlt f hf
    have hm := op_meta p os op c s hs
    obtain ⟨bs1, r, e1, h1, h2⟩ := op_follows p os op c s hs
    simp only [aloneOps, Run.bind_apply, h1] at hal
    cases r with
    | error x => cases (Prod.mk.inj hal).1
    | ok u =>
      obtain ⟨bs2, r2, e2, h3⟩ := alone_shape p ops e1
      simp only [h3, List.nil_append] at hal
      have hr2 := (Prod.mk.inj hal).1
      subst hr2
      have hb := (Prod.mk.inj (Prod.mk.inj hal).2).2
      subst hb
      have hsum : (concatBlocks (bs1 ++ bs2)).length = (concatBlocks bs1).length + (concatBlocks bs2).length := by
        simp [concatBlocks]
      have hfeed := feed_fails (p := p) (os := os.data) bs1 (w := s.dataWriter) (bi := s.blockIndex) (by omega)
      rcases hr : op.run p os (c, s) with ⟨r1, c1, s1⟩
      rw [hr] at h2 hm
      simp only [runColOps, hr] at hf
      rcases hk : feed (blockSink p os.data) (s.dataWriter, s.blockIndex) bs1 with ⟨x | u, w, bi⟩
      · rw [hk] at h2 hfeed
        dsimp only at h2 hfeed
        subst h2 hfeed
        simp only [firstFault, Option.some.injEq] at hf
        exact hf.symm
      · rw [hk] at h2 hfeed
        obtain ⟨h4, h5, h6, _⟩ := h2
        dsimp only at h4 h5 h6 hfeed
        subst h4
        refine ih c1 s1 hm bs2 e2 (by rw [h5, h3, List.nil_append]) ?_ f hf
        rw [h6, hfeed]; omega

/-- How the calls end with a sink that only records. -/
def faultAlone (p : Profile) (ops : List ColOp) (e : BinaryEncoder) : Option Fault :=
  match (aloneOps p ops (e, [])).1 with
  | .ok () => none
  | .error f => some f

/-- Without faults of the file, the calls end as those with a sink that only records. -/
theorem calls_reliable {p : Profile} {os : SegmentOs} (hb : 0 < os.data.maxBuf) (hd : ∀ i, os.data.writes i = .done)
    (ops : List ColOp) : ∀ (c : ColumnWriter) (s : SegmentWriter), HasMeta s → s.dataWriter.file.lastErr = false →
    s.dataWriter.pos + (concatBlocks (aloneOps p ops (c.encoder, [])).2.2).length < 2 ^ 64 →
    firstFault (runColOps p os ops (c, s)).1 = faultAlone p ops c.encoder := by
  have hfeed : ∀ (bs : List (Nat × Bytes)) (w : Writer) (bi : BlockIndex), w.file.lastErr = false →
      w.pos + (concatBlocks bs).length < 2 ^ 64 →
      ∃ w' bi', feed (blockSink p os.data) (w, bi) bs = (.ok (), (w', bi')) ∧ w'.file.lastErr = false := by
    intro bs
    induction bs with
    | nil => intro w bi hl _; exact ⟨w, bi, rfl, hl⟩
    | cons b bs ih =>
      intro w bi hl hlt
      simp only [concatBlocks, List.map_cons, List.flatten_cons, List.length_append] at hlt ih
      have hp : p.add 64 w.pos b.2.length = .ok (w.pos + b.2.length) := by
        simp only [Profile.add]; rw [if_pos (by omega)]
      obtain ⟨f', hf⟩ := TokioFile.writeAllFuel_succeeds hb hd (src := b.2) (f := w.file) (Nat.le_refl _) hl
      have hw : Writer.writeBlock p os.data b.2 w = (.ok (), { file := f', pos := w.pos + b.2.length }) := by
        simp only [Writer.writeBlock, hp, Writer.onFile, TokioFile.writeAll, hf]
      obtain ⟨w', bi', h1, h2⟩ := ih { file := f', pos := w.pos + b.2.length }
        (bi.indexBlock b.1 (w.pos + b.2.length)) ((TokioFile.writeAll_ok hf).1 hl) (by dsimp only; omega)
      refine ⟨w', bi', ?_, h2⟩
      simp only [feed, blockSink, hw]
      exact h1
  induction ops with
  | nil => intro c s _ _ _; rfl
  | cons op ops ih =>
    intro c s hs hl hlt
    have hm := op_meta p os op c s hs
    obtain ⟨bs1, r, e1, h1, h2⟩ := op_follows p os op c s hs
    obtain ⟨bs2, r2, e2, h3⟩ := alone_shape p ops e1
    have hle : s.dataWriter.pos + (concatBlocks bs1).length < 2 ^ 64 ∧
        (r = .ok () → s.dataWriter.pos + (concatBlocks bs1).length + (concatBlocks bs2).length < 2 ^ 64) := by
      simp only [aloneOps, Run.bind_apply, h1] at hlt
      cases r with
      | error x => exact ⟨by simpa using hlt, fun h => by cases h⟩
      | ok u =>
        simp only [h3, List.nil_append] at hlt
        have hsum : (concatBlocks (bs1 ++ bs2)).length = (concatBlocks bs1).length + (concatBlocks bs2).length := by
          simp [concatBlocks]
        exact ⟨by omega, fun _ => by omega⟩
    obtain ⟨w, bi, hk, hl'⟩ := hfeed bs1 s.dataWriter s.blockIndex hl hle.1
    have hpos := feed_fails (p := p) (os := os.data) bs1 (w := s.dataWriter) (bi := s.blockIndex) hle.1
    rcases hr : op.run p os (c, s) with ⟨r1, c1, s1⟩
    rw [hr] at h2 hm
    rw [hk] at h2 hpos
    obtain ⟨h4, h5, h6, _⟩ := h2
    dsimp only at h4 h5 h6 hpos
    subst h4
    simp only [runColOps, hr]
    cases r1 with
    | error x => simp only [firstFault, faultAlone, aloneOps, Run.bind_apply, h1]
    | ok u =>
      have h7 := ih c1 s1 hm (by rw [h6]; exact hl') (by
        rw [h6, hpos, h5, h3, List.nil_append]; exact hle.2 rfl)
      simp only [firstFault]
      rw [h7, faultAlone, faultAlone, h5]
      simp only [aloneOps, Run.bind_apply, h1, h3]

/-- A new column writer has a new encoder. -/
theorem new_column {ci : ColumnInfo} (hraw : ci.encoding = .raw) {c : ColumnWriter} {s s1 : SegmentWriter}
    (h : SegmentWriter.newBinaryColumnWriter ci s = (.ok c, s1)) :
    c.encoder = .raw (BinaryEnc.Encoder.new BLOCK_SIZE ci.nullable) ∧ s1.segmentMeta = s.segmentMeta := by
  simp only [SegmentWriter.newBinaryColumnWriter, hraw, newBinaryEncoder] at h
  rw [← Except.ok.inj (Prod.mk.inj h).1, ← (Prod.mk.inj h).2]
  exact ⟨rfl, rfl⟩

theorem history_meta {p : Profile} {os : SegmentOs} {info : SegmentInfo} {before : List SegOp}
    {s0 s s1 : SegmentWriter} {rs : List SegResult} (hnew : SegmentWriter.new p os info = .ok s0)
    (hrun : runSeg p os before s0 = (rs, s)) (h : s1.segmentMeta = s.segmentMeta) : HasMeta s1 := by
  have h1 := seg_meta p os before s0 (new_meta hnew)
  rw [hrun] at h1
  rw [HasMeta, h]; exact h1

end WriterFails

/-- A column that the encoder alone does not get through is not written by any file. -/
theorem unencodable_fails {p : Profile} {os : SegmentOs} {info : SegmentInfo} {before : List SegOp}
    {s0 s s1 : SegmentWriter} {rs : List SegResult} (hnew : SegmentWriter.new p os info = .ok s0)
    (hrun : runSeg p os before s0 = (rs, s)) {ci : ColumnInfo} (hraw : ci.encoding = .raw) {c : ColumnWriter}
    (hcol : SegmentWriter.newBinaryColumnWriter ci s = (.ok c, s1)) {bs : List BinaryBuffer}
    (hno : ¬ ∃ e blocks, BinaryEnc.encodeColumn p recorder bs (BinaryEnc.Encoder.new BLOCK_SIZE ci.nullable, []) =
      (.ok (), (e, blocks))) :
    ∃ f, firstFault (runColOps p os (writeAllOps bs) (c, s1)).1 = some f := by
  obtain ⟨hc, hm⟩ := WriterFails.new_column hraw hcol
  rcases hf : firstFault (runColOps p os (writeAllOps bs) (c, s1)).1 with _ | f
  · obtain ⟨b, e', h1⟩ := WriterFails.calls_ok _ c s1 (WriterFails.history_meta hnew hrun hm) hf
    have h2 := h1 []
    rw [hc, aloneOps_raw] at h2
    rcases hr : BinaryEnc.encodeColumn p recorder bs (BinaryEnc.Encoder.new BLOCK_SIZE ci.nullable, []) with ⟨r, e2, l2⟩
    rw [hr] at h2
    have h3 := (Prod.mk.inj h2).1
    subst h3
    exact absurd ⟨e2, l2, hr⟩ hno
  · exact ⟨f, rfl⟩

/-- C113 as far as it holds, for a raw column in any segment and after any history of it, in both build profiles: if
the encoder gets through the column (`Spec.Completes`, and `Spec.columnEntries` for the rows that are counted) and the file
stays below 2^64 bytes, the first call that fails does so with an error of the file. -/
theorem C113_writer_fails_partial (p : Profile) (os : SegmentOs) (info : SegmentInfo) (before : List SegOp)
    (s0 s s1 : SegmentWriter) (rs : List SegResult) (hnew : SegmentWriter.new p os info = .ok s0)
    (hrun : runSeg p os before s0 = (rs, s)) (ci : ColumnInfo) (hraw : ci.encoding = .raw) (c : ColumnWriter)
    (hcol : SegmentWriter.newBinaryColumnWriter ci s = (.ok c, s1))
    (bufs : List (List (Option Bytes))) (bs : List BinaryBuffer) (hb : buildBinary ci.nullable bufs = .ok bs)
    (hlen : bufs.flatten.length < 2 ^ 32)
    (hpos : s1.dataWriter.pos + (concatBlocks (blocksAlone p ci (writeAllOps bs))).length < 2 ^ 64)
    (hcompletes : Completes BLOCK_SIZE [] (bufs.map valuesOf))
    (hcounted : ((columnEntries BLOCK_SIZE ci.nullable [] [] bufs).map (·.counted)).sum < 2 ^ 32) :
    ∀ f, firstFault (runColOps p os (writeAllOps bs) (c, s1)).1 = some f → f = .io := by
  obtain ⟨hc, hm⟩ := WriterFails.new_column hraw hcol
  obtain ⟨e, blocks, hr⟩ := (C33_binary_completes_exact p ci.nullable BLOCK_SIZE (by decide) bufs bs hb hlen (by decide)).1.mpr
    ⟨hcompletes, hcounted⟩
  rw [blocksAlone_raw p hraw, hr] at hpos
  have hal : aloneOps p (writeAllOps bs) (c.encoder, []) = (.ok (), (.raw e, blocks)) := by
    rw [hc, aloneOps_raw, hr]
  exact WriterFails.calls_io _ c s1 (WriterFails.history_meta hnew hrun hm) blocks _ hal hpos

/-- C113, exactly: with a file that has no faults, the calls for a raw column all return if and only if it is one that the
encoder gets through. Otherwise the first failure is the panic of the encoder; and with any other file one of the calls
fails as well. -/
theorem C113_writer_fails_exact (p : Profile) (os : SegmentOs) (info : SegmentInfo) (before : List SegOp)
    (s0 s s1 : SegmentWriter) (rs : List SegResult) (hnew : SegmentWriter.new p os info = .ok s0)
    (hrun : runSeg p os before s0 = (rs, s)) (ci : ColumnInfo) (hraw : ci.encoding = .raw) (c : ColumnWriter)
    (hcol : SegmentWriter.newBinaryColumnWriter ci s = (.ok c, s1))
    (bufs : List (List (Option Bytes))) (bs : List BinaryBuffer) (hb : buildBinary ci.nullable bufs = .ok bs)
    (hlen : bufs.flatten.length < 2 ^ 32) :
    (0 < os.data.maxBuf → (∀ i, os.data.writes i = .done) → s1.dataWriter.file.lastErr = false →
      s1.dataWriter.pos + (concatBlocks (blocksAlone p ci (writeAllOps bs))).length < 2 ^ 64 →
      (firstFault (runColOps p os (writeAllOps bs) (c, s1)).1 = none ↔ Completes BLOCK_SIZE [] (bufs.map valuesOf) ∧
        ((columnEntries BLOCK_SIZE ci.nullable [] [] bufs).map (·.counted)).sum < 2 ^ 32) ∧
      ∀ f, firstFault (runColOps p os (writeAllOps bs) (c, s1)).1 = some f →
        (BinaryEnc.encodeColumn p recorder bs (BinaryEnc.Encoder.new BLOCK_SIZE ci.nullable, [])).1 = .error f) ∧
    (¬ (Completes BLOCK_SIZE [] (bufs.map valuesOf) ∧
        ((columnEntries BLOCK_SIZE ci.nullable [] [] bufs).map (·.counted)).sum < 2 ^ 32) →
      ∃ f, firstFault (runColOps p os (writeAllOps bs) (c, s1)).1 = some f) := by
  obtain ⟨hc, hm⟩ := WriterFails.new_column hraw hcol
  have hex := (C33_binary_completes_exact p ci.nullable BLOCK_SIZE (by decide) bufs bs hb hlen (by decide)).1
  refine ⟨fun h1 h2 h3 hpos => ?_, fun h => unencodable_fails hnew hrun hraw hcol (fun hr => h (hex.mp hr))⟩
  have hpos' : s1.dataWriter.pos + (concatBlocks (aloneOps p (writeAllOps bs) (c.encoder, [])).2.2).length < 2 ^ 64 := by
    rw [hc, aloneOps_raw]
    rw [blocksAlone_raw p hraw] at hpos
    exact hpos
  have hk := WriterFails.calls_reliable h1 h2 _ c s1 (WriterFails.history_meta hnew hrun hm) h3 hpos'
  rw [hk, WriterFails.faultAlone, hc, aloneOps_raw]
  rcases hr : BinaryEnc.encodeColumn p recorder bs (BinaryEnc.Encoder.new BLOCK_SIZE ci.nullable, []) with ⟨f | u, e, l⟩
  · refine ⟨⟨fun h => by simp at h, fun h => ?_⟩, fun g hg => ?_⟩
    · obtain ⟨e1, l1, h4⟩ := hex.mpr h
      rw [hr] at h4; cases (Prod.mk.inj h4).1
    · simp only [Option.some.injEq] at hg ⊢
      rw [hg]
  · exact ⟨⟨fun _ => hex.mp ⟨e, l, hr⟩, fun _ => rfl⟩, fun g hg => by simp at hg⟩

/-- C113 is false of the code for every large column: in no segment, after no history, with no file and in neither build
profile is a raw column written in which one buffer has more than 33024 values, or 8320 bytes in values of at most 128 bytes. -/
theorem C113_writer_fails_violated (p : Profile) (os : SegmentOs) (info : SegmentInfo) (before : List SegOp)
    (s0 s s1 : SegmentWriter) (rs : List SegResult) (hnew : SegmentWriter.new p os info = .ok s0)
    (hrun : runSeg p os before s0 = (rs, s)) (ci : ColumnInfo) (hraw : ci.encoding = .raw) (c : ColumnWriter)
    (hcol : SegmentWriter.newBinaryColumnWriter ci s = (.ok c, s1))
    (bufs : List (List (Option Bytes))) (bs : List BinaryBuffer) (hb : buildBinary ci.nullable bufs = .ok bs)
    (hlen : bufs.flatten.length < 2 ^ 32) (b : List (Option Bytes)) (hmem : b ∈ bufs)
    (hlarge : 33024 < (valuesOf b).length ∨ (∀ v ∈ valuesOf b, v.length ≤ 128) ∧ 8320 ≤ byteCount b) :
    ∃ f, firstFault (runColOps p os (writeAllOps bs) (c, s1)).1 = some f := by
  refine unencodable_fails hnew hrun hraw hcol (fun ⟨e, blocks, hr⟩ => ?_)
  obtain ⟨f, t, h⟩ := C33_eight_kilobytes_violated p recorder [] ci.nullable bufs bs hb hlen b hmem hlarge
  rw [show BLOCK_SIZE = 128 from rfl] at hr
  rw [hr] at h
  cases (Prod.mk.inj h).1

/-- C113 holds of Snappy columns, whatever is written to them and however often they are closed, as long as the file stays below
2^64 bytes. (They store nothing of what they are given: C52.) -/
theorem C113_snappy_writer (p : Profile) (os : SegmentOs) (info : SegmentInfo) (before : List SegOp)
    (s0 s s1 : SegmentWriter) (rs : List SegResult) (hnew : SegmentWriter.new p os info = .ok s0)
    (hrun : runSeg p os before s0 = (rs, s)) (ci : ColumnInfo) (hsnappy : ci.encoding = .snappy) (c : ColumnWriter)
    (hcol : SegmentWriter.newBinaryColumnWriter ci s = (.ok c, s1)) (ops : List ColOp)
    (hpos : s1.dataWriter.pos + (concatBlocks (blocksAlone p ci ops)).length < 2 ^ 64) :
    ∀ f, firstFault (runColOps p os ops (c, s1)).1 = some f → f = .io := by
  have hal : ∀ (ops : List ColOp) (l : List (Nat × Bytes)), ∃ b, aloneOps p ops (.snappy, l) = (.ok (), (.snappy, b)) := by
    intro ops
    induction ops with
    | nil => intro l; exact ⟨l, by simp [aloneOps, Run.pure_apply]⟩
    | cons op ops ih =>
      intro l
      cases op with
      | write b =>
        obtain ⟨b2, h⟩ := ih (l ++ [(43243, SNAPPY_BLOCK)])
        exact ⟨b2, by simp only [aloneOps, ColOp.alone, BinaryEncoder.encode, Run.bind_apply, Run.get_apply,
          Run.emit_recorder, h]⟩
      | close =>
        obtain ⟨b2, h⟩ := ih l
        exact ⟨b2, by simp only [aloneOps, ColOp.alone, BinaryEncoder.flush, Run.bind_apply, Run.get_apply,
          Run.pure_apply, h]⟩
  simp only [SegmentWriter.newBinaryColumnWriter, hsnappy, newBinaryEncoder] at hcol
  have hc : c.encoder = .snappy := by rw [← Except.ok.inj (Prod.mk.inj hcol).1]
  have hm : s1.segmentMeta = s.segmentMeta := by rw [← (Prod.mk.inj hcol).2]
  obtain ⟨b, h⟩ := hal ops []
  simp only [blocksAlone, hsnappy, newBinaryEncoder, h] at hpos
  exact WriterFails.calls_io _ c s1 (WriterFails.history_meta hnew hrun hm) b .snappy (by rw [hc, h]) hpos

/-- What becomes of a column of two values of `n` bytes in a new segment. -/
def twoValues (os : SegmentOs) (n : Nat) : Option (Option Fault) :=
  match SegmentWriter.new .debug os exampleInfo, buildBinary false [[some (List.replicate n 7), some (List.replicate n 8)]] with
  | .ok s, .ok bs =>
    match SegmentWriter.newBinaryColumnWriter { exampleColumn "a" with nullable := false } s with
    | (.ok c, s1) => some (firstFault (runColOps .debug os (writeAllOps bs) (c, s1)).1)
    | _ => none
  | _, _ => none

/-- Not vacuous: two values of 100 bytes are written; with two of 128 bytes the writer panics; and when the file fails, the
failure of a column that can be encoded is an error of the file. -/
example : twoValues .reliable 100 = some none ∧ twoValues .reliable 128 = some (some (.panic .assertion)) ∧
    twoValues { data := .failsAt 8, index := .reliable } 100 = some (some .io) ∧
    Completes BLOCK_SIZE [] [[List.replicate 100 7, List.replicate 100 8]] ∧
    ¬ Completes BLOCK_SIZE [] [[List.replicate 128 7, List.replicate 128 8]] := by decide +kernel

end
end Meerkat
