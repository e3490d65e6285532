import Verif.Spec.Segment
import Verif.Proofs.TokioFile
import Verif.Proofs.EncoderHistory

set_option autoImplicit false

/-! # Facts about the block sink and the segment writer -/

namespace Meerkat

open TokioFile

/-! ## Writers -/

/-- No error is kept, the file with its pending write holds `data`, the position is its length as a `u64`,
and the last fsync left `sy`. -/
structure GoodWriter (w : Writer) (data : Bytes) (sy : Bytes := []) : Prop where
  err : w.file.lastErr = false
  content : w.file.content ++ w.file.pending = data
  pos : w.pos = data.length % 2 ^ 64
  synced : w.file.synced = sy

theorem GoodWriter.new {os : Os} {w : Writer} (h : Writer.new os = .ok w) : GoodWriter w [] := by
  simp only [Writer.new, TokioFile.create] at h
  split at h
  · rename_i heq; split at heq <;> cases heq; cases h; exact ⟨rfl, rfl, rfl, rfl⟩
  · cases h

theorem GoodWriter.write {p : Profile} {os : Os} {b : Bytes} {w w' : Writer} {data sy : Bytes}
    (hg : GoodWriter w data sy) (h : Writer.writeBlock p os b w = (.ok (), w')) :
    GoodWriter w' (data ++ b) sy := by
  simp only [Writer.writeBlock] at h
  rcases hp : p.add 64 w.pos b.length with e | n
  · rw [hp] at h; cases h
  · rw [hp] at h
    simp only [Writer.onFile] at h
    rcases h2 : writeAll os b w.file with ⟨r, f⟩
    simp only [h2] at h
    cases h
    obtain ⟨h3, _, h5, h6⟩ := writeAll_ok h2
    refine ⟨h3 hg.err, by rw [h5, hg.content], ?_, by rw [h6]; exact hg.synced⟩
    have hpos := hg.pos
    simp only [Profile.add] at hp
    rw [List.length_append]
    split at hp
    · cases hp; dsimp only; omega
    · cases p
      · cases hp
      · cases hp; dsimp only; omega

theorem GoodWriter.flush {os : Os} {w w' : Writer} {data sy : Bytes} (hg : GoodWriter w data sy)
    (h : Writer.flush os w = (.ok (), w')) :
    GoodWriter w' data sy ∧ w'.file.content = data ∧ w'.file.pending = [] := by
  simp only [Writer.flush, Writer.onFile] at h
  rcases h2 : TokioFile.flush os w.file with ⟨r, f⟩
  simp only [h2] at h
  cases h
  obtain ⟨_, h4, h5, h6, h7⟩ := flush_ok h2
  have hp : f.pending = [] := by simp [pending, h5]
  have hc : f.content = data := by rw [h4, hg.content]
  exact ⟨⟨h6, by rw [hp, hc]; simp, hg.pos, by rw [h7]; exact hg.synced⟩, hc, hp⟩

/-! ## The block sink -/

/-- The ends of blocks put one after the other from `n` on. -/
def blockEnds : Nat → List (Nat × Bytes) → List Nat
  | _, [] => []
  | n, b :: bs => (n + b.2.length) :: blockEnds (n + b.2.length) bs

theorem feed_sink {p : Profile} {os : Os} {bs : List (Nat × Bytes)} {w w' : Writer} {bi bi' : BlockIndex}
    {data sy : Bytes} (hg : GoodWriter w data sy) (h : feed (blockSink p os) (w, bi) bs = (.ok (), (w', bi'))) :
    GoodWriter w' (data ++ concatBlocks bs) sy ∧ bi'.blockRowId = bi.blockRowId ++ bs.map Prod.fst ∧
    bi'.blockOffset = bi.blockOffset ++ (blockEnds data.length bs).map (· % 2 ^ 64) := by
  induction bs generalizing w bi data with
  | nil => cases h; simpa [concatBlocks, blockEnds] using hg
  | cons b bs ih =>
    simp only [feed, blockSink] at h
    rcases h1 : Writer.writeBlock p os b.2 w with ⟨x | x, w1⟩
    · simp only [h1] at h; cases (Prod.mk.inj h).1
    · have hg1 := hg.write h1
      simp only [h1] at h
      obtain ⟨h3, h4, h5⟩ := ih hg1 h
      refine ⟨by simpa [concatBlocks] using h3, by simpa [BlockIndex.indexBlock] using h4, ?_⟩
      rw [h5]
      simp [BlockIndex.indexBlock, blockEnds, hg1.pos]

theorem blockEnds_length (n : Nat) (bs : List (Nat × Bytes)) : (blockEnds n bs).length = bs.length := by
  induction bs generalizing n with
  | nil => rfl
  | cons b bs ih => simp [blockEnds, ih]

theorem blockEnds_mod {n : Nat} {bs : List (Nat × Bytes)} (h : n + (concatBlocks bs).length < 2 ^ 64) :
    (blockEnds n bs).map (· % 2 ^ 64) = blockEnds n bs := by
  induction bs generalizing n with
  | nil => rfl
  | cons b bs ih =>
    simp only [concatBlocks, List.map_cons, List.flatten_cons, List.length_append] at h
    simp only [blockEnds, List.map_cons]
    rw [Nat.mod_eq_of_lt (by omega), ih (by simp only [concatBlocks]; omega)]

theorem blockEnds_brackets (pre post : Bytes) (bs : List (Nat × Bytes)) :
    Brackets (pre ++ concatBlocks bs ++ post) pre.length ((bs.map Prod.fst).zip (blockEnds pre.length bs)) bs := by
  induction bs generalizing pre with
  | nil => simp [Brackets, blockEnds]
  | cons b bs ih =>
    simp only [List.map_cons, blockEnds, List.zip_cons_cons, Brackets, concatBlocks, List.flatten_cons]
    refine ⟨trivial, by omega, by simp [List.length_append], by simp, ?_⟩
    have := ih (pre ++ b.2)
    simpa [concatBlocks] using this

/-! ## The boxed encoder -/

variable {S : Type}

theorem onRaw_follows {α : Type} {k : Sink S} {e : BinaryEnc.Encoder} {m : Run (BinaryEnc.Encoder × S) α}
    {mr : Run (BinaryEnc.Encoder × List (Nat × Bytes)) α} (h : Follows k m mr) :
    ∃ bs r e', (∀ (b : BinaryEncoder) l, BinaryEncoder.onRaw e mr (b, l) = (r, (e', l ++ bs))) ∧
    ∀ (b : BinaryEncoder) s, match feed k s bs with
      | (.ok (), s') => BinaryEncoder.onRaw e m (b, s) = (r, (e', s'))
      | (.error f, s') => ∃ e'', BinaryEncoder.onRaw e m (b, s) = (.error f, (e'', s')) := by
  obtain ⟨bs, r, e', h1, h2⟩ := h e
  refine ⟨bs, r, .raw e', fun b l => by simp only [BinaryEncoder.onRaw, h1], fun b s => ?_⟩
  have := h2 s
  rcases hf : feed k s bs with ⟨x | x, s'⟩
  · rw [hf] at this
    obtain ⟨e'', he⟩ := this
    exact ⟨.raw e'', by simp only [BinaryEncoder.onRaw, he]⟩
  · rw [hf] at this
    simp only [BinaryEncoder.onRaw]
    rw [this]

theorem BinaryEncoder.encode_follows (p : Profile) (k : Sink S) (buf : BinaryBuffer) :
    Follows k (BinaryEncoder.encode p k buf) (BinaryEncoder.encode p recorder buf) := by
  intro e
  cases e with
  | raw e =>
    obtain ⟨bs, r, e', h1, h2⟩ := onRaw_follows (e := e) (BinaryEnc.encode_follows p k buf)
    exact ⟨bs, r, e', fun l => h1 _ l, fun s => h2 _ s⟩
  | snappy => exact Follows.emit (E := BinaryEncoder) 43243 SNAPPY_BLOCK .snappy

theorem BinaryEncoder.flush_follows (p : Profile) (k : Sink S) :
    Follows k (BinaryEncoder.flush p k) (BinaryEncoder.flush p recorder) := by
  intro e
  cases e with
  | raw e =>
    obtain ⟨bs, r, e', h1, h2⟩ := onRaw_follows (e := e) (BinaryEnc.flush_follows p k)
    refine ⟨bs, r.map (fun _ => EncoderLayout.plain), e', fun l => ?_, fun s => ?_⟩
    · simp only [BinaryEncoder.flush, Run.bind_apply, Run.get_apply, h1]
      cases r <;> rfl
    · have := h2 (.raw e) s
      rcases hf : feed k s bs with ⟨x | x, s'⟩
      · rw [hf] at this
        obtain ⟨e'', he⟩ := this
        exact ⟨e'', by simp only [BinaryEncoder.flush, Run.bind_apply, Run.get_apply, he]⟩
      · rw [hf] at this
        simp only [BinaryEncoder.flush, Run.bind_apply, Run.get_apply]
        rw [this]
        cases r <;> rfl
  | snappy => exact Follows.pure (E := BinaryEncoder) EncoderLayout.snappy .snappy

/-- A successful call offered its blocks and the sink accepted them. -/
theorem Follows.ok {E α : Type} {k : Sink S} {m : Run (E × S) α} {mr : Run (E × List (Nat × Bytes)) α}
    (h : Follows k m mr) {e e' : E} {s s' : S} {a : α} (hm : m (e, s) = (.ok a, (e', s'))) :
    ∃ bs, (∀ l, mr (e, l) = (.ok a, (e', l ++ bs))) ∧ feed k s bs = (.ok (), s') := by
  obtain ⟨bs, r, e1, h1, h2⟩ := h e
  have := h2 s
  rcases hf : feed k s bs with ⟨x | x, s1⟩
  · rw [hf] at this
    obtain ⟨e'', he⟩ := this
    rw [hm] at he; cases he
  · rw [hf] at this
    rw [hm] at this
    cases this
    exact ⟨bs, h1, hf⟩

/-! ## Column writers -/

theorem onSink_eq {α : Type} {m : Run (BinaryEncoder × (Writer × BlockIndex)) α} {c c' : ColumnWriter}
    {s s' : SegmentWriter} {r : Except Fault α} (h : ColumnWriter.onSink m (c, s) = (r, (c', s'))) :
    m (c.encoder, (s.dataWriter, s.blockIndex)) = (r, (c'.encoder, (s'.dataWriter, s'.blockIndex))) ∧
    c'.columnInfo = c.columnInfo ∧ s'.indexWriter = s.indexWriter ∧ s'.segmentMeta = s.segmentMeta := by
  simp only [ColumnWriter.onSink] at h
  rcases hm : m (c.encoder, (s.dataWriter, s.blockIndex)) with ⟨r1, e1, w1, b1⟩
  simp only [hm] at h
  cases h
  exact ⟨rfl, rfl, rfl, rfl⟩

/-- What a successful close does. -/
theorem close_ok {p : Profile} {os : SegmentOs} {c c' : ColumnWriter} {s s' : SegmentWriter}
    (h : ColumnWriter.close p os (c, s) = (.ok (), (c', s'))) :
    ∃ layout, BinaryEncoder.flush p (blockSink p os.data) (c.encoder, (s.dataWriter, s.blockIndex)) =
        (.ok layout, (c'.encoder, (s'.dataWriter, s'.blockIndex))) ∧
      c'.columnInfo = c.columnInfo ∧ s'.indexWriter = s.indexWriter ∧
      ColumnWriter.insertColumn s.segmentMeta c.columnInfo.name (ColumnWriter.columnMeta c.columnInfo)
        { blockIndexLayout := some { range := some { start := 0, «end» := 0 } }, columnIndexLayout := none,
          encoderLayout := some layout } = .ok s'.segmentMeta := by
  simp only [ColumnWriter.close, Run.bind_apply] at h
  rcases h1 : ColumnWriter.onSink (BinaryEncoder.flush p (blockSink p os.data)) (c, s) with ⟨x | layout, c1, s1⟩
  · simp only [h1] at h; cases h
  · simp only [h1] at h
    obtain ⟨h2, h3, h4, h5⟩ := onSink_eq h1
    simp only [ColumnWriter.flushBlockIndex, BlockIndex.flush, Run.pure_apply, ColumnWriter.recordColumn] at h
    split at h
    · rename_i m hm
      cases h
      rw [h3, h5] at hm
      exact ⟨layout, h2, h3, h4, hm⟩
    · cases h

/-- What a close that fails does to the metadata and the index file: nothing. -/
theorem close_error {p : Profile} {os : SegmentOs} {c c' : ColumnWriter} {s s' : SegmentWriter} {f : Fault}
    (h : ColumnWriter.close p os (c, s) = (.error f, (c', s'))) :
    c'.columnInfo = c.columnInfo ∧ s'.segmentMeta = s.segmentMeta := by
  simp only [ColumnWriter.close, Run.bind_apply] at h
  rcases h1 : ColumnWriter.onSink (BinaryEncoder.flush p (blockSink p os.data)) (c, s) with ⟨x | layout, c1, s1⟩
  · obtain ⟨_, h3, _, h5⟩ := onSink_eq h1
    simp only [h1] at h; cases h
    exact ⟨h3, h5⟩
  · simp only [h1] at h
    obtain ⟨h2, h3, h4, h5⟩ := onSink_eq h1
    simp only [ColumnWriter.flushBlockIndex, BlockIndex.flush, Run.pure_apply, ColumnWriter.recordColumn] at h
    split at h
    · cases h
    · cases h; exact ⟨h3, h5⟩

/-- The `bs` a list of successful column calls offers, and what becomes of the segment. -/
theorem colOps_ok {p : Profile} {os : SegmentOs} (ops : List ColOp) {c : ColumnWriter} {s : SegmentWriter}
    (hok : ∀ x ∈ (runColOps p os ops (c, s)).1, x.2 = .ok ()) {data : Bytes} (hg : GoodWriter s.dataWriter data) :
    ∃ bs e', (∀ l, aloneOps p ops (c.encoder, l) = (.ok (), (e', l ++ bs))) ∧
      GoodWriter (runColOps p os ops (c, s)).2.2.dataWriter (data ++ concatBlocks bs) ∧
      (runColOps p os ops (c, s)).2.2.blockIndex.blockRowId = s.blockIndex.blockRowId ++ bs.map Prod.fst ∧
      (runColOps p os ops (c, s)).2.2.blockIndex.blockOffset =
        s.blockIndex.blockOffset ++ (blockEnds data.length bs).map (· % 2 ^ 64) ∧
      (runColOps p os ops (c, s)).2.2.indexWriter = s.indexWriter := by
  induction ops generalizing c s data with
  | nil => exact ⟨[], c.encoder, fun l => by simp [aloneOps, Run.pure_apply],
      by simpa [runColOps, concatBlocks] using hg, by simp [runColOps], by simp [runColOps, blockEnds], rfl⟩
  | cons op ops ih =>
    rcases h1 : op.run p os (c, s) with ⟨r, c1, s1⟩
    simp only [runColOps, h1] at hok ⊢
    obtain rfl : r = .ok () := hok (op, r) (by simp)
    have hrest : ∀ x ∈ (runColOps p os ops (c1, s1)).1, x.2 = .ok () := fun x hx => hok x (by simp [hx])
    -- one call
    obtain ⟨bs1, h2, h3, h4⟩ : ∃ bs, (∀ l, op.alone p (c.encoder, l) = (.ok (), (c1.encoder, l ++ bs))) ∧
        feed (blockSink p os.data) (s.dataWriter, s.blockIndex) bs = (.ok (), (s1.dataWriter, s1.blockIndex)) ∧
        s1.indexWriter = s.indexWriter := by
      cases op with
      | write b =>
        obtain ⟨h2, _, h3, _⟩ := onSink_eq (show ColumnWriter.onSink _ (c, s) = _ from h1)
        obtain ⟨bs, h4, h5⟩ := (BinaryEncoder.encode_follows p (blockSink p os.data) b).ok h2
        exact ⟨bs, h4, h5, h3⟩
      | close =>
        obtain ⟨layout, h2, _, h3, _⟩ := close_ok h1
        obtain ⟨bs, h4, h5⟩ := (BinaryEncoder.flush_follows p (blockSink p os.data)).ok h2
        exact ⟨bs, fun l => by simp only [ColOp.alone, Run.bind_apply, h4, Run.pure_apply], h5, h3⟩
    obtain ⟨hg1, hr1, ho1⟩ := feed_sink hg h3
    obtain ⟨bs2, e2, h5, h6, h7, h8, h9⟩ := ih hrest hg1
    refine ⟨bs1 ++ bs2, e2, fun l => ?_, ?_, ?_, ?_, by rw [h9, h4]⟩
    · simp only [aloneOps, Run.bind_apply, h2, h5, List.append_assoc]
    · simpa [concatBlocks] using h6
    · rw [h7, hr1]; simp
    · rw [h8, ho1]
      have key : ∀ (n : Nat) (a b : List (Nat × Bytes)),
          blockEnds n (a ++ b) = blockEnds n a ++ blockEnds (n + (concatBlocks a).length) b := by
        intro n a
        induction a generalizing n with
        | nil => intro b; simp [blockEnds, concatBlocks]
        | cons x a iha => intro b; simp [blockEnds, iha, concatBlocks, Nat.add_assoc]
      rw [key]; simp

/-! ## Segments -/

theorem onIndex_ok {α : Type} {m : Run Writer α} {s s' : SegmentWriter} {a : α}
    (h : SegmentWriter.onIndex m s = (.ok a, s')) :
    m s.indexWriter = (.ok a, s'.indexWriter) ∧ s' = { s with indexWriter := s'.indexWriter } := by
  simp only [SegmentWriter.onIndex] at h
  rcases h1 : m s.indexWriter with ⟨r, w⟩
  simp only [h1] at h
  cases h
  exact ⟨rfl, rfl⟩

theorem onData_ok {α : Type} {m : Run Writer α} {s s' : SegmentWriter} {a : α}
    (h : SegmentWriter.onData m s = (.ok a, s')) :
    m s.dataWriter = (.ok a, s'.dataWriter) ∧ s' = { s with dataWriter := s'.dataWriter } := by
  simp only [SegmentWriter.onData] at h
  rcases h1 : m s.dataWriter with ⟨r, w⟩
  simp only [h1] at h
  cases h
  exact ⟨rfl, rfl⟩

theorem bind_inv {σ α β : Type} {m : Run σ α} {f : α → Run σ β} {s s' : σ} {b : β}
    (h : (m >>= f) s = (.ok b, s')) : ∃ a s1, m s = (.ok a, s1) ∧ f a s1 = (.ok b, s') := by
  rcases h1 : m s with ⟨x | a, s1⟩
  · rw [Run.bind_error h1] at h; cases h
  · rw [Run.bind_ok h1] at h; exact ⟨a, s1, rfl, h⟩

theorem new_ok {p : Profile} {os : SegmentOs} {info : SegmentInfo} {s : SegmentWriter}
    (h : SegmentWriter.new p os info = .ok s) :
    GoodWriter s.indexWriter INDEX_FILE_SIGNATURE ∧ GoodWriter s.dataWriter DATA_FILE_SIGNATURE ∧
    ∃ d i, s.segmentMeta = (SegmentWriter.initial info d i).segmentMeta ∧ s.blockIndex = BlockIndex.new := by
  simp only [SegmentWriter.new] at h
  rcases h1 : Writer.new os.index with x | iw
  · rw [h1] at h; cases h
  rcases h2 : Writer.new os.data with x | dw
  · rw [h1, h2] at h; cases h
  rw [h1, h2] at h
  simp only [ok_bind] at h
  rcases h3 : SegmentWriter.writeHeaders p os (SegmentWriter.initial info dw iw) with ⟨x | x, s1⟩
  · rw [h3] at h; cases h
  rw [h3] at h
  cases h
  obtain ⟨_, s2, h4, h5⟩ := bind_inv h3
  obtain ⟨h6, h7⟩ := onIndex_ok h4
  obtain ⟨h8, h9⟩ := onData_ok h5
  have g1 := (GoodWriter.new h1).write h6
  have hd : s2.dataWriter = dw := by rw [h7]; rfl
  rw [hd] at h8
  have g2 := (GoodWriter.new h2).write h8
  refine ⟨?_, g2, dw, iw, ?_, ?_⟩
  · rw [h9]; exact g1
  · rw [h9, h7]
  · rw [h9, h7]; rfl

/-- What a successful close of the segment does. -/
theorem segClose_ok {p : Profile} {os : SegmentOs} {order : HashOrder} {s s' : SegmentWriter}
    (h : SegmentWriter.close p os order s = (.ok (), s')) {idata data : Bytes}
    (hi : GoodWriter s.indexWriter idata) (hd : GoodWriter s.dataWriter data) :
    GoodWriter s'.indexWriter (idata ++ Prost.encodeMetadata (order.apply s.segmentMeta) ++
      SegmentWriter.leBytes64 s.indexWriter.pos) ∧
    s'.indexWriter.file.content = idata ++ Prost.encodeMetadata (order.apply s.segmentMeta) ++
      SegmentWriter.leBytes64 s.indexWriter.pos ∧
    s'.indexWriter.file.pending = [] ∧
    GoodWriter s'.dataWriter data ∧ s'.dataWriter.file.content = data ∧ s'.dataWriter.file.pending = [] ∧
    s'.segmentMeta = s.segmentMeta ∧ s'.blockIndex = s.blockIndex := by
  simp only [SegmentWriter.close] at h
  obtain ⟨_, s1, h1, h⟩ := bind_inv h
  obtain ⟨_, s2, h2, h⟩ := bind_inv h
  obtain ⟨_, s3, h3, h4⟩ := bind_inv h
  obtain ⟨a1, b1⟩ := onIndex_ok h1
  obtain ⟨a2, b2⟩ := onIndex_ok h2
  obtain ⟨a3, b3⟩ := onIndex_ok h3
  obtain ⟨a4, b4⟩ := onData_ok h4
  have g1 := hi.write a1
  have g2 := g1.write a2
  obtain ⟨g3, c3, p3⟩ := g2.flush a3
  have hd3 : s3.dataWriter = s.dataWriter := by rw [b3, b2, b1]
  rw [hd3] at a4
  obtain ⟨g4, c4, p4⟩ := hd.flush a4
  have hix : s'.indexWriter = s3.indexWriter := by rw [b4]
  refine ⟨by rw [hix]; exact g3, by rw [hix]; exact c3, by rw [hix]; exact p3, g4, c4, p4, ?_, ?_⟩
  · rw [b4, b3, b2, b1]
  · rw [b4, b3, b2, b1]

/-- The data file after a good history. -/
theorem runSeg_data {p : Profile} {os : SegmentOs} (ops : List SegOp) {s : SegmentWriter}
    (hok : ∀ x ∈ (runSeg p os ops s).1, x.Good) {data idata : Bytes} (hg : GoodWriter s.dataWriter data)
    (hi : GoodWriter s.indexWriter idata) :
    GoodWriter (runSeg p os ops s).2.dataWriter (data ++ columnBytes p ops) ∧
    ∃ more, GoodWriter (runSeg p os ops s).2.indexWriter (idata ++ more) := by
  induction ops generalizing s data idata with
  | nil => exact ⟨by simpa [runSeg, columnBytes] using hg, [], by simpa [runSeg] using hi⟩
  | cons op ops ih =>
    rcases h1 : op.run p os s with ⟨r, s1⟩
    simp only [runSeg, h1] at hok ⊢
    have hr : r.Good := hok r (by simp)
    have hrest : ∀ x ∈ (runSeg p os ops s1).1, x.Good := fun x hx => hok x (by simp [hx])
    cases op with
    | column info cops =>
      simp only [SegOp.run, SegmentWriter.newBinaryColumnWriter] at h1
      rcases he : newBinaryEncoder info.encoding BLOCK_SIZE info.nullable with f | e
      · simp only [he] at h1
        cases h1
        have := ih hrest (data := data) (idata := idata) hg hi
        simpa [columnBytes, blocksAlone, he, concatBlocks] using this
      · simp only [he] at h1
        rcases h2 : runColOps p os cops ({ columnInfo := info, encoder := e },
          { s with blockIndex := s.blockIndex.clear }) with ⟨rs, c2, s2⟩
        simp only [h2] at h1
        cases h1
        obtain ⟨bs, e', h3, h4, _, _, h7⟩ := colOps_ok (p := p) (os := os) cops
          (c := { columnInfo := info, encoder := e }) (s := { s with blockIndex := s.blockIndex.clear })
          (by rw [h2]; exact hr) hg
        rw [h2] at h4 h7
        dsimp only at h4 h7
        have hb : blocksAlone p info cops = bs := by
          simp only [blocksAlone, he, h3, List.nil_append]
        have hi2 : GoodWriter s1.indexWriter idata := by rw [h7]; exact hi
        have := ih hrest h4 hi2
        simpa [columnBytes, hb] using this
    | close order =>
      simp only [SegOp.run] at h1
      rcases h2 : SegmentWriter.close p os order s with ⟨r2, s2⟩
      simp only [h2] at h1
      cases h1
      obtain rfl : r2 = .ok () := hr
      obtain ⟨h3, _, _, h4, _⟩ := segClose_ok h2 hi hg
      obtain ⟨h5, more, h6⟩ := ih hrest h4 h3
      exact ⟨by simpa [columnBytes] using h5, _, by simpa only [List.append_assoc] using h6⟩

theorem runSeg_append (p : Profile) (os : SegmentOs) (a b : List SegOp) (s : SegmentWriter) :
    runSeg p os (a ++ b) s =
      ((runSeg p os a s).1 ++ (runSeg p os b (runSeg p os a s).2).1, (runSeg p os b (runSeg p os a s).2).2) := by
  induction a generalizing s with
  | nil => rfl
  | cons op a ih => simp only [List.cons_append, runSeg, ih]

end Meerkat
