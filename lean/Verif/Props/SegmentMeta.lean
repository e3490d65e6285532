import Verif.Props.Segment

set_option autoImplicit false

/-! # Segment metadata: C48, C51, C53 -/

namespace Meerkat

/-! ## Hash maps -/

theorem StringMap.get_insert {V : Type} (m : StringMap V) (k k' : String) (v : V) :
    (m.insert k v).get k' = if k' = k then some v else m.get k' := by
  simp only [StringMap.insert, StringMap.get, List.find?_append]
  by_cases h : k' = k
  · subst h
    have : (m.filter (fun e => decide (e.1 ≠ k'))).find? (fun e => decide (e.1 = k')) = none := by
      rw [List.find?_eq_none]; intro x hx; simpa using (List.mem_filter.1 hx).2
    rw [this]
    simp
  · have : (m.filter (fun e => decide (e.1 ≠ k))).find? (fun e => decide (e.1 = k')) =
        m.find? (fun e => decide (e.1 = k')) := by
      rw [List.find?_filter]
      congr 1
      funext e
      by_cases he : e.1 = k'
      · simp [he, h]
      · simp [he]
    rw [this, if_neg h]
    have h2 : ¬ k = k' := fun e => h e.symm
    simp [h2]

theorem StringMap.insert_nodup {V : Type} {m : StringMap V} (k : String) (v : V) (h : (m.map Prod.fst).Nodup) :
    ((m.insert k v).map Prod.fst).Nodup := by
  simp only [StringMap.insert, List.map_append, List.map_cons, List.map_nil]
  rw [List.nodup_append]
  refine ⟨h.sublist (List.Sublist.map _ List.filter_sublist), by simp, ?_⟩
  intro a ha b hb
  simp only [List.mem_singleton] at hb
  simp only [List.mem_map, List.mem_filter] at ha
  obtain ⟨e, ⟨_, he⟩, rfl⟩ := ha
  simp at he
  rw [hb]; exact he

/-! ## The kind of an encoder never changes -/

theorem BinaryEncoder.encode_kind {S : Type} {p : Profile} {k : Sink S} {b : BinaryBuffer} {e e' : BinaryEncoder}
    {s s' : S} {r : Except Fault Unit} (h : BinaryEncoder.encode p k b (e, s) = (r, (e', s'))) :
    e' = .snappy ↔ e = .snappy := by
  simp only [BinaryEncoder.encode, Run.bind_apply, Run.get_apply] at h
  cases e with
  | raw e =>
    simp only [BinaryEncoder.onRaw] at h
    cases h
    simp
  | snappy =>
    simp only [Run.emit] at h
    cases h
    simp

theorem BinaryEncoder.flush_kind {S : Type} {p : Profile} {k : Sink S} {e e' : BinaryEncoder}
    {s s' : S} {r : Except Fault EncoderLayout} (h : BinaryEncoder.flush p k (e, s) = (r, (e', s'))) :
    (e' = .snappy ↔ e = .snappy) ∧ ∀ l, r = .ok l → (e = .snappy ∧ l = .snappy ∨ e ≠ .snappy ∧ l = .plain) := by
  simp only [BinaryEncoder.flush, Run.bind_apply, Run.get_apply] at h
  cases e with
  | raw e =>
    rcases h1 : BinaryEnc.flush p k (e, s) with ⟨x | x, e1, s1⟩
    · simp only [Run.bind_apply, BinaryEncoder.onRaw, h1] at h; cases h; simp
    · simp only [Run.bind_apply, BinaryEncoder.onRaw, h1, Run.pure_apply] at h; cases h; simp
  | snappy =>
    simp only [Run.pure_apply] at h
    cases h
    simp

/-! ## C48 -/

/-- The metadata after the columns `closed` were closed. -/
structure MetaInv (info : SegmentInfo) (closed : List ColumnInfo) (md : Metadata) (m : SegmentMeta) : Prop where
  present : md.segmentMeta = some m
  segmentId : m.segmentId = info.segmentId
  databaseName : m.databaseName = info.databaseName
  tableName : m.tableName = info.tableName
  shardId : m.shardId = info.shardId
  numRows : m.numRows = info.numRows
  compressedSize : m.compressedSize = 0
  uncompressedSize : m.uncompressedSize = 0
  nodupMeta : (m.columnsMeta.map Prod.fst).Nodup
  nodupLayout : (md.columnsLayout.map Prod.fst).Nodup
  entries : ∀ name, match closed.reverse.find? (fun i => i.name = name) with
    | none => m.columnsMeta.get name = none ∧ md.columnsLayout.get name = none
    | some ci => ∃ cm cl, m.columnsMeta.get name = some cm ∧ md.columnsLayout.get name = some cl ∧
        DescribesColumn ci cm ∧ LaysOut ci cl

/-- A column writer whose encoder is of the kind its description says. -/
def ColumnWriter.KindOk (c : ColumnWriter) : Prop := c.encoder = .snappy ↔ c.columnInfo.encoding = .snappy

theorem describes_columnMeta (ci : ColumnInfo) : DescribesColumn ci (ColumnWriter.columnMeta ci) := by
  refine ⟨rfl, ?_, rfl, ?_, ?_⟩ <;> dsimp only [ColumnWriter.columnMeta]
  · cases ci.columnType <;> decide
  · cases ci.encoding <;> decide
  · cases ci.indexType <;> decide

theorem MetaInv.insert {info : SegmentInfo} {closed : List ColumnInfo} {md md' : Metadata} {m : SegmentMeta}
    (hi : MetaInv info closed md m) {ci : ColumnInfo} {cl : ColumnLayout} (hl : LaysOut ci cl)
    (h : ColumnWriter.insertColumn md ci.name (ColumnWriter.columnMeta ci) cl = .ok md') :
    ∃ m', MetaInv info (closed ++ [ci]) md' m' := by
  simp only [ColumnWriter.insertColumn, hi.present] at h
  cases h
  refine ⟨_, rfl, hi.segmentId, hi.databaseName, hi.tableName, hi.shardId, hi.numRows, hi.compressedSize,
    hi.uncompressedSize, StringMap.insert_nodup _ _ hi.nodupMeta, StringMap.insert_nodup _ _ hi.nodupLayout, ?_⟩
  intro name
  simp only [List.reverse_append, List.reverse_cons, List.reverse_nil, List.nil_append, List.cons_append,
    List.find?_cons]
  by_cases hn : ci.name = name
  · subst hn
    simp only [decide_true, StringMap.get_insert]
    exact ⟨_, _, rfl, rfl, describes_columnMeta ci, hl⟩
  · have hn' : ¬ name = ci.name := fun e => hn e.symm
    simp only [hn, decide_false, StringMap.get_insert, if_neg hn']
    exact hi.entries name

theorem colOps_meta {p : Profile} {os : SegmentOs} {info : SegmentInfo} (ops : List ColOp) {c : ColumnWriter}
    {s : SegmentWriter} {closed : List ColumnInfo} {m : SegmentMeta} (hk : c.KindOk)
    (hi : MetaInv info closed s.segmentMeta m) :
    ∃ m', MetaInv info (closed ++ goodCloses c.columnInfo (runColOps p os ops (c, s)).1)
      (runColOps p os ops (c, s)).2.2.segmentMeta m' := by
  induction ops generalizing c s closed m with
  | nil => exact ⟨m, by simpa [runColOps, goodCloses] using hi⟩
  | cons op ops ih =>
    rcases h1 : op.run p os (c, s) with ⟨r, c1, s1⟩
    simp only [runColOps, h1]
    cases op with
    | write b =>
      obtain ⟨h2, h3, _, h5⟩ := onSink_eq (show ColumnWriter.onSink _ (c, s) = _ from h1)
      have hk1 : c1.KindOk := by
        rw [ColumnWriter.KindOk, h3, BinaryEncoder.encode_kind h2]; exact hk
      obtain ⟨m', h6⟩ := ih (c := c1) (s := s1) hk1 (by rw [h5]; exact hi)
      rw [h3] at h6
      exact ⟨m', by simpa [goodCloses] using h6⟩
    | close =>
      rcases r with f | r
      · obtain ⟨h3, h5⟩ := close_error h1
        have hk1 : c1.KindOk := by
          have h1' := h1
          simp only [ColOp.run, ColumnWriter.close, Run.bind_apply] at h1'
          rcases h6 : ColumnWriter.onSink (BinaryEncoder.flush p (blockSink p os.data)) (c, s) with ⟨x | l, c2, s2⟩
          · simp only [h6] at h1'
            cases h1'
            obtain ⟨h7, h8, _, _⟩ := onSink_eq h6
            rw [ColumnWriter.KindOk, h8, (BinaryEncoder.flush_kind h7).1]; exact hk
          · simp only [h6, ColumnWriter.flushBlockIndex, BlockIndex.flush, Run.pure_apply,
              ColumnWriter.recordColumn] at h1'
            obtain ⟨h7, h8, _, _⟩ := onSink_eq h6
            have h9 : c1 = c2 := by
              split at h1' <;> cases h1'; rfl
            rw [ColumnWriter.KindOk, h9, h8, (BinaryEncoder.flush_kind h7).1]; exact hk
        obtain ⟨m', h6⟩ := ih (c := c1) (s := s1) hk1 (by rw [h5]; exact hi)
        rw [h3] at h6
        exact ⟨m', by simpa [goodCloses] using h6⟩
      · obtain ⟨l, h2, h3, _, h5⟩ := close_ok h1
        obtain ⟨h6, h7⟩ := BinaryEncoder.flush_kind h2
        have hk1 : c1.KindOk := by rw [ColumnWriter.KindOk, h3, h6]; exact hk
        have hl : LaysOut c.columnInfo ⟨some ⟨some ⟨0, 0⟩⟩, none, some l⟩ := by
          refine ⟨rfl, ?_, rfl⟩
          dsimp only
          rcases h7 l rfl with ⟨a, b⟩ | ⟨a, b⟩
          · rw [if_pos (hk.1 a), b]
          · rw [if_neg (fun e => a (hk.2 e)), b]
        obtain ⟨m1, h8⟩ := hi.insert hl h5
        obtain ⟨m', h9⟩ := ih (c := c1) (s := s1) hk1 h8
        rw [h3] at h9
        exact ⟨m', by simpa [goodCloses] using h9⟩

theorem segClose_meta {p : Profile} {os : SegmentOs} {order : HashOrder} (s : SegmentWriter) :
    (SegmentWriter.close p os order s).2.segmentMeta = s.segmentMeta := by
  have hix : ∀ (m : Run Writer Unit) (s : SegmentWriter), (SegmentWriter.onIndex m s).2.segmentMeta = s.segmentMeta :=
    fun _ _ => rfl
  have hdt : ∀ (m : Run Writer Unit) (s : SegmentWriter), (SegmentWriter.onData m s).2.segmentMeta = s.segmentMeta :=
    fun _ _ => rfl
  have hbind : ∀ {α β : Type} (m : Run SegmentWriter α) (f : α → Run SegmentWriter β) (md : Metadata),
      (∀ s, s.segmentMeta = md → (m s).2.segmentMeta = md) →
      (∀ a s, s.segmentMeta = md → (f a s).2.segmentMeta = md) →
      ∀ s, s.segmentMeta = md → ((m >>= f) s).2.segmentMeta = md := by
    intro α β m f md hm hf s hs
    have := hm s hs
    rcases h1 : m s with ⟨x | a, s1⟩
    · rw [Run.bind_error h1]; rw [h1] at this; exact this
    · rw [Run.bind_ok h1]; rw [h1] at this; exact hf a s1 this
  simp only [SegmentWriter.close]
  refine hbind _ _ s.segmentMeta (fun s hs => by rw [hix]; exact hs) (fun _ => ?_) s rfl
  refine hbind _ _ s.segmentMeta (fun s hs => by rw [hix]; exact hs) (fun _ => ?_)
  refine hbind _ _ s.segmentMeta (fun s hs => by rw [hix]; exact hs) (fun _ => ?_)
  exact fun s hs => by rw [hdt]; exact hs

theorem runSeg_meta {p : Profile} {os : SegmentOs} {info : SegmentInfo} (ops : List SegOp)
    {s : SegmentWriter} {closed : List ColumnInfo} {m : SegmentMeta} (hi : MetaInv info closed s.segmentMeta m) :
    ∃ m', MetaInv info (closed ++ closedColumns (runSeg p os ops s).1) (runSeg p os ops s).2.segmentMeta m' := by
  induction ops generalizing s closed m with
  | nil => exact ⟨m, by simpa [runSeg, closedColumns] using hi⟩
  | cons op ops ih =>
    cases op with
    | column ci cops =>
      rcases he : newBinaryEncoder ci.encoding BLOCK_SIZE ci.nullable with f | e
      · simp only [runSeg, SegOp.run, SegmentWriter.newBinaryColumnWriter, he, closedColumns]
        exact ih (s := { s with blockIndex := s.blockIndex.clear }) hi
      · simp only [runSeg, SegOp.run, SegmentWriter.newBinaryColumnWriter, he]
        have hk : ({ columnInfo := ci, encoder := e } : ColumnWriter).KindOk := by
          simp only [ColumnWriter.KindOk]
          simp only [newBinaryEncoder] at he
          split at he <;> cases he <;> simp [*]
        obtain ⟨m1, h1⟩ := colOps_meta (p := p) (os := os) (info := info) cops
          (c := { columnInfo := ci, encoder := e }) (s := { s with blockIndex := s.blockIndex.clear })
          (closed := closed) (m := m) hk hi
        obtain ⟨m2, h2⟩ := ih h1
        exact ⟨m2, by simpa only [closedColumns, List.append_assoc] using h2⟩
    | close order =>
      simp only [runSeg, SegOp.run, closedColumns]
      exact ih (m := m) (by rw [segClose_meta]; exact hi)

/-- C48: whatever is done with a segment and whatever fails, the metadata has the identity given at
creation, at most one entry under a name, and for each name the description and layout of the last column
successfully closed under it, if any. These are what `close` encodes (`C46_files_framed`). -/
theorem C48_metadata_lists_closed (p : Profile) (os : SegmentOs) (info : SegmentInfo) (s s' : SegmentWriter)
    (hnew : SegmentWriter.new p os info = .ok s) (ops : List SegOp) (results : List SegResult)
    (hrun : runSeg p os ops s = (results, s')) :
    ∃ m, s'.segmentMeta.segmentMeta = some m ∧
      m.segmentId = info.segmentId ∧ m.databaseName = info.databaseName ∧ m.tableName = info.tableName ∧
      m.shardId = info.shardId ∧ m.numRows = info.numRows ∧
      (m.columnsMeta.map Prod.fst).Nodup ∧ (s'.segmentMeta.columnsLayout.map Prod.fst).Nodup ∧
      ∀ name, match lastClosed results name with
        | none => m.columnsMeta.get name = none ∧ s'.segmentMeta.columnsLayout.get name = none
        | some ci => ∃ cm cl, m.columnsMeta.get name = some cm ∧ s'.segmentMeta.columnsLayout.get name = some cl ∧
            DescribesColumn ci cm ∧ LaysOut ci cl := by
  obtain ⟨_, _, d, i, h1, _⟩ := new_ok hnew
  obtain ⟨m, hm⟩ := runSeg_meta (p := p) (os := os) (info := info) ops (s := s) (closed := [])
    (m := { segmentId := info.segmentId, tableName := info.tableName, databaseName := info.databaseName,
            shardId := info.shardId, compressedSize := 0, uncompressedSize := 0, numRows := info.numRows,
            columnsMeta := [] })
    (by rw [h1]; exact ⟨rfl, rfl, rfl, rfl, rfl, rfl, rfl, rfl, .nil, .nil, fun _ => ⟨rfl, rfl⟩⟩)
  rw [hrun] at hm
  exact ⟨m, hm.present, hm.segmentId, hm.databaseName, hm.tableName, hm.shardId, hm.numRows, hm.nodupMeta,
    hm.nodupLayout, hm.entries⟩

/-- A name used twice, a column never closed, a refused encoding. -/
example : ∃ s, SegmentWriter.new .debug .reliable exampleInfo = .ok s ∧
    let run := runSeg .debug .reliable
      [.column { exampleColumn "a" with encoding := .snappy } [.close],
       .column (exampleColumn "b") [.write exampleBuffer],
       .column { exampleColumn "c" with encoding := .bitPacked } [.close],
       .column (exampleColumn "a") [.write exampleBuffer, .close]] s
    lastClosed run.1 "b" = none ∧ lastClosed run.1 "c" = none ∧
    (lastClosed run.1 "a").map (·.encoding) = some .raw ∧
    run.2.segmentMeta.columnsLayout.map Prod.fst = ["a"] ∧
    (run.2.segmentMeta.columnsLayout.get "a").map (·.encoderLayout) = some (some .plain) := by
  refine exists_ok ?_
  decide +kernel

/-! ## C51: encoder selection -/

/-- C51: the constructors of the four primitive encoders accept `Raw` only and return an error for every
other encoding; that of the binary encoder accepts `Raw` and `Snappy` only; the raw encoder returned is a
new one with the block size and nullability asked for. -/
theorem C51_encoder_selection {α : Type} [Element α] (size : Nat) (nullable : Bool) :
    (∀ enc, newPrimitiveEncoder (α := α) enc size nullable =
      if enc = .raw then .ok (PrimitiveEnc.Encoder.new size nullable) else .error .io) ∧
    (∀ enc, newBinaryEncoder enc size nullable =
      if enc = .raw then .ok (.raw (BinaryEnc.Encoder.new size nullable))
      else if enc = .snappy then .ok .snappy else .error .io) := by
  constructor <;> intro enc <;> cases enc <;> rfl

example : (newBinaryEncoder .rleDictionary 128 true).toOption.isNone ∧
    (newPrimitiveEncoder (α := Int32) .snappy 128 true).toOption.isNone ∧
    (newPrimitiveEncoder (α := Int32) .raw 128 true).toOption.isSome := by decide

/-! ## C53: the index file -/

/-- C53 is false of the code, for every column: a successful close of a column leaves the index file as it is,
and the layout it records is the empty range 0..0; the index file of a closed segment is the signature, the metadata and
the position, and so holds no block offset. Two segments whose columns have different blocks at
different offsets get the same index file. -/
theorem C53_index_locates_blocks_violated :
    (∀ (p : Profile) (os : SegmentOs) (c c' : ColumnWriter) (s s' : SegmentWriter),
      ColumnWriter.close p os (c, s) = (.ok (), (c', s')) →
      s'.indexWriter = s.indexWriter ∧
      ∃ cl, s'.segmentMeta.columnsLayout.get c.columnInfo.name = some cl ∧
        cl.blockIndexLayout = some { range := some { start := 0, «end» := 0 } }) ∧
    (∀ (p : Profile) (os : SegmentOs) (info : SegmentInfo) (s s' : SegmentWriter) (cols : List (ColumnInfo × List ColOp))
      (order : HashOrder) (results : List SegResult), SegmentWriter.new p os info = .ok s →
      runSeg p os (cols.map (fun c => .column c.1 c.2) ++ [.close order]) s = (results, s') →
      (∀ x ∈ results, x.Good) →
      s'.indexWriter.file.content = INDEX_FILE_SIGNATURE ++
        Prost.encodeMetadata (order.apply s'.segmentMeta) ++ [12, 0, 0, 0, 0, 0, 0, 0]) ∧
    (∃ s, SegmentWriter.new .debug .reliable exampleInfo = .ok s ∧
      let run1 := runSeg .debug .reliable [.column (exampleColumn "a") [.write exampleBuffer, .close],
        .close .insertion] s
      let run2 := runSeg .debug .reliable [.column (exampleColumn "a") [.write exampleBuffer, .write exampleBuffer, .close],
        .close .insertion] s
      (∀ x ∈ run1.1 ++ run2.1, x.Good) ∧
      run1.2.indexWriter.file.content = run2.2.indexWriter.file.content ∧
      run1.2.blockIndex.entries = [(1, 19)] ∧ run2.2.blockIndex.entries = [(3, 22)]) := by
  refine ⟨?_, ?_, ?_⟩
  · intro p os c c' s s' h
    obtain ⟨l, _, _, h3, h4⟩ := close_ok h
    refine ⟨h3, ⟨some ⟨some ⟨0, 0⟩⟩, none, some l⟩, ?_, rfl⟩
    · simp only [ColumnWriter.insertColumn] at h4
      split at h4
      · cases h4
      · rw [← Except.ok.inj h4]
        dsimp only
        rw [StringMap.get_insert, if_pos rfl]
  · intro p os info s s' cols order results hnew hrun hgood
    obtain ⟨g1, g2, _⟩ := new_ok hnew
    rw [runSeg_append] at hrun
    rcases h1 : runSeg p os (cols.map (fun c => .column c.1 c.2)) s with ⟨rs1, s1⟩
    rcases h2 : SegmentWriter.close p os order s1 with ⟨r, s2⟩
    simp only [h1, runSeg, SegOp.run, h2, Prod.mk.injEq] at hrun
    obtain ⟨rfl, rfl⟩ := hrun
    have hgood1 : ∀ x ∈ (runSeg p os (cols.map (fun c => .column c.1 c.2)) s).1, x.Good := by
      rw [h1]; exact fun x hx => hgood x (by simp [hx])
    obtain ⟨g3, _⟩ := runSeg_data (p := p) (os := os) _ hgood1 g2 g1
    have key : ∀ (cols : List (ColumnInfo × List ColOp)) (s : SegmentWriter) (data : Bytes),
        GoodWriter s.dataWriter data →
        (∀ x ∈ (runSeg p os (cols.map (fun c => .column c.1 c.2)) s).1, x.Good) →
        (runSeg p os (cols.map (fun c => .column c.1 c.2)) s).2.indexWriter = s.indexWriter := by
      intro cols
      induction cols with
      | nil => intro s _ _ _; rfl
      | cons c cols ih =>
        intro s data hd hg
        rcases he : newBinaryEncoder c.1.encoding BLOCK_SIZE c.1.nullable with f | e
        · simp only [List.map_cons, runSeg, SegOp.run, SegmentWriter.newBinaryColumnWriter, he] at hg ⊢
          exact ih { s with blockIndex := s.blockIndex.clear } data hd (fun x hx => hg x (by simp [hx]))
        · simp only [List.map_cons, runSeg, SegOp.run, SegmentWriter.newBinaryColumnWriter, he] at hg ⊢
          obtain ⟨bs, e', _, h5, _, _, h8⟩ := colOps_ok (p := p) (os := os) c.2
            (c := { columnInfo := c.1, encoder := e }) (s := { s with blockIndex := s.blockIndex.clear })
            (hg (.column c.1 _) (by simp)) hd
          rw [ih _ _ h5 (fun x hx => hg x (by simp [hx])), h8]
    have hix := key cols s _ g2 hgood1
    rw [h1] at g3 hix
    rw [← hix] at g1
    obtain rfl : r = .ok () := hgood (.closed r) (by simp)
    obtain ⟨_, c1, _, _, _, _, c5, _⟩ := segClose_ok h2 g1 g3
    rw [c1, c5, g1.pos]
    rfl
  · refine exists_ok ?_
    decide +kernel

end Meerkat
