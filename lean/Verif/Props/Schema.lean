import Verif.Props.SegmentMeta

set_option autoImplicit false

/-! # C107: every closed column is listed; C108: what is declared is what is stored -/

namespace Meerkat

/-- The columns of a history that were closed at least once without an error, each once. -/
def closedOnce : List SegResult → List ColumnInfo
  | [] => []
  | .column info rs :: rest => if (goodCloses info rs).isEmpty then closedOnce rest else info :: closedOnce rest
  | _ :: rest => closedOnce rest

namespace Schema

theorem length_le {a b : List String} (ha : a.Nodup) (h : ∀ x ∈ a, x ∈ b) : a.length ≤ b.length := by
  induction a generalizing b with
  | nil => exact Nat.zero_le _
  | cons x a ih =>
    obtain ⟨h1, h2⟩ := List.nodup_cons.1 ha
    have hx := h x (by simp)
    have := ih (b := b.erase x) h2 fun y hy => by
      have hne : y ≠ x := by rintro rfl; exact h1 hy
      exact (List.mem_erase_of_ne hne).2 (h y (by simp [hy]))
    rw [List.length_erase_of_mem hx] at this
    have := List.length_pos_of_mem hx
    simp only [List.length_cons]
    omega

/-- A list without repetitions has as many elements as another list with the same members exactly if that has no
repetitions either. -/
theorem length_eq_iff {a b : List String} (ha : a.Nodup) (h : ∀ x, x ∈ a ↔ x ∈ b) : a.length = b.length ↔ b.Nodup := by
  constructor
  · intro he
    apply Classical.byContradiction
    intro hn
    obtain ⟨x, hx⟩ : ∃ x, 2 ≤ b.count x := by
      apply Classical.byContradiction
      intro hc
      exact hn (List.nodup_iff_count.2 fun x => by
        exact Nat.le_of_not_lt fun h2 => hc ⟨x, h2⟩)
    have hb : x ∈ b := List.count_pos_iff.1 (by omega)
    have := length_le (b := b.erase x) ha fun y hy => by
      by_cases hxy : y = x
      · subst hxy
        refine List.count_pos_iff.1 ?_
        rw [List.count_erase_self]
        omega
      · exact (List.mem_erase_of_ne hxy).2 ((h y).1 hy)
    rw [List.length_erase_of_mem hb] at this
    have := List.length_pos_of_mem hb
    omega
  · intro hb
    exact Nat.le_antisymm (length_le ha fun x => (h x).1) (length_le hb fun x => (h x).2)

theorem eq_of_name {l : List ColumnInfo} (h : (l.map (·.name)).Nodup) {a b : ColumnInfo} (ha : a ∈ l) (hb : b ∈ l)
    (hn : a.name = b.name) : a = b := by
  induction l with
  | nil => cases ha
  | cons c l ih =>
    rw [List.map_cons, List.nodup_cons] at h
    have key : ∀ x ∈ l, x.name ≠ c.name := fun x hx he => h.1 (List.mem_map.2 ⟨x, hx, he⟩)
    rcases List.mem_cons.1 ha with ha' | ha' <;> rcases List.mem_cons.1 hb with hb' | hb'
    · rw [ha', hb']
    · rw [ha'] at hn; exact absurd hn.symm (key _ hb')
    · rw [hb'] at hn; exact absurd hn (key _ ha')
    · exact ih h.2 ha' hb'

theorem get_none {V : Type} (m : StringMap V) (k : String) : m.get k = none ↔ k ∉ m.map Prod.fst := by
  rw [StringMap.get, Option.map_eq_none_iff, List.find?_eq_none]
  simp only [decide_eq_true_eq, List.mem_map, not_exists, not_and]

theorem mem_goodCloses {info ci : ColumnInfo} {rs : List (ColOp × Except Fault Unit)} (h : ci ∈ goodCloses info rs) :
    ci = info := by
  simp only [goodCloses, List.mem_map] at h
  obtain ⟨_, _, rfl⟩ := h
  rfl

/-- The two lists of closed columns have the same members. -/
theorem mem_closedOnce (results : List SegResult) (ci : ColumnInfo) :
    ci ∈ closedOnce results ↔ ci ∈ closedColumns results := by
  induction results with
  | nil => rfl
  | cons r rest ih =>
    cases r with
    | column info rs =>
      simp only [closedOnce, closedColumns, List.mem_append]
      cases hg : goodCloses info rs with
      | nil => simp [ih]
      | cons x xs =>
        have hx : x = info := mem_goodCloses (rs := rs) (by rw [hg]; simp)
        have hxs : ∀ y ∈ xs, y = info := fun y hy => mem_goodCloses (rs := rs) (by rw [hg]; simp [hy])
        simp only [List.isEmpty_cons, Bool.false_eq_true, if_false, List.mem_cons, ih, hx]
        constructor
        · rintro (h | h)
          · exact .inl (.inl h)
          · exact .inr h
        · rintro ((h | h) | h)
          · exact .inl h
          · exact .inl (hxs _ h)
          · exact .inr h
    | _ => simpa only [closedOnce, closedColumns] using ih

/-- A name has an entry exactly if a column was closed under it. -/
theorem names {p : Profile} {os : SegmentOs} {info : SegmentInfo} {s s' : SegmentWriter}
    (hnew : SegmentWriter.new p os info = .ok s) {ops : List SegOp} {results : List SegResult}
    (hrun : runSeg p os ops s = (results, s')) {m : SegmentMeta} (hm : s'.segmentMeta.segmentMeta = some m) (name : String) :
    name ∈ m.columnsMeta.map Prod.fst ↔ name ∈ (closedOnce results).map (·.name) := by
  obtain ⟨m', h1, -, -, -, -, -, -, -, h2⟩ := C48_metadata_lists_closed p os info s s' hnew ops results hrun
  obtain rfl : m' = m := Option.some.inj (h1.symm.trans hm)
  have h3 := h2 name
  have h4 : (lastClosed results name).isSome ↔ name ∈ (closedOnce results).map (·.name) := by
    rw [lastClosed, List.find?_isSome]
    simp only [List.mem_reverse, List.mem_map, decide_eq_true_eq, mem_closedOnce]
  cases hl : lastClosed results name with
  | none =>
    rw [hl] at h3 h4
    have h5 := (get_none m'.columnsMeta name).1 h3.1
    simp only [Option.isSome_none, Bool.false_eq_true, false_iff] at h4
    exact ⟨fun h => absurd h h5, fun h => absurd h h4⟩
  | some ci =>
    rw [hl] at h3 h4
    obtain ⟨cm, _, h5, -⟩ := h3
    refine ⟨fun _ => h4.1 rfl, fun _ => Classical.byContradiction fun hc => ?_⟩
    rw [(get_none m'.columnsMeta name).2 hc] at h5
    cases h5

end Schema

/-- C107 exactly: whatever is done with a segment, the metadata lists as many columns as were closed if and only if
they have different names. -/
theorem C107_all_listed_exact (p : Profile) (os : SegmentOs) (info : SegmentInfo) (s s' : SegmentWriter)
    (hnew : SegmentWriter.new p os info = .ok s) (ops : List SegOp) (results : List SegResult)
    (hrun : runSeg p os ops s = (results, s')) :
    ∃ m, s'.segmentMeta.segmentMeta = some m ∧
      (m.columnsMeta.length = (closedOnce results).length ↔ ((closedOnce results).map (·.name)).Nodup) := by
  obtain ⟨m, h1, -, -, -, -, -, h2, -, -⟩ := C48_metadata_lists_closed p os info s s' hnew ops results hrun
  refine ⟨m, h1, ?_⟩
  have := Schema.length_eq_iff h2 (Schema.names hnew hrun h1)
  simpa using this

/-- C107 for columns with different names: each closed column is listed as it was declared. -/
theorem C107_all_listed_partial (p : Profile) (os : SegmentOs) (info : SegmentInfo) (s s' : SegmentWriter)
    (hnew : SegmentWriter.new p os info = .ok s) (ops : List SegOp) (results : List SegResult)
    (hrun : runSeg p os ops s = (results, s')) (hd : ((closedOnce results).map (·.name)).Nodup)
    (ci : ColumnInfo) (hci : ci ∈ closedOnce results) :
    ∃ m cm cl, s'.segmentMeta.segmentMeta = some m ∧ m.columnsMeta.get ci.name = some cm ∧
      s'.segmentMeta.columnsLayout.get ci.name = some cl ∧ DescribesColumn ci cm ∧ LaysOut ci cl := by
  obtain ⟨m, h1, -, -, -, -, -, -, -, h2⟩ := C48_metadata_lists_closed p os info s s' hnew ops results hrun
  have h3 := h2 ci.name
  cases hl : lastClosed results ci.name with
  | none =>
    rw [lastClosed, List.find?_eq_none] at hl
    exact absurd (by simp) (hl ci (List.mem_reverse.2 ((Schema.mem_closedOnce results ci).1 hci)))
  | some cj =>
    rw [hl] at h3
    rw [lastClosed] at hl
    have hj := (Schema.mem_closedOnce results cj).2 (List.mem_reverse.1 (List.mem_of_find?_eq_some hl))
    have hn : cj.name = ci.name := by simpa using List.find?_some hl
    have : cj = ci := Schema.eq_of_name hd hj hci hn
    rw [this] at h3
    obtain ⟨cm, cl, h4, h5, h6⟩ := h3
    exact ⟨m, cm, cl, h1, h4, h5, h6⟩

/-- Two columns of one name, both closed without an error: the metadata describes the second, and nothing tells where
the blocks of the first are, which are in the data file. -/
theorem C107_all_listed_violated : ∃ s, SegmentWriter.new .debug .reliable exampleInfo = .ok s ∧
    let run := runSeg .debug .reliable
      [.column (exampleColumn "a") [.write exampleBuffer, .close],
       .column { exampleColumn "a" with nullable := true } [.close]] s
    (∀ x ∈ run.1, x.Good) ∧ (closedOnce run.1).map (·.nullable) = [false, true] ∧
    run.2.segmentMeta.segmentMeta.map (fun m => m.columnsMeta.map fun e => (e.1, e.2.nullable)) = some [("a", true)] ∧
    (run.2.dataWriter.file.content ++ run.2.dataWriter.file.pending).length = 13 + 6 := by
  refine exists_ok ?_
  decide +kernel

/-- Two names: both columns are listed. A column closed twice is one column. -/
example : ∃ s, SegmentWriter.new .debug .reliable exampleInfo = .ok s ∧
    let run := runSeg .debug .reliable
      [.column (exampleColumn "a") [.write exampleBuffer, .close, .close],
       .column { exampleColumn "b" with nullable := true } [.close]] s
    ((closedOnce run.1).map (·.name)).Nodup ∧
    run.2.segmentMeta.segmentMeta.map (fun m => m.columnsMeta.map fun e => (e.1, e.2.nullable)) =
      some [("a", false), ("b", true)] := by
  refine exists_ok ?_
  decide +kernel

/-! ## C108 -/

/-- The same item with other column types declared. -/
def SegOp.redeclare (t : ColumnInfo → ColumnType) : SegOp → SegOp
  | .column info ops => .column { info with columnType := t info } ops
  | .close order => .close order

/-- The same result with other column types declared. -/
def SegResult.redeclare (t : ColumnInfo → ColumnType) : SegResult → SegResult
  | .rejected info => .rejected { info with columnType := t info }
  | .column info rs => .column { info with columnType := t info } rs
  | .closed r => .closed r

namespace Schema

/-- The same writers apart from what was declared. -/
structure Same (s s' : SegmentWriter) : Prop where
  data : s.dataWriter = s'.dataWriter
  index : s.indexWriter = s'.indexWriter
  blocks : s.blockIndex = s'.blockIndex
  left : s.segmentMeta.segmentMeta.isSome = true
  right : s'.segmentMeta.segmentMeta.isSome = true

theorem onSink_same {α : Type} (m : Run (BinaryEncoder × (Writer × BlockIndex)) α) {c c' : ColumnWriter}
    {s s' : SegmentWriter} (hc : c.encoder = c'.encoder) (h : Same s s') :
    (ColumnWriter.onSink m (c, s)).1 = (ColumnWriter.onSink m (c', s')).1 ∧
    (ColumnWriter.onSink m (c, s)).2.1.encoder = (ColumnWriter.onSink m (c', s')).2.1.encoder ∧
    Same (ColumnWriter.onSink m (c, s)).2.2 (ColumnWriter.onSink m (c', s')).2.2 := by
  simp only [ColumnWriter.onSink, hc, h.data, h.blocks]
  exact ⟨trivial, trivial, rfl, h.index, rfl, h.left, h.right⟩

theorem record_same (el : EncoderLayout) (bl : RangeMessage) {c c' : ColumnWriter} {s s' : SegmentWriter}
    (hc : c.encoder = c'.encoder) (h : Same s s') :
    (ColumnWriter.recordColumn el bl (c, s)).1 = (ColumnWriter.recordColumn el bl (c', s')).1 ∧
    (ColumnWriter.recordColumn el bl (c, s)).2.1.encoder = (ColumnWriter.recordColumn el bl (c', s')).2.1.encoder ∧
    Same (ColumnWriter.recordColumn el bl (c, s)).2.2 (ColumnWriter.recordColumn el bl (c', s')).2.2 := by
  obtain ⟨m, hm⟩ := Option.isSome_iff_exists.1 h.left
  obtain ⟨m', hm'⟩ := Option.isSome_iff_exists.1 h.right
  simp only [ColumnWriter.recordColumn, ColumnWriter.insertColumn, hm, hm']
  exact ⟨trivial, hc, h.data, h.index, h.blocks, rfl, rfl⟩

theorem op_same (p : Profile) (os : SegmentOs) (op : ColOp) {c c' : ColumnWriter} {s s' : SegmentWriter}
    (hc : c.encoder = c'.encoder) (h : Same s s') :
    (op.run p os (c, s)).1 = (op.run p os (c', s')).1 ∧
    (op.run p os (c, s)).2.1.encoder = (op.run p os (c', s')).2.1.encoder ∧
    Same (op.run p os (c, s)).2.2 (op.run p os (c', s')).2.2 := by
  cases op with
  | write b => exact onSink_same (BinaryEncoder.encode p (blockSink p os.data) b) hc h
  | close =>
    obtain ⟨h1, h2, h3⟩ := onSink_same (BinaryEncoder.flush p (blockSink p os.data)) hc h
    simp only [ColOp.run, ColumnWriter.close, Run.bind_apply]
    rcases e1 : ColumnWriter.onSink (BinaryEncoder.flush p (blockSink p os.data)) (c, s) with ⟨r, c1, s1⟩
    rcases e2 : ColumnWriter.onSink (BinaryEncoder.flush p (blockSink p os.data)) (c', s') with ⟨r', c1', s1'⟩
    rw [e1, e2] at h1 h2 h3
    dsimp only at h1 h2 h3
    subst h1
    cases r with
    | error x => exact ⟨rfl, h2, h3⟩
    | ok l =>
      simp only [ColumnWriter.flushBlockIndex, BlockIndex.flush, Run.pure_apply]
      exact record_same l _ h2 h3

theorem ops_same (p : Profile) (os : SegmentOs) (ops : List ColOp) {c c' : ColumnWriter} {s s' : SegmentWriter}
    (hc : c.encoder = c'.encoder) (h : Same s s') :
    (runColOps p os ops (c, s)).1 = (runColOps p os ops (c', s')).1 ∧
    Same (runColOps p os ops (c, s)).2.2 (runColOps p os ops (c', s')).2.2 := by
  induction ops generalizing c c' s s' with
  | nil => exact ⟨rfl, h⟩
  | cons op ops ih =>
    obtain ⟨h1, h2, h3⟩ := op_same p os op hc h
    simp only [runColOps]
    rcases e1 : op.run p os (c, s) with ⟨r, c1, s1⟩
    rcases e2 : op.run p os (c', s') with ⟨r', c1', s1'⟩
    rw [e1, e2] at h1 h2 h3
    dsimp only at h1 h2 h3
    subst h1
    obtain ⟨h4, h5⟩ := ih h2 h3
    exact ⟨by rw [h4], h5⟩

theorem column_same (p : Profile) (os : SegmentOs) (t : ColumnInfo → ColumnType) (info : ColumnInfo) (cops : List ColOp)
    {s s' : SegmentWriter} (h : Same s s') :
    (SegOp.run p os (.column { info with columnType := t info } cops) s').1 =
      (SegOp.run p os (.column info cops) s).1.redeclare t ∧
    Same (SegOp.run p os (.column info cops) s).2 (SegOp.run p os (.column { info with columnType := t info } cops) s').2 := by
  have hcl : Same { s with blockIndex := s.blockIndex.clear } { s' with blockIndex := s'.blockIndex.clear } :=
    ⟨h.data, h.index, by rw [h.blocks], h.left, h.right⟩
  simp only [SegOp.run, SegmentWriter.newBinaryColumnWriter]
  cases he : newBinaryEncoder info.encoding BLOCK_SIZE info.nullable with
  | error x => exact ⟨rfl, hcl⟩
  | ok e =>
    obtain ⟨h1, h2⟩ := ops_same p os cops (c := ⟨info, e⟩) (c' := ⟨{ info with columnType := t info }, e⟩) rfl hcl
    exact ⟨by simp only [h1, SegResult.redeclare], h2⟩

theorem run_same (p : Profile) (os : SegmentOs) (t : ColumnInfo → ColumnType) (ops : List SegOp)
    (hops : ∀ order, .close order ∉ ops) {s s' : SegmentWriter} (h : Same s s') :
    (runSeg p os (ops.map (·.redeclare t)) s').1 = (runSeg p os ops s).1.map (·.redeclare t) ∧
    Same (runSeg p os ops s).2 (runSeg p os (ops.map (·.redeclare t)) s').2 := by
  induction ops generalizing s s' with
  | nil => exact ⟨rfl, h⟩
  | cons op ops ih =>
    cases op with
    | close order => exact absurd (by simp) (hops order)
    | column info cops =>
      obtain ⟨h1, h2⟩ := column_same p os t info cops h
      obtain ⟨h3, h4⟩ := ih (fun o ho => hops o (by simp [ho])) h2
      rw [List.map_cons, show (SegOp.column info cops).redeclare t = .column { info with columnType := t info } cops from rfl]
      simp only [runSeg, List.map_cons]
      exact ⟨by rw [h1, h3], h4⟩

/-- A segment is created in the same way whatever number of rows is announced. -/
theorem new_same {p : Profile} {os : SegmentOs} {info info' : SegmentInfo} {s : SegmentWriter}
    (h : SegmentWriter.new p os info = .ok s) : ∃ s', SegmentWriter.new p os info' = .ok s' ∧ Same s s' := by
  simp only [SegmentWriter.new] at h ⊢
  cases h1 : Writer.new os.index with
  | error x => rw [h1] at h; cases h
  | ok iw =>
    cases h2 : Writer.new os.data with
    | error x => rw [h1, h2] at h; cases h
    | ok dw =>
      rw [h1, h2] at h
      simp only [ok_bind, SegmentWriter.writeHeaders, SegmentWriter.initial, SegmentWriter.onIndex, SegmentWriter.onData,
        Run.bind_apply] at h ⊢
      rcases h3 : Writer.writeBlock p os.index INDEX_FILE_SIGNATURE iw with ⟨x | x, iw'⟩
      · simp only [h3] at h; cases h
      · simp only [h3] at h ⊢
        rcases h4 : Writer.writeBlock p os.data DATA_FILE_SIGNATURE dw with ⟨x | x, dw'⟩
        · simp only [h4] at h; cases h
        · simp only [h4] at h ⊢
          cases h
          exact ⟨_, rfl, rfl, rfl, rfl, rfl, rfl⟩

end Schema

/-- C108 exactly: until the segment is closed, neither the column types declared nor the number of rows announced have
any effect: whatever is done and whatever fails, the same calls on another segment of the same operating system, with
other types and another number of rows, return the same and write the same. -/
theorem C108_declarations_exact (p : Profile) (os : SegmentOs) (info info' : SegmentInfo) (s : SegmentWriter)
    (hnew : SegmentWriter.new p os info = .ok s) (t : ColumnInfo → ColumnType) :
    ∃ s', SegmentWriter.new p os info' = .ok s' ∧ ∀ ops, (∀ order, .close order ∉ ops) →
      (runSeg p os (ops.map (·.redeclare t)) s').1 = (runSeg p os ops s).1.map (·.redeclare t) ∧
      (runSeg p os (ops.map (·.redeclare t)) s').2.dataWriter = (runSeg p os ops s).2.dataWriter ∧
      (runSeg p os (ops.map (·.redeclare t)) s').2.indexWriter = (runSeg p os ops s).2.indexWriter ∧
      (runSeg p os (ops.map (·.redeclare t)) s').2.blockIndex = (runSeg p os ops s).2.blockIndex := by
  obtain ⟨s', h1, h2⟩ := Schema.new_same (info' := info') hnew
  refine ⟨s', h1, fun ops hops => ?_⟩
  obtain ⟨h3, h4⟩ := Schema.run_same p os t ops hops h2
  exact ⟨h3, h4.data.symm, h4.index.symm, h4.blocks.symm⟩

/-- C108 in part: what is stored is what was declared. -/
theorem C108_declarations_partial (p : Profile) (os : SegmentOs) (info : SegmentInfo) (s s' : SegmentWriter)
    (hnew : SegmentWriter.new p os info = .ok s) (ops : List SegOp) (results : List SegResult)
    (hrun : runSeg p os ops s = (results, s')) :
    ∃ m, s'.segmentMeta.segmentMeta = some m ∧ m.numRows = info.numRows ∧
      ∀ name ci, lastClosed results name = some ci → ∃ cm, m.columnsMeta.get name = some cm ∧
        cm.columnType.toInt = protoColumnTypes.idxOf ci.columnType := by
  obtain ⟨m, h1, -, -, -, -, h3, -, -, h2⟩ := C48_metadata_lists_closed p os info s s' hnew ops results hrun
  refine ⟨m, h1, h3, fun name ci hl => ?_⟩
  have h4 := h2 name
  rw [hl] at h4
  obtain ⟨cm, _, h5, _, h6, _⟩ := h4
  exact ⟨cm, h5, h6.2.1⟩

/-- C108 fails: whatever number of rows is announced and whatever types are declared, a column of two strings and one of
no strings are written and closed without an error. -/
theorem C108_declarations_violated (n : UInt32) (t : ColumnType) :
    ∃ s, SegmentWriter.new .debug .reliable { exampleInfo with numRows := n } = .ok s ∧
      ∀ x ∈ (runSeg .debug .reliable
        [.column { exampleColumn "a" with columnType := t } [.write exampleBuffer, .close],
         .column { exampleColumn "b" with columnType := t } [.close]] s).1, x.Good := by
  obtain ⟨s0, h1, h2⟩ : ∃ s, SegmentWriter.new .debug .reliable exampleInfo = .ok s ∧
      ∀ x ∈ (runSeg .debug .reliable
        [.column (exampleColumn "a") [.write exampleBuffer, .close], .column (exampleColumn "b") [.close]] s).1, x.Good :=
    exists_ok (by decide +kernel)
  obtain ⟨s, h3, h4⟩ := C108_declarations_exact .debug .reliable exampleInfo { exampleInfo with numRows := n } s0 h1
    (fun _ => t)
  refine ⟨s, h3, ?_⟩
  have h5 := (h4 [.column (exampleColumn "a") [.write exampleBuffer, .close], .column (exampleColumn "b") [.close]]
    (by simp)).1
  simp only [List.map_cons, List.map_nil, SegOp.redeclare] at h5
  rw [h5]
  intro x hx
  obtain ⟨y, hy, rfl⟩ := List.mem_map.1 hx
  have := h2 y hy
  cases y <;> exact this

/-- A column of strings declared as one of integers, in a segment that announces seven rows. -/
example : ∃ s, SegmentWriter.new .debug .reliable { exampleInfo with numRows := 7 } = .ok s ∧
    let run := runSeg .debug .reliable
      [.column { exampleColumn "a" with columnType := .int32 } [.write exampleBuffer, .close]] s
    (∀ x ∈ run.1, x.Good) ∧
    run.2.segmentMeta.segmentMeta.map (fun m => (m.numRows, m.columnsMeta.map fun e => (e.1, e.2.columnType))) =
      some (7, [("a", 6)]) := by
  refine exists_ok ?_
  decide +kernel

end Meerkat
