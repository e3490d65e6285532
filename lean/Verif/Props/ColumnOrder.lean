import Verif.Props.SegmentMeta

set_option autoImplicit false

/-! # C124: the columns of a segment may be written in any order -/

namespace Meerkat

namespace ColumnOrder

/-- The layout that a successful close records. -/
def layoutOf (ci : ColumnInfo) : ColumnLayout :=
  ⟨some ⟨some ⟨0, 0⟩⟩, none, some (if ci.encoding = .snappy then .snappy else .plain)⟩

/-- A map with an entry for each column, later ones replacing those of the same name. -/
def mapOf {V : Type} (f : ColumnInfo → V) (closed : List ColumnInfo) : StringMap V :=
  closed.foldl (fun m ci => m.insert ci.name (f ci)) []

theorem mapOf_snoc {V : Type} (f : ColumnInfo → V) (closed : List ColumnInfo) (ci : ColumnInfo) :
    mapOf f (closed ++ [ci]) = (mapOf f closed).insert ci.name (f ci) := by
  simp [mapOf]

/-- The metadata after the columns `closed` were closed, exactly. -/
def metaOf (info : SegmentInfo) (closed : List ColumnInfo) : Metadata :=
  { segmentMeta := some
      { segmentId := info.segmentId, tableName := info.tableName, databaseName := info.databaseName,
        shardId := info.shardId, compressedSize := 0, uncompressedSize := 0, numRows := info.numRows,
        columnsMeta := mapOf ColumnWriter.columnMeta closed },
    columnsLayout := mapOf layoutOf closed }

theorem metaOf_insert {info : SegmentInfo} {closed : List ColumnInfo} {ci : ColumnInfo} {md' : Metadata}
    (h : ColumnWriter.insertColumn (metaOf info closed) ci.name (ColumnWriter.columnMeta ci) (layoutOf ci) = .ok md') :
    md' = metaOf info (closed ++ [ci]) := by
  simp only [ColumnWriter.insertColumn, metaOf] at h
  cases h
  simp only [metaOf, mapOf_snoc]

theorem colOps_is {p : Profile} {os : SegmentOs} {info : SegmentInfo} (ops : List ColOp) {c : ColumnWriter}
    {s : SegmentWriter} {closed : List ColumnInfo} (hk : c.KindOk) (hi : s.segmentMeta = metaOf info closed) :
    (runColOps p os ops (c, s)).2.2.segmentMeta =
      metaOf info (closed ++ goodCloses c.columnInfo (runColOps p os ops (c, s)).1) := by
  induction ops generalizing c s closed with
  | nil => simpa [runColOps, goodCloses] using hi
  | cons op ops ih =>
    rcases h1 : op.run p os (c, s) with ⟨r, c1, s1⟩
    simp only [runColOps, h1]
    cases op with
    | write b =>
      obtain ⟨h2, h3, _, h5⟩ := onSink_eq (show ColumnWriter.onSink _ (c, s) = _ from h1)
      have hk1 : c1.KindOk := by
        rw [ColumnWriter.KindOk, h3, BinaryEncoder.encode_kind h2]; exact hk
      have h6 := ih (c := c1) (s := s1) hk1 (by rw [h5]; exact hi)
      rw [h3] at h6
      simpa [goodCloses] using h6
    | close =>
      rcases r with f | r
      · obtain ⟨h3, h5⟩ := close_error h1
        have hk1 : c1.KindOk := by
          have h1' := h1
          simp only [ColOp.run, ColumnWriter.close, Run.bind_apply] at h1'
          rcases h6 : ColumnWriter.onSink (BinaryEncoder.flush p (blockSink p os.data)) (c, s) with ⟨x | l, c2, s2⟩
          · simp only [h6] at h1'
            cases h1'
            obtain ⟨h7, h8, _, _⟩ := onSink_eq h6
            rw [ColumnWriter.KindOk, h8, (BinaryEncoder.flush_kind h7).1]; exact hk
          · simp only [h6, ColumnWriter.flushBlockIndex, BlockIndex.flush, Run.pure_apply,
              ColumnWriter.recordColumn] at h1'
            obtain ⟨h7, h8, _, _⟩ := onSink_eq h6
            have h9 : c1 = c2 := by
              split at h1' <;> cases h1'; rfl
            rw [ColumnWriter.KindOk, h9, h8, (BinaryEncoder.flush_kind h7).1]; exact hk
        have h6 := ih (c := c1) (s := s1) hk1 (by rw [h5]; exact hi)
        rw [h3] at h6
        simpa [goodCloses] using h6
      · obtain ⟨l, h2, h3, _, h5⟩ := close_ok h1
        obtain ⟨h6, h7⟩ := BinaryEncoder.flush_kind h2
        have hk1 : c1.KindOk := by rw [ColumnWriter.KindOk, h3, h6]; exact hk
        have hl : (⟨some ⟨some ⟨0, 0⟩⟩, none, some l⟩ : ColumnLayout) = layoutOf c.columnInfo := by
          rw [layoutOf]
          rcases h7 l rfl with ⟨a, b⟩ | ⟨a, b⟩
          · rw [if_pos (hk.1 a), b]
          · rw [if_neg (fun e => a (hk.2 e)), b]
        rw [hl, hi] at h5
        have h9 := ih (c := c1) (s := s1) hk1 (metaOf_insert h5)
        rw [h3] at h9
        simpa [goodCloses] using h9

theorem runSeg_is {p : Profile} {os : SegmentOs} {info : SegmentInfo} (ops : List SegOp)
    {s : SegmentWriter} {closed : List ColumnInfo} (hi : s.segmentMeta = metaOf info closed) :
    (runSeg p os ops s).2.segmentMeta = metaOf info (closed ++ closedColumns (runSeg p os ops s).1) := by
  induction ops generalizing s closed with
  | nil => simpa [runSeg, closedColumns] using hi
  | cons op ops ih =>
    cases op with
    | column ci cops =>
      rcases he : newBinaryEncoder ci.encoding BLOCK_SIZE ci.nullable with f | e
      · simp only [runSeg, SegOp.run, SegmentWriter.newBinaryColumnWriter, he, closedColumns]
        exact ih (s := { s with blockIndex := s.blockIndex.clear }) hi
      · simp only [runSeg, SegOp.run, SegmentWriter.newBinaryColumnWriter, he]
        have hk : ({ columnInfo := ci, encoder := e } : ColumnWriter).KindOk := by
          simp only [ColumnWriter.KindOk]
          simp only [newBinaryEncoder] at he
          split at he <;> cases he <;> simp [*]
        have h1 := colOps_is (p := p) (os := os) (info := info) cops
          (c := { columnInfo := ci, encoder := e }) (s := { s with blockIndex := s.blockIndex.clear })
          (closed := closed) hk hi
        have h2 := ih h1
        simpa only [closedColumns, List.append_assoc] using h2
    | close order =>
      simp only [runSeg, SegOp.run, closedColumns]
      exact ih (by rw [segClose_meta]; exact hi)

theorem mapOf_nodup {V : Type} (f : ColumnInfo → V) (closed : List ColumnInfo) : ((mapOf f closed).map Prod.fst).Nodup := by
  rw [← List.reverse_reverse closed]
  induction closed.reverse with
  | nil => simp [mapOf]
  | cons c cs ih => rw [List.reverse_cons, mapOf_snoc]; exact StringMap.insert_nodup _ _ ih

theorem mapOf_get {V : Type} (f : ColumnInfo → V) (closed : List ColumnInfo) (name : String) :
    (mapOf f closed).get name = (closed.reverse.find? (fun i => i.name = name)).map f := by
  rw [← List.reverse_reverse closed]
  generalize closed.reverse = cs
  rw [List.reverse_reverse]
  induction cs with
  | nil => rfl
  | cons c cs ih =>
    rw [List.reverse_cons, mapOf_snoc, StringMap.get_insert, ih, List.find?_cons]
    by_cases h : name = c.name
    · simp [h]
    · have h' : ¬ c.name = name := fun e => h e.symm
      simp [h, h']

theorem mem_iff_get {V : Type} {m : StringMap V} (hn : (m.map Prod.fst).Nodup) (k : String) (v : V) :
    (k, v) ∈ m ↔ m.get k = some v := by
  induction m with
  | nil => simp [StringMap.get]
  | cons e m ih =>
    simp only [List.map_cons, List.nodup_cons] at hn
    have h1 := ih hn.2
    simp only [StringMap.get, List.find?_cons, List.mem_cons] at h1 ⊢
    by_cases h : e.1 = k
    · simp only [h, decide_true, Option.map_some, Option.some.injEq]
      constructor
      · rintro (rfl | h2)
        · rfl
        · exact absurd (List.mem_map.2 ⟨_, h2, rfl⟩) (h ▸ hn.1)
      · rintro rfl
        exact .inl (by rw [← h])
    · simp only [h, decide_false]
      rw [← h1]
      constructor
      · rintro (h2 | h2)
        · exact absurd (by rw [← h2]) h
        · exact h2
      · exact .inr

theorem nodup_of_keys {V : Type} {m : StringMap V} (hn : (m.map Prod.fst).Nodup) : m.Nodup := by
  induction m with
  | nil => exact List.nodup_nil
  | cons e m ih =>
    simp only [List.map_cons, List.nodup_cons] at hn
    exact List.nodup_cons.2 ⟨fun h => hn.1 (List.mem_map.2 ⟨_, h, rfl⟩), ih hn.2⟩

theorem perm_of_get {V : Type} {m m' : StringMap V} (h1 : (m.map Prod.fst).Nodup) (h2 : (m'.map Prod.fst).Nodup)
    (h : ∀ k, m.get k = m'.get k) : m.Perm m' := by
  refine (List.perm_ext_iff_of_nodup (nodup_of_keys h1) (nodup_of_keys h2)).2 fun ⟨k, v⟩ => ?_
  rw [mem_iff_get h1, mem_iff_get h2, h]

/-- Two lists with the same members, in which a name tells the column, have the same last column of each name. -/
theorem find_same {a b : List ColumnInfo} (hm : ∀ x, x ∈ a ↔ x ∈ b) (hu : ∀ x ∈ a, ∀ y ∈ a, x.name = y.name → x = y)
    (name : String) : a.reverse.find? (fun i => i.name = name) = b.reverse.find? (fun i => i.name = name) := by
  cases ha : a.reverse.find? (fun i => i.name = name) with
  | none =>
    symm
    rw [List.find?_eq_none] at ha ⊢
    exact fun x hx => ha x (by simpa [hm] using hx)
  | some x =>
    have h1 := List.find?_some ha
    have h2 := List.mem_of_find?_eq_some ha
    simp only [decide_eq_true_eq, List.mem_reverse] at h1 h2
    cases hb : b.reverse.find? (fun i => i.name = name) with
    | none =>
      rw [List.find?_eq_none] at hb
      exact absurd (by simpa using h1) (hb x (by simpa using (hm x).1 h2))
    | some y =>
      have h3 := List.find?_some hb
      have h4 := List.mem_of_find?_eq_some hb
      simp only [decide_eq_true_eq, List.mem_reverse] at h3 h4
      rw [hu x h2 y ((hm y).2 h4) (h1.trans h3.symm)]

/-- The column, once for each close. -/
def closesOf (info : ColumnInfo) (ops : List ColOp) : List ColumnInfo :=
  (ops.filter fun op => match op with | .close => true | .write _ => false).map fun _ => info

/-- What a column leaves in the list of closed columns if no call fails. -/
def kept (c : ColumnInfo × List ColOp) : List ColumnInfo :=
  match newBinaryEncoder c.1.encoding BLOCK_SIZE c.1.nullable with
  | .ok _ => closesOf c.1 c.2
  | .error _ => []

theorem goodCloses_eq {p : Profile} {os : SegmentOs} (info : ColumnInfo) (ops : List ColOp) {x : ColumnWriter × SegmentWriter}
    (h : ∀ r ∈ (runColOps p os ops x).1, r.2 = .ok ()) : goodCloses info (runColOps p os ops x).1 = closesOf info ops := by
  induction ops generalizing x with
  | nil => rfl
  | cons op ops ih =>
    simp only [runColOps, List.mem_cons, forall_eq_or_imp] at h ⊢
    have h1 := ih h.2
    simp only [goodCloses, closesOf] at h1 ⊢
    simp only [List.filter_cons, h.1]
    cases op with
    | write b => simpa using h1
    | close => simpa using h1

theorem closed_eq {p : Profile} {os : SegmentOs} {order : HashOrder} (cols : List (ColumnInfo × List ColOp))
    {s : SegmentWriter} (h : ∀ x ∈ (runSeg p os (cols.map (fun c => .column c.1 c.2) ++ [.close order]) s).1, x.Good) :
    closedColumns (runSeg p os (cols.map (fun c => .column c.1 c.2) ++ [.close order]) s).1 = cols.flatMap kept := by
  induction cols generalizing s with
  | nil => rfl
  | cons c cols ih =>
    rcases he : newBinaryEncoder c.1.encoding BLOCK_SIZE c.1.nullable with f | e
    · simp only [List.map_cons, List.cons_append, runSeg, SegOp.run, SegmentWriter.newBinaryColumnWriter, he,
        closedColumns, List.flatMap_cons, kept, List.nil_append, List.mem_cons, forall_eq_or_imp] at h ⊢
      exact ih h.2
    · simp only [List.map_cons, List.cons_append, runSeg, SegOp.run, SegmentWriter.newBinaryColumnWriter, he,
        closedColumns, List.flatMap_cons, kept, List.mem_cons, forall_eq_or_imp] at h ⊢
      rw [ih h.2, goodCloses_eq c.1 c.2 h.1]

theorem mem_kept {c : ColumnInfo × List ColOp} {x : ColumnInfo} (h : x ∈ kept c) : x = c.1 := by
  rw [kept] at h
  split at h
  · simp only [closesOf, List.mem_map] at h
    obtain ⟨_, _, rfl⟩ := h
    rfl
  · cases h

theorem eq_of_name {cols : List (ColumnInfo × List ColOp)} (hn : (cols.map (·.1.name)).Nodup) :
    ∀ a ∈ cols, ∀ b ∈ cols, a.1.name = b.1.name → a = b := by
  induction cols with
  | nil => intro a ha; cases ha
  | cons c cols ih =>
    simp only [List.map_cons, List.nodup_cons] at hn
    intro a ha b hb hab
    rw [List.mem_cons] at ha hb
    rcases ha with rfl | ha <;> rcases hb with rfl | hb
    · rfl
    · exact absurd (List.mem_map.2 ⟨b, hb, hab.symm⟩) hn.1
    · exact absurd (List.mem_map.2 ⟨a, ha, hab⟩) hn.1
    · exact ih hn.2 a ha b hb hab

theorem lenField_length {tag : Nat} {a b : Bytes} (h : a.length = b.length) :
    (Prost.lenField tag a).length = (Prost.lenField tag b).length := by
  simp only [Prost.lenField, List.length_append, h]

/-- The length of the encoded metadata does not depend on the order of the entries. -/
theorem encode_length {a b : SegmentMeta} {l l' : StringMap ColumnLayout} (h : b = { a with columnsMeta := b.columnsMeta })
    (hm : a.columnsMeta.Perm b.columnsMeta) (hl : l.Perm l') :
    (Prost.encodeMetadata ⟨some a, l⟩).length = (Prost.encodeMetadata ⟨some b, l'⟩).length := by
  have h1 : (Prost.mapField 8 {} Prost.encodeColumnMeta a.columnsMeta).length =
      (Prost.mapField 8 {} Prost.encodeColumnMeta b.columnsMeta).length := (hm.flatMap_right _).length_eq
  have h2 : (Prost.mapField 2 {} Prost.encodeColumnLayout l).length =
      (Prost.mapField 2 {} Prost.encodeColumnLayout l').length := (hl.flatMap_right _).length_eq
  have h3 : (Prost.encodeSegmentMeta a).length = (Prost.encodeSegmentMeta b).length := by
    rw [h]
    simp only [Prost.encodeSegmentMeta, List.length_append, h1]
  simp only [Prost.encodeMetadata, Prost.optField, List.length_append, h2, lenField_length h3]

theorem columnBytes_eq (p : Profile) (order : HashOrder) (cols : List (ColumnInfo × List ColOp)) :
    columnBytes p (cols.map (fun c => .column c.1 c.2) ++ [.close order]) =
      (cols.map fun c => concatBlocks (blocksAlone p c.1 c.2)).flatten := by
  induction cols with
  | nil => rfl
  | cons c cols ih => simp only [List.map_cons, List.cons_append, columnBytes, ih, List.flatten_cons]

end ColumnOrder
open ColumnOrder

/-- C124, the metadata: it is decided by the column last closed under each name, up to the order of the entries. Which other
columns there were, which calls failed and in which order the columns were written makes no difference. -/
theorem C124_metadata (p p' : Profile) (os os' : SegmentOs) (info : SegmentInfo) (s t s' t' : SegmentWriter)
    (hs : SegmentWriter.new p os info = .ok s) (ht : SegmentWriter.new p' os' info = .ok t)
    (ops ops' : List SegOp) (results results' : List SegResult)
    (hrs : runSeg p os ops s = (results, s')) (hrt : runSeg p' os' ops' t = (results', t'))
    (h : ∀ name, lastClosed results name = lastClosed results' name) :
    ∃ m m', s'.segmentMeta.segmentMeta = some m ∧ t'.segmentMeta.segmentMeta = some m' ∧
      m' = { m with columnsMeta := m'.columnsMeta } ∧ m.columnsMeta.Perm m'.columnsMeta ∧
      s'.segmentMeta.columnsLayout.Perm t'.segmentMeta.columnsLayout := by
  obtain ⟨_, _, d, i, h1, _⟩ := new_ok hs
  obtain ⟨_, _, d', i', h2, _⟩ := new_ok ht
  have h3 := runSeg_is (p := p) (os := os) (info := info) ops (s := s) (closed := []) h1
  have h4 := runSeg_is (p := p') (os := os') (info := info) ops' (s := t) (closed := []) h2
  rw [hrs] at h3
  rw [hrt] at h4
  simp only [List.nil_append] at h3 h4
  rw [h3, h4]
  refine ⟨_, _, rfl, rfl, rfl, perm_of_get (mapOf_nodup _ _) (mapOf_nodup _ _) fun k => ?_,
    perm_of_get (mapOf_nodup _ _) (mapOf_nodup _ _) fun k => ?_⟩
  · have := h k
    rw [lastClosed, lastClosed] at this
    rw [mapOf_get, mapOf_get, this]
  · have := h k
    rw [lastClosed, lastClosed] at this
    show (mapOf _ _).get k = (mapOf _ _).get k
    rw [mapOf_get, mapOf_get, this]

/-- C124: two segments with the same columns, under different names, in different orders, closed without an error: in the data files
the bytes of each column are the same, in the order of the columns; the metadata has the same entries, up to their
order; and the index files are equally long. -/
theorem C124_any_order (p : Profile) (os os' : SegmentOs) (info : SegmentInfo) (s t s' t' : SegmentWriter)
    (hs : SegmentWriter.new p os info = .ok s) (ht : SegmentWriter.new p os' info = .ok t)
    (cols cols' : List (ColumnInfo × List ColOp)) (hp : cols.Perm cols') (hn : (cols.map (·.1.name)).Nodup)
    (order order' : HashOrder) (results results' : List SegResult)
    (hrs : runSeg p os (cols.map (fun c => .column c.1 c.2) ++ [.close order]) s = (results, s'))
    (hrt : runSeg p os' (cols'.map (fun c => .column c.1 c.2) ++ [.close order']) t = (results', t'))
    (hgs : ∀ x ∈ results, x.Good) (hgt : ∀ x ∈ results', x.Good) :
    (∃ bytes : ColumnInfo × List ColOp → Bytes,
      s'.dataWriter.file.content ++ s'.dataWriter.file.pending = DATA_FILE_SIGNATURE ++ (cols.map bytes).flatten ∧
      t'.dataWriter.file.content ++ t'.dataWriter.file.pending = DATA_FILE_SIGNATURE ++ (cols'.map bytes).flatten) ∧
    (∃ m m', s'.segmentMeta.segmentMeta = some m ∧ t'.segmentMeta.segmentMeta = some m' ∧
      m' = { m with columnsMeta := m'.columnsMeta } ∧ m.columnsMeta.Perm m'.columnsMeta ∧
      s'.segmentMeta.columnsLayout.Perm t'.segmentMeta.columnsLayout) ∧
    s'.indexWriter.file.content.length = t'.indexWriter.file.content.length := by
  have h1 := C47_data_is_columns p os info s s' hs _ results hrs hgs
  have h2 := C47_data_is_columns p os' info t t' ht _ results' hrt hgt
  rw [columnBytes_eq] at h1 h2
  have h3 := closed_eq (p := p) (os := os) (order := order) cols (s := s) (by rw [hrs]; exact hgs)
  have h4 := closed_eq (p := p) (os := os') (order := order') cols' (s := t) (by rw [hrt]; exact hgt)
  rw [hrs] at h3
  rw [hrt] at h4
  have h5 : ∀ name, lastClosed results name = lastClosed results' name := by
    intro name
    rw [lastClosed, lastClosed, h3, h4]
    refine find_same (fun x => ?_) (fun x hx y hy hxy => ?_) name
    · simp only [List.mem_flatMap, hp.mem_iff]
    · obtain ⟨c, hc, hxc⟩ := List.mem_flatMap.1 hx
      obtain ⟨d, hd, hyd⟩ := List.mem_flatMap.1 hy
      rw [mem_kept hxc, mem_kept hyd] at hxy ⊢
      rw [eq_of_name hn c hc d hd hxy]
  obtain ⟨m, m', a1, a2, a3, a4, a5⟩ := C124_metadata p p os os' info s t s' t' hs ht _ _ results results' hrs hrt h5
  refine ⟨⟨_, h1, h2⟩, ⟨m, m', a1, a2, a3, a4, a5⟩, ?_⟩
  rw [C53_index_locates_blocks_violated.2.1 p os info s s' cols order results hs hrs hgs,
    C53_index_locates_blocks_violated.2.1 p os' info t t' cols' order' results' ht hrt hgt]
  simp only [List.length_append, HashOrder.apply, a1, a2, Option.map_some]
  rw [encode_length (b := { m' with columnsMeta := order'.columnsMeta m'.columnsMeta })
    (l' := order'.columnsLayout t'.segmentMeta.columnsLayout)
    (by rw [a3]) ((order.columnsMeta_perm _).trans (a4.trans (order'.columnsMeta_perm _).symm))
    ((order.columnsLayout_perm _).trans (a5.trans (order'.columnsLayout_perm _).symm))]

/-- Two columns in the two orders: the second one is of the other encoding. -/
example : ∃ s, SegmentWriter.new .debug .reliable exampleInfo = .ok s ∧
    let run1 := runSeg .debug .reliable (exampleOps ++ [.close .insertion]) s
    let run2 := runSeg .debug .reliable (exampleOps.reverse ++ [.close .insertion]) s
    (∀ x ∈ run1.1 ++ run2.1, x.Good) ∧
    run1.2.dataWriter.file.content = DATA_FILE_SIGNATURE ++ [3, 120, 121, 122, 2, 2] ++ (SNAPPY_BLOCK ++ SNAPPY_BLOCK) ∧
    run2.2.dataWriter.file.content = DATA_FILE_SIGNATURE ++ (SNAPPY_BLOCK ++ SNAPPY_BLOCK) ++ [3, 120, 121, 122, 2, 2] ∧
    run1.2.segmentMeta.columnsLayout.map (·.1) = ["a", "b"] ∧ run2.2.segmentMeta.columnsLayout.map (·.1) = ["b", "a"] ∧
    run1.2.indexWriter.file.content.length = 103 ∧ run2.2.indexWriter.file.content.length = 103 := by
  refine exists_ok ?_
  decide +kernel

/-- With one name the order matters: the column closed last is the one that is listed. -/
example : ∃ s, SegmentWriter.new .debug .reliable exampleInfo = .ok s ∧
    let a := SegOp.column (exampleColumn "a") [.close]
    let b := SegOp.column { exampleColumn "a" with encoding := .snappy } [.close]
    let run1 := runSeg .debug .reliable [a, b] s
    let run2 := runSeg .debug .reliable [b, a] s
    (∀ x ∈ run1.1 ++ run2.1, x.Good) ∧
    run1.2.segmentMeta.columnsLayout.map (·.2.encoderLayout) = [some .snappy] ∧
    run2.2.segmentMeta.columnsLayout.map (·.2.encoderLayout) = [some .plain] := by
  refine exists_ok ?_
  decide +kernel
