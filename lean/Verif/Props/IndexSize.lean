import Verif.Props.SegmentMeta

set_option autoImplicit false

/-! # C123: the index file takes space in proportion to the names of the columns -/

namespace Meerkat

/-- The names of the columns that a history creates. -/
def Spec.columnNames : List SegOp → List String
  | [] => []
  | .column info _ :: ops => info.name :: columnNames ops
  | .close _ :: ops => columnNames ops

namespace IndexSize
open Prost

theorem varint_one {n : Nat} (h : n < 128) : (varint n).length = 1 := by
  rw [varint, if_pos h]; rfl

theorem varint_le (k : Nat) : ∀ n : Nat, n < 128 ^ (k + 1) → (varint n).length ≤ k + 1 := by
  induction k with
  | zero => intro n h; rw [varint_one (by omega)]; exact Nat.le_refl _
  | succ k ih =>
    intro n h
    rw [varint]
    split
    · simp
    · rw [List.length_cons]
      have := ih (n / 128) (by
        rw [Nat.div_lt_iff_lt_mul (by omega)]
        rw [Nat.pow_succ] at h
        exact h)
      omega

theorem varint_ten {n : Nat} (h : n < 2 ^ 64) : (varint n).length ≤ 10 :=
  varint_le 9 n (Nat.lt_of_lt_of_le h (by decide))

theorem varint_five {n : Nat} (h : n < 2 ^ 32) : (varint n).length ≤ 5 :=
  varint_le 4 n (Nat.lt_of_lt_of_le h (by decide))

theorem key_one {tag w : Nat} (h : tag < 15) (hw : w < 8) : (key tag w).length = 1 := varint_one (by omega)

theorem lenField_ge (tag : Nat) (b : Bytes) : b.length ≤ (lenField tag b).length := by
  simp only [lenField, List.length_append]; omega

theorem lenField_le {tag : Nat} {b : Bytes} (ht : tag < 15) (hb : b.length < 2 ^ 64) :
    (lenField tag b).length ≤ 11 + b.length := by
  simp only [lenField, List.length_append, key_one ht (show 2 < 8 by omega)]
  have := varint_ten hb
  omega

theorem lenField_short {tag : Nat} {b : Bytes} (ht : tag < 15) (hb : b.length < 128) :
    (lenField tag b).length = 2 + b.length := by
  simp only [lenField, List.length_append, key_one ht (show 2 < 8 by omega), varint_one hb]

theorem varintField_short {tag n : Nat} (ht : tag < 15) (hn : n < 128) : (varintField tag n).length ≤ 2 := by
  rw [varintField]
  split
  · simp
  · simp [key_one ht (show 0 < 8 by omega), varint_one hn]

theorem varintField_32 {tag n : Nat} (ht : tag < 15) (hn : n < 2 ^ 32) : (varintField tag n).length ≤ 6 := by
  rw [varintField]
  split
  · simp
  · simp only [List.length_append, key_one ht (show 0 < 8 by omega)]
    have := varint_five hn
    omega

theorem bytesField_ge (tag : Nat) (b : Bytes) : b.length ≤ (bytesField tag b).length := by
  rw [bytesField]
  split
  · simp [*]
  · exact lenField_ge _ _

theorem bytesField_le {tag : Nat} {b : Bytes} (ht : tag < 15) (hb : b.length < 2 ^ 64) :
    (bytesField tag b).length ≤ 11 + b.length := by
  rw [bytesField]
  split
  · simp
  · exact lenField_le ht hb

theorem utf8_length (s : String) : (utf8 s).length = s.toUTF8.size := rfl

theorem stringField_ge (tag : Nat) (s : String) : s.toUTF8.size ≤ (stringField tag s).length := bytesField_ge _ _

theorem stringField_le {tag : Nat} {s : String} (ht : tag < 15) (hb : s.toUTF8.size < 2 ^ 64) :
    (stringField tag s).length ≤ 11 + s.toUTF8.size := bytesField_le ht hb

/-- A column takes at most 19 bytes besides its name. -/
theorem columnMeta_le (ci : ColumnInfo) (h : ci.name.toUTF8.size < 2 ^ 64) :
    (encodeColumnMeta (ColumnWriter.columnMeta ci)).length ≤ 19 + ci.name.toUTF8.size := by
  have h1 := stringField_le (tag := 1) (by decide) h
  have h2 : (int32Field 2 ci.columnType.toInt32).length ≤ 2 :=
    varintField_short (by decide) (by cases ci.columnType <;> decide)
  have h3 : (boolField 3 ci.nullable).length ≤ 2 := varintField_short (by decide) (by cases ci.nullable <;> decide)
  have h4 : (int32Field 4 ci.encoding.toInt32).length ≤ 2 :=
    varintField_short (by decide) (by cases ci.encoding <;> decide)
  have h5 : (int32Field 5 ci.indexType.toInt32).length ≤ 2 :=
    varintField_short (by decide) (by cases ci.indexType <;> decide)
  have h6 : ∀ t, varintField t (0 : UInt32).toNat = [] := fun _ => rfl
  have h7 : ∀ t, varintField t (0 : UInt64).toNat = [] := fun _ => rfl
  simp only [encodeColumnMeta, ColumnWriter.columnMeta, List.length_append, h6, h7, List.length_nil]
  omega

theorem name_le (ci : ColumnInfo) : ci.name.toUTF8.size ≤ (encodeColumnMeta (ColumnWriter.columnMeta ci)).length := by
  have := stringField_ge 1 ci.name
  simp only [encodeColumnMeta, ColumnWriter.columnMeta, List.length_append]
  omega

/-- The layout that a column gets. -/
def SmallLayout (cl : ColumnLayout) : Prop := (encodeColumnLayout cl).length = 6

theorem small_layout {l : EncoderLayout} (h : l = .plain ∨ l = .snappy) :
    SmallLayout ⟨some ⟨some ⟨0, 0⟩⟩, none, some l⟩ := by
  rw [SmallLayout]
  have e1 : varintField 1 (0 : UInt64).toNat = [] := rfl
  have e2 : varintField 2 (0 : UInt64).toNat = [] := rfl
  have e3 : ∀ t, t < 15 → (lenField t []).length = 2 := fun t ht => lenField_short ht (by decide)
  have e4 : (optField 3 encodeRangeMessage (some ⟨some ⟨0, 0⟩⟩)).length = 4 := by
    simp only [optField, encodeRangeMessage, encodeRange, e1, e2, List.append_nil]
    rw [lenField_short (by decide) (by rw [e3 _ (by decide)]; decide), e3 _ (by decide)]
  rcases h with rfl | rfl <;>
    simp only [encodeColumnLayout, List.length_append, e4, encodeEncoderLayout, e3 4 (by decide), e3 6 (by decide),
      List.length_nil]

/-- The metadata has entries of the columns `ns` only, each as `close` makes them. -/
def Small (ns : List String) (md : Metadata) : Prop :=
  (∀ m, md.segmentMeta = some m → ∀ e ∈ m.columnsMeta, ∃ ci : ColumnInfo, ci.name ∈ ns ∧
    e = (ci.name, ColumnWriter.columnMeta ci)) ∧
  ∀ e ∈ md.columnsLayout, e.1 ∈ ns ∧ SmallLayout e.2

theorem Small.mono {ns ns' : List String} {md : Metadata} (h : Small ns md) (hs : ∀ n ∈ ns, n ∈ ns') : Small ns' md :=
  ⟨fun m hm e he => by
    obtain ⟨ci, h1, h2⟩ := h.1 m hm e he
    exact ⟨ci, hs _ h1, h2⟩, fun e he => ⟨hs _ (h.2 e he).1, (h.2 e he).2⟩⟩

theorem Small.insert {ns : List String} {md md' : Metadata} (h : Small ns md) {ci : ColumnInfo} (hn : ci.name ∈ ns)
    {cl : ColumnLayout} (hl : SmallLayout cl)
    (hi : ColumnWriter.insertColumn md ci.name (ColumnWriter.columnMeta ci) cl = .ok md') : Small ns md' := by
  simp only [ColumnWriter.insertColumn] at hi
  split at hi
  · cases hi
  · rename_i m hm
    cases hi
    refine ⟨fun m' hm' e he => ?_, fun e he => ?_⟩
    · cases hm'
      simp only [StringMap.insert, List.mem_append, List.mem_filter, List.mem_singleton] at he
      rcases he with ⟨he, _⟩ | rfl
      · exact h.1 m hm e he
      · exact ⟨ci, hn, rfl⟩
    · simp only [StringMap.insert, List.mem_append, List.mem_filter, List.mem_singleton] at he
      rcases he with ⟨he, _⟩ | rfl
      · exact h.2 e he
      · exact ⟨hn, hl⟩

theorem colOps_small {p : Profile} {os : SegmentOs} {ns : List String} (ops : List ColOp) {c : ColumnWriter}
    {s : SegmentWriter} (hn : c.columnInfo.name ∈ ns) (h : Small ns s.segmentMeta) :
    Small ns (runColOps p os ops (c, s)).2.2.segmentMeta := by
  induction ops generalizing c s with
  | nil => exact h
  | cons op ops ih =>
    rcases h1 : op.run p os (c, s) with ⟨r, c1, s1⟩
    simp only [runColOps, h1]
    cases op with
    | write b =>
      obtain ⟨_, h3, _, h5⟩ := onSink_eq (show ColumnWriter.onSink _ (c, s) = _ from h1)
      exact ih (by rw [h3]; exact hn) (by rw [h5]; exact h)
    | close =>
      rcases r with f | r
      · obtain ⟨h3, h5⟩ := close_error h1
        exact ih (by rw [h3]; exact hn) (by rw [h5]; exact h)
      · obtain ⟨l, h2, h3, _, h5⟩ := close_ok h1
        refine ih (by rw [h3]; exact hn) (h.insert hn (small_layout ?_) h5)
        rcases (BinaryEncoder.flush_kind h2).2 l rfl with ⟨_, h⟩ | ⟨_, h⟩
        · exact .inr h
        · exact .inl h

theorem runSeg_small {p : Profile} {os : SegmentOs} {ns : List String} (ops : List SegOp) {s : SegmentWriter}
    (hn : ∀ n ∈ Spec.columnNames ops, n ∈ ns) (h : Small ns s.segmentMeta) :
    Small ns (runSeg p os ops s).2.segmentMeta := by
  induction ops generalizing s with
  | nil => exact h
  | cons op ops ih =>
    cases op with
    | column ci cops =>
      simp only [Spec.columnNames, List.mem_cons, forall_eq_or_imp] at hn
      rcases he : newBinaryEncoder ci.encoding BLOCK_SIZE ci.nullable with f | e
      · simp only [runSeg, SegOp.run, SegmentWriter.newBinaryColumnWriter, he]
        exact ih (s := { s with blockIndex := s.blockIndex.clear }) hn.2 h
      · simp only [runSeg, SegOp.run, SegmentWriter.newBinaryColumnWriter, he]
        exact ih hn.2 (colOps_small cops (s := { s with blockIndex := s.blockIndex.clear }) hn.1 h)
    | close order =>
      simp only [runSeg, SegOp.run]
      exact ih hn (by rw [segClose_meta]; exact h)

/-- The sum over different names is at most the sum over a list that has them all. -/
theorem sum_le (f : String → Nat) (a : List String) : ∀ b : List String, a.Nodup → (∀ x ∈ a, x ∈ b) →
    (a.map f).sum ≤ (b.map f).sum := by
  induction a with
  | nil => intro _ _ _; exact Nat.zero_le _
  | cons x a ih =>
    intro b ha h
    have hx := h x (by simp)
    have h1 : (b.map f).sum = ((x :: b.erase x).map f).sum := (List.Perm.map f (List.perm_cons_erase hx)).sum_nat
    rw [h1]
    simp only [List.map_cons, List.sum_cons]
    have := ih (b.erase x) (List.nodup_cons.1 ha).2 fun y hy =>
      (List.mem_erase_of_ne (by rintro rfl; exact (List.nodup_cons.1 ha).1 hy)).2 (h y (by simp [hy]))
    omega

/-- The bytes of a map, if each entry is small. -/
theorem mapField_le {V : Type} [DecidableEq V] {tag : Nat} (ht : tag < 15) (dflt : V) (enc : V → Bytes) (c k : Nat)
    (m : StringMap V) (hlen : (mapField tag dflt enc m).length < 2 ^ 64)
    (hm : ∀ e ∈ m, (enc e.2).length < 2 ^ 64 → (lenField 2 (enc e.2)).length ≤ c + k * e.1.toUTF8.size) :
    (mapField tag dflt enc m).length ≤ ((m.map Prod.fst).map fun n => 22 + c + (k + 1) * n.toUTF8.size).sum := by
  induction m with
  | nil => exact Nat.zero_le _
  | cons e m ih =>
    simp only [mapField, List.flatMap_cons, List.length_append, List.map_cons, List.sum_cons] at hlen ⊢
    have h1 := ih (by simp only [mapField]; omega) fun e he => hm e (by simp [he])
    simp only [mapField] at h1
    have h2 := hm e (by simp)
    have hge := lenField_ge tag (stringField 1 e.1 ++ if e.2 = dflt then [] else lenField 2 (enc e.2))
    have hle := lenField_le (tag := tag) (b := stringField 1 e.1 ++ if e.2 = dflt then [] else lenField 2 (enc e.2)) ht
      (by omega)
    simp only [List.length_append] at hge hle
    have h3 := stringField_ge 1 e.1
    have h4 := stringField_le (tag := 1) (s := e.1) (by decide) (by omega)
    have h0 : (if e.2 = dflt then [] else lenField 2 (enc e.2)).length < 2 ^ 64 := by omega
    have h5 : (if e.2 = dflt then [] else lenField 2 (enc e.2)).length ≤ c + k * e.1.toUTF8.size := by
      split
      · simp
      · rename_i hne
        rw [if_neg hne] at h0
        have := lenField_ge 2 (enc e.2)
        exact h2 (by omega)
    rw [Nat.add_mul]
    omega

end IndexSize

open IndexSize

/-- C123, the metadata: whatever is done with a segment and whatever fails, the metadata that `close` encodes takes at most
56 bytes and the id and names of the segment, and for each column 82 bytes and three times its name. -/
theorem C123_metadata (p : Profile) (os : SegmentOs) (info : SegmentInfo) (s s' : SegmentWriter)
    (hnew : SegmentWriter.new p os info = .ok s) (ops : List SegOp) (order : HashOrder) (results : List SegResult)
    (hrun : runSeg p os ops s = (results, s'))
    (hlen : (Prost.encodeMetadata (order.apply s'.segmentMeta)).length < 2 ^ 64) :
    (Prost.encodeMetadata (order.apply s'.segmentMeta)).length ≤
      56 + info.segmentId.length + info.databaseName.toUTF8.size + info.tableName.toUTF8.size +
      ((Spec.columnNames ops).map fun n => 82 + 3 * n.toUTF8.size).sum := by
  obtain ⟨_, _, d, i, h3, _⟩ := new_ok hnew
  obtain ⟨m, hm⟩ := runSeg_meta (p := p) (os := os) (info := info) ops (s := s) (closed := [])
    (m := { segmentId := info.segmentId, tableName := info.tableName, databaseName := info.databaseName,
            shardId := info.shardId, compressedSize := 0, uncompressedSize := 0, numRows := info.numRows,
            columnsMeta := [] })
    (by rw [h3]; exact ⟨rfl, rfl, rfl, rfl, rfl, rfl, rfl, rfl, List.nodup_nil, List.nodup_nil, fun _ => ⟨rfl, rfl⟩⟩)
  have hs := runSeg_small (p := p) (os := os) (ns := Spec.columnNames ops) ops (s := s) (fun _ h => h) (by
    rw [h3]
    refine ⟨fun m hm e he => ?_, fun e he => ?_⟩
    · cases hm
      cases he
    · cases he)
  rw [hrun] at hm hs
  have hp := hm.present
  simp only at hp hs
  have e1 : order.apply s'.segmentMeta =
      { segmentMeta := some { m with columnsMeta := order.columnsMeta m.columnsMeta },
        columnsLayout := order.columnsLayout s'.segmentMeta.columnsLayout } := by
    rw [HashOrder.apply, hp]; rfl
  rw [e1] at hlen ⊢
  simp only [Prost.encodeMetadata, Prost.optField, List.length_append] at hlen ⊢
  have g1 := lenField_ge 1 (Prost.encodeSegmentMeta { m with columnsMeta := order.columnsMeta m.columnsMeta })
  have g2 := lenField_le (tag := 1) (b := Prost.encodeSegmentMeta { m with columnsMeta := order.columnsMeta m.columnsMeta })
    (by decide) (by omega)
  have hmp := order.columnsMeta_perm m.columnsMeta
  have hlp := order.columnsLayout_perm s'.segmentMeta.columnsLayout
  have k1 := mapField_le (tag := 2) (by decide) {} Prost.encodeColumnLayout 8 0 (order.columnsLayout s'.segmentMeta.columnsLayout)
    (by omega) fun e he _ => by
      have := (hs.2 e (hlp.mem_iff.1 he)).2
      rw [SmallLayout] at this
      rw [lenField_short (by decide) (by omega)]
      omega
  have g3 : (Prost.encodeSegmentMeta { m with columnsMeta := order.columnsMeta m.columnsMeta }).length < 2 ^ 64 := by omega
  have g4 : ∀ x : SegmentMeta, (Prost.encodeSegmentMeta x).length = (Prost.bytesField 1 x.segmentId).length +
      (Prost.stringField 2 x.databaseName).length + (Prost.stringField 3 x.tableName).length +
      (Prost.varintField 4 x.shardId.toNat).length + (Prost.varintField 5 x.compressedSize.toNat).length +
      (Prost.varintField 6 x.uncompressedSize.toNat).length + (Prost.varintField 7 x.numRows.toNat).length +
      (Prost.mapField 8 {} Prost.encodeColumnMeta x.columnsMeta).length := fun x => by
    simp only [Prost.encodeSegmentMeta, List.length_append]
  have g4 := g4 { m with columnsMeta := order.columnsMeta m.columnsMeta }
  simp only at g4
  have k2 := mapField_le (tag := 8) (by decide) {} Prost.encodeColumnMeta 30 1 (order.columnsMeta m.columnsMeta)
    (by omega) fun e he hlt => by
      obtain ⟨ci, _, rfl⟩ := hs.1 m hp e (hmp.mem_iff.1 he)
      have := name_le ci
      have := columnMeta_le ci (by simp only at hlt; omega)
      have := lenField_le (tag := 2) (by decide) hlt
      simp only at *
      omega
  have f1 := bytesField_ge 1 m.segmentId
  have f2 := bytesField_le (tag := 1) (b := m.segmentId) (by decide) (by omega)
  have f3 := stringField_ge 2 m.databaseName
  have f4 := stringField_le (tag := 2) (s := m.databaseName) (by decide) (by omega)
  have f5 := stringField_ge 3 m.tableName
  have f6 := stringField_le (tag := 3) (s := m.tableName) (by decide) (by omega)
  have f7 := varintField_32 (tag := 4) (n := m.shardId.toNat) (by decide) m.shardId.toNat_lt
  have f8 := varintField_32 (tag := 7) (n := m.numRows.toNat) (by decide) m.numRows.toNat_lt
  have f9 : (Prost.varintField 5 m.compressedSize.toNat).length = 0 := by rw [hm.compressedSize]; rfl
  have f10 : (Prost.varintField 6 m.uncompressedSize.toNat).length = 0 := by rw [hm.uncompressedSize]; rfl
  have s1 := sum_le (fun n => 22 + 30 + (1 + 1) * n.toUTF8.size) _ (Spec.columnNames ops)
    ((hmp.map Prod.fst).nodup_iff.2 hm.nodupMeta) (fun x hx => by
      obtain ⟨e, he, rfl⟩ := List.mem_map.1 hx
      obtain ⟨ci, hci, rfl⟩ := hs.1 m hp e (hmp.mem_iff.1 he)
      exact hci)
  have s2 := sum_le (fun n => 22 + 8 + (0 + 1) * n.toUTF8.size) _ (Spec.columnNames ops)
    ((hlp.map Prod.fst).nodup_iff.2 hm.nodupLayout) (fun x hx => by
      obtain ⟨e, he, rfl⟩ := List.mem_map.1 hx
      exact (hs.2 e (hlp.mem_iff.1 he)).1)
  have s3 : ∀ ns : List String, (ns.map fun n => 82 + 3 * n.toUTF8.size).sum =
      (ns.map fun n => 22 + 30 + (1 + 1) * n.toUTF8.size).sum + (ns.map fun n => 22 + 8 + (0 + 1) * n.toUTF8.size).sum := by
    intro ns
    induction ns with
    | nil => rfl
    | cons n ns ih => simp only [List.map_cons, List.sum_cons, ih]; omega
  rw [s3, ← hm.segmentId, ← hm.databaseName, ← hm.tableName]
  omega

/-- C123: the index file of a segment whose columns were written and that was closed takes at most 76 bytes and the id and
names of the segment, and for each column 82 bytes and three times its name, however many rows and blocks there are. -/
theorem C123_index_file (p : Profile) (os : SegmentOs) (info : SegmentInfo) (s s' : SegmentWriter)
    (hnew : SegmentWriter.new p os info = .ok s) (cols : List (ColumnInfo × List ColOp)) (order : HashOrder)
    (results : List SegResult)
    (hrun : runSeg p os (cols.map (fun c => .column c.1 c.2) ++ [.close order]) s = (results, s'))
    (hgood : ∀ x ∈ results, x.Good) (hlen : s'.indexWriter.file.content.length < 2 ^ 64) :
    s'.indexWriter.file.pending = [] ∧ s'.indexWriter.file.content.length ≤
      76 + info.segmentId.length + info.databaseName.toUTF8.size + info.tableName.toUTF8.size +
      (cols.map fun c => 82 + 3 * c.1.name.toUTF8.size).sum := by
  have h1 := C53_index_locates_blocks_violated.2.1 p os info s s' cols order results hnew hrun hgood
  have h2 := (C46_files_framed p os info s s' hnew _ order results hrun hgood hlen).1
  rw [h1] at hlen ⊢
  simp only [List.length_append] at hlen ⊢
  have e1 : INDEX_FILE_SIGNATURE.length = 12 := rfl
  have h3 := C123_metadata p os info s s' hnew _ order results hrun (by omega)
  have h4 : ∀ (cs : List (ColumnInfo × List ColOp)), Spec.columnNames (cs.map (fun c => .column c.1 c.2) ++ [.close order]) =
      cs.map fun c => c.1.name := by
    intro cs
    induction cs with
    | nil => rfl
    | cons c cs ih => simp only [List.map_cons, List.cons_append, Spec.columnNames, ih]
  rw [h4, List.map_map] at h3
  simp only [Function.comp_def] at h3
  refine ⟨h2, ?_⟩
  simp only [e1, List.length_cons, List.length_nil]
  omega

/-- Two columns, of two and of four rows. The bound is 265 bytes. -/
example : ∃ s, SegmentWriter.new .debug .reliable exampleInfo = .ok s ∧
    let run := runSeg .debug .reliable (exampleOps ++ [.close .insertion]) s
    (∀ x ∈ run.1, x.Good) ∧ run.2.indexWriter.file.content.length = 103 := by
  refine exists_ok ?_
  decide +kernel

/-- A column without a successful close takes no space, and one that is closed twice takes it once. -/
example : ∃ s, SegmentWriter.new .debug .reliable exampleInfo = .ok s ∧
    let run := runSeg .debug .reliable [.column (exampleColumn "a") [.write exampleBuffer],
      .column (exampleColumn "b") [.write exampleBuffer, .close, .close], .close .insertion] s
    (∀ x ∈ run.1, x.Good) ∧ run.2.indexWriter.file.content.length = 76 := by
  refine exists_ok ?_
  decide +kernel
